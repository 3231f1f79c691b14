import Verif.Spec.Part
import Verif.Lemmas.Map
namespace Verif.Part

/-! ### The part of a node that exports and imports do not touch -/

def skel (n : Node) : Node := { n with item := match n.item with
  | .boundary _ cs => .boundary [] cs
  | .type_ _ => .type_ []
  | .impl _ => .impl [] }

/-- The graphs differ in exports and imports only. -/
def Same (ps qs : Parts) : Prop := ps.map skel = qs.map skel

theorem Same.refl (ps : Parts) : Same ps ps := rfl
theorem Same.symm {ps qs : Parts} (h : Same ps qs) : Same qs ps := Eq.symm h
theorem Same.trans {ps qs rs : Parts} (h : Same ps qs) (k : Same qs rs) : Same ps rs := Eq.trans h k

theorem skel_bnd (n : Node) : (skel n).item.isBoundary = n.item.isBoundary := by
  cases n with | mk a b c => cases c <;> rfl
theorem skel_type (n : Node) : (skel n).item.isType = n.item.isType := by
  cases n with | mk a b c => cases c <;> rfl
theorem skel_children (n : Node) : (skel n).item.children = n.item.children := by
  cases n with | mk a b c => cases c <;> rfl
theorem skel_rank (n : Node) : rank (skel n).item = rank n.item := by
  cases n with | mk a b c => cases c <;> rfl
theorem skel_name (n : Node) : (skel n).name = n.name := rfl
theorem skel_parent (n : Node) : (skel n).parent = n.parent := rfl

theorem Same.length {ps qs : Parts} (h : Same ps qs) : ps.length = qs.length := by
  have := congrArg List.length h; simpa using this

theorem Same.node {ps qs : Parts} (h : Same ps qs) {i : Nat} {n : Node} (hn : ps[i]? = some n) :
    ∃ m : Node, qs[i]? = some m ∧ m.name = n.name ∧ m.parent = n.parent ∧ m.item.isBoundary = n.item.isBoundary ∧
      m.item.isType = n.item.isType ∧ m.item.children = n.item.children ∧ rank m.item = rank n.item := by
  have e : (ps.map skel)[i]? = (qs.map skel)[i]? := by rw [h]
  rw [List.getElem?_map, List.getElem?_map, hn] at e
  cases hm : qs[i]? with
  | none => rw [hm] at e; simp at e
  | some m =>
    rw [hm] at e
    have e : skel n = skel m := by simpa using e
    refine ⟨m, rfl, ?_, ?_, ?_, ?_, ?_, ?_⟩
    · rw [← skel_name m, ← e]; rfl
    · rw [← skel_parent m, ← e]; rfl
    · rw [← skel_bnd m, ← e, skel_bnd]
    · rw [← skel_type m, ← e, skel_type]
    · rw [← skel_children m, ← e, skel_children]
    · rw [← skel_rank m, ← e, skel_rank]

theorem Same.is {ps qs : Parts} (h : Same ps qs) (p : Node → Bool)
    (hp : ∀ n m : Node, n.name = m.name → n.item.isBoundary = m.item.isBoundary → n.item.isType = m.item.isType →
      p n = p m) (i : Nat) : is ps p i = is qs p i := by
  unfold Part.is
  cases e : ps[i]? with
  | some n =>
    obtain ⟨m, e', a, _, b, c, _⟩ := h.node e
    rw [e']; exact hp _ _ a.symm b.symm c.symm
  | none =>
    have : qs[i]? = none := by
      rw [List.getElem?_eq_none_iff] at e ⊢
      rw [← h.length]; exact e
    rw [this]

theorem Same.children {ps qs : Parts} (h : Same ps qs) (b : Nat) : children ps b = children qs b := by
  unfold Part.children
  cases e : ps[b]? with
  | some n =>
    obtain ⟨m, e', _, _, hb, _, hc, _⟩ := h.node e
    rw [e']; simp only [hb, hc]
  | none =>
    have : qs[b]? = none := by
      rw [List.getElem?_eq_none_iff] at e ⊢
      rw [← h.length]; exact e
    rw [this]

theorem Same.idLe {ps qs : Parts} (h : Same ps qs) (a b : Nat) : idLe ps a b = idLe qs a b := by
  have key : ∀ i : Nat, (ps[i]?).map (fun n => (n.name, rank n.item)) = (qs[i]?).map (fun n => (n.name, rank n.item)) := by
    intro i
    cases e : ps[i]? with
    | some n =>
      obtain ⟨m, e', hn, _, _, _, _, hr⟩ := h.node e
      rw [e']; simp [hn, hr]
    | none =>
      have : qs[i]? = none := by
        rw [List.getElem?_eq_none_iff] at e ⊢
        rw [← h.length]; exact e
      rw [this]
  have ha := key a; have hb := key b
  unfold Part.idLe
  cases e1 : ps[a]? <;> cases e2 : qs[a]? <;> cases e3 : ps[b]? <;> cases e4 : qs[b]? <;>
    simp_all [nodeLe]

theorem Same.globFind {ps qs : Parts} (h : Same ps qs) (g : Glob) (b : Nat) (pat : String) :
    globFind g ps b pat = globFind g qs b pat := by
  unfold Part.globFind
  cases g pat with
  | none => rfl
  | some m =>
    have e : (fun i => Part.is ps (fun n => m n.name) i) = (fun i => Part.is qs (fun n => m n.name) i) :=
      funext fun i => h.is _ (fun n k a _ _ => by rw [a]) i
    have e : Part.is ps (fun n => m n.name) = Part.is qs (fun n => m n.name) := e
    simp only [h.children b, e]

theorem Same.fromVec {ps qs : Parts} (h : Same ps qs) (ids : List Nat) : fromVec ids ps = fromVec ids qs := by
  unfold Part.fromVec
  have e : Part.idLe ps = Part.idLe qs := funext fun a => funext fun b => h.idLe a b
  rw [e]

theorem Same.exportIds {ps qs : Parts} (h : Same ps qs) (g : Glob) (b : Nat) (es : List String) (xs : List Nat) :
    exportIds g ps b es xs = exportIds g qs b es xs := by
  induction es generalizing xs with
  | nil => rfl
  | cons e es ih =>
    have hi : Part.is ps (fun n => n.item.isBoundary) = Part.is qs (fun n => n.item.isBoundary) :=
      funext fun i => h.is _ (fun n k _ a _ => a) i
    simp only [Part.exportIds, h.globFind g b e, hi, ih]

theorem Same.findBoundary {ps qs : Parts} (h : Same ps qs) (path : List String) (a : Nat) :
    findBoundary ps a path = findBoundary qs a path := by
  induction path generalizing a with
  | nil => rfl
  | cons p path ih =>
    unfold Part.findBoundary
    have hi : Part.is ps (eqBoundary p) = Part.is qs (eqBoundary p) :=
      funext fun i => h.is _ (fun n k a b _ => by simp [eqBoundary, a, b]) i
    split
    · cases e : ps[a]? with
      | some n =>
        obtain ⟨m, e', _, hp, _⟩ := h.node e
        rw [e']; simp only [hp, ih]
      | none =>
        have : qs[a]? = none := by
          rw [List.getElem?_eq_none_iff] at e ⊢
          rw [← h.length]; exact e
        rw [this]
    · simp only [h.children a, hi, ih]

/-! ### Nodes after each basic change -/

theorem modify_get (ps : Parts) (i j : Nat) (f : Node → Node) :
    (List.modify ps i f)[j]? = if i = j then (ps[j]?).map f else ps[j]? := by
  rw [List.getElem?_modify]
  split <;> simp

theorem addNode_get {ps : Parts} {b : Nat} (hb : b < ps.length) (nm : String) (it : Item) (i : Nat) :
    (addNode ps b nm it).1[i]? = if i = ps.length then some ⟨nm, some b, it⟩
      else if b = i then (ps[i]?).map (addChild ps.length) else ps[i]? := by
  simp only [addNode, modify_get]
  by_cases h : i = ps.length
  · subst h
    have : b ≠ ps.length := Nat.ne_of_lt hb
    simp [this]
  · rw [if_neg h]
    by_cases h2 : i < ps.length
    · rw [List.getElem?_append_left h2]
    · have h3 : ps.length + 1 ≤ i := by omega
      have e1 : (ps ++ [(⟨nm, some b, it⟩ : Node)])[i]? = none := by
        rw [List.getElem?_eq_none_iff]; simp; omega
      have e2 : ps[i]? = none := by rw [List.getElem?_eq_none_iff]; omega
      rw [e1, e2]

theorem addNode_length (ps : Parts) (b : Nat) (nm : String) (it : Item) :
    (addNode ps b nm it).1.length = ps.length + 1 := by simp [addNode]

theorem addNode_id (ps : Parts) (b : Nat) (nm : String) (it : Item) : (addNode ps b nm it).2 = ps.length := rfl

theorem addChild_name (c : Nat) (n : Node) : (addChild c n).name = n.name := by
  unfold addChild; split <;> rfl
theorem addChild_parent (c : Nat) (n : Node) : (addChild c n).parent = n.parent := by
  unfold addChild; split <;> rfl
theorem addChild_bnd (c : Nat) (n : Node) : (addChild c n).item.isBoundary = n.item.isBoundary := by
  rcases n with ⟨a, b, i⟩; cases i <;> rfl
theorem addChild_type (c : Nat) (n : Node) : (addChild c n).item.isType = n.item.isType := by
  rcases n with ⟨a, b, i⟩; cases i <;> rfl
theorem addChild_exports (c : Nat) (n : Node) : (addChild c n).item.exports = n.item.exports := by
  rcases n with ⟨a, b, i⟩; cases i <;> rfl
theorem addChild_imports (c : Nat) (n : Node) : (addChild c n).item.imports = n.item.imports := by
  rcases n with ⟨a, b, i⟩; cases i <;> rfl
theorem addChild_rank (c : Nat) (n : Node) : rank (addChild c n).item = rank n.item := by
  rcases n with ⟨a, b, i⟩; cases i <;> rfl
theorem addChild_children (c : Nat) (n : Node) (h : n.item.isBoundary = true) :
    (addChild c n).item.children = n.item.children ++ [c] := by
  rcases n with ⟨a, b, i⟩; cases i <;> simp_all [Item.isBoundary] <;> rfl

theorem setExports_skel (xs : List Nat) (n : Node) : skel (setExports xs n) = skel n := by
  rcases n with ⟨a, b, i⟩; cases i <;> rfl
theorem setImports_skel (xs : List Nat) (n : Node) : skel (setImports xs n) = skel n := by
  rcases n with ⟨a, b, i⟩; cases i <;> rfl
theorem setExports_exports (xs : List Nat) (n : Node) (h : n.item.isBoundary = true) :
    (setExports xs n).item.exports = xs := by
  rcases n with ⟨a, b, i⟩; cases i <;> simp_all [Item.isBoundary] <;> rfl
theorem setExports_imports (xs : List Nat) (n : Node) : (setExports xs n).item.imports = n.item.imports := by
  rcases n with ⟨a, b, i⟩; cases i <;> rfl
theorem setImports_exports (xs : List Nat) (n : Node) : (setImports xs n).item.exports = n.item.exports := by
  rcases n with ⟨a, b, i⟩; cases i <;> rfl
theorem setImports_imports (xs : List Nat) (n : Node) (h : n.item.isBoundary = false) :
    (setImports xs n).item.imports = xs := by
  rcases n with ⟨a, b, i⟩; cases i <;> simp_all [Item.isBoundary] <;> rfl

theorem same_modify (ps : Parts) (i : Nat) (f : Node → Node) (hf : ∀ n, skel (f n) = skel n) :
    Same (List.modify ps i f) ps := by
  unfold Same
  apply List.ext_getElem?
  intro j
  rw [List.getElem?_map, List.getElem?_map, modify_get]
  by_cases h : i = j
  · rw [if_pos h]; cases ps[j]? <;> simp [hf]
  · rw [if_neg h]

theorem keeps_refl (ps : Parts) : Keeps ps ps := fun _ n h =>
  ⟨n, h, rfl, rfl, rfl, rfl, rfl, List.prefix_refl _, fun _ h => h⟩

theorem keeps_trans {a b c : Parts} (h : Keeps a b) (k : Keeps b c) : Keeps a c := by
  intro i n hn
  obtain ⟨n1, e1, a1, a2, a3, a4, a5, a6, a7⟩ := h i n hn
  obtain ⟨n2, e2, b1, b2, b3, b4, b5, b6, b7⟩ := k i n1 e1
  exact ⟨n2, e2, by rw [b1, a1], by rw [b2, a2], by rw [b3, a3], by rw [b4, a4], by rw [b5, a5], a6.trans b6,
    fun x hx => b7 x (a7 x hx)⟩

theorem keeps_length {a b : Parts} (h : Keeps a b) : a.length ≤ b.length := by
  rcases Nat.eq_zero_or_pos a.length with h0 | h0
  · omega
  · have : a[a.length - 1]? = some (a[a.length - 1]'(by omega)) := List.getElem?_eq_getElem (by omega)
    obtain ⟨m, e, _⟩ := h _ _ this
    have := (List.getElem?_eq_some_iff.1 e).1
    omega

theorem keeps_addNode {ps : Parts} {b : Nat} {q : Node} (hb : ps[b]? = some q) (hq : q.item.isBoundary = true)
    (nm : String) (it : Item) : Keeps ps (addNode ps b nm it).1 := by
  have hlt : b < ps.length := (List.getElem?_eq_some_iff.1 hb).1
  intro i n hn
  have hi : i < ps.length := (List.getElem?_eq_some_iff.1 hn).1
  rw [addNode_get hlt, if_neg (by omega)]
  by_cases h : b = i
  · subst h
    rw [if_pos rfl, hn]
    rw [hb] at hn; cases hn
    refine ⟨_, rfl, addChild_name _ _, addChild_parent _ _, addChild_bnd _ _, addChild_type _ _, addChild_imports _ _,
      ?_, fun x hx => by rw [addChild_exports]; exact hx⟩
    rw [addChild_children _ _ hq]; exact List.prefix_append _ _
  · rw [if_neg h]; exact ⟨n, hn, rfl, rfl, rfl, rfl, rfl, List.prefix_refl _, fun _ h => h⟩

theorem children_ok {ps : Parts} {b : Nat} {cs : List Nat} (h : children ps b = .ok cs) :
    ∃ q : Node, ps[b]? = some q ∧ q.item.isBoundary = true ∧ q.item.children = cs := by
  unfold children at h
  split at h
  · rename_i q e
    by_cases hb : q.item.isBoundary = true
    · rw [if_pos hb] at h; cases h; exact ⟨q, e, hb, rfl⟩
    · rw [if_neg hb] at h; cases h
  · cases h

theorem children_of {ps : Parts} {b : Nat} {q : Node} (h : ps[b]? = some q) (hq : q.item.isBoundary = true) :
    children ps b = .ok q.item.children := by
  unfold children; rw [h]; simp [hq]

theorem is_iff {ps : Parts} {p : Node → Bool} {i : Nat} : is ps p i = true ↔ ∃ n : Node, ps[i]? = some n ∧ p n = true := by
  unfold is; cases ps[i]? <;> simp

/-! ### Adding a node keeps the forest -/

theorem forest_addNode {ps : Parts} (w : Forest ps) {b : Nat} {q : Node} (hb : ps[b]? = some q)
    (hq : q.item.isBoundary = true) (nm : String) (it : Item) (hc : it.children = [])
    (h1 : it.isBoundary = true → ∀ c ∈ q.item.children, is ps (eqBoundary nm) c = false)
    (h2 : it.isType = true → ∀ c ∈ q.item.children, is ps (eqType nm) c = false) :
    Forest (addNode ps b nm it).1 := by
  have hlt : b < ps.length := (List.getElem?_eq_some_iff.1 hb).1
  have h3 : 3 ≤ ps.length := by
    obtain ⟨n, e, _⟩ := w.roots 2 (by decide)
    exact (List.getElem?_eq_some_iff.1 e).1
  have old := keeps_addNode hb hq nm it
  -- every node of the new graph is the new one or an old one with the same identity
  have back : ∀ (i : Nat) (n : Node), (addNode ps b nm it).1[i]? = some n →
      (i = ps.length ∧ n = ⟨nm, some b, it⟩) ∨ ∃ m : Node, ps[i]? = some m ∧ n.name = m.name ∧ n.parent = m.parent ∧
        n.item.isBoundary = m.item.isBoundary ∧ n.item.isType = m.item.isType ∧
        n.item.children = if b = i then m.item.children ++ [ps.length] else m.item.children := by
    intro i n hn
    rw [addNode_get hlt] at hn
    by_cases hi : i = ps.length
    · rw [if_pos hi] at hn; cases hn; exact .inl ⟨hi, rfl⟩
    · rw [if_neg hi] at hn
      by_cases h : b = i
      · subst h
        rw [if_pos rfl, hb] at hn
        cases hn
        exact .inr ⟨q, hb, addChild_name _ _, addChild_parent _ _, addChild_bnd _ _, addChild_type _ _, by
          rw [if_pos rfl, addChild_children _ _ hq]⟩
      · rw [if_neg h] at hn
        exact .inr ⟨n, hn, rfl, rfl, rfl, rfl, by rw [if_neg h]⟩
  have fresh : ∀ (p : Nat) (m : Node), ps[p]? = some m → ps.length ∉ m.item.children := by
    intro p m hm hmem
    obtain ⟨n, e, _⟩ := w.child p m _ hm hmem
    have := (List.getElem?_eq_some_iff.1 e).1
    omega
  -- an old node under `b` is one of its children
  have under : ∀ (i : Nat) (m : Node), ps[i]? = some m → m.parent = some b → i ∈ q.item.children := by
    intro i m hm hp
    have hi : 3 ≤ i := by
      apply Nat.le_of_not_lt
      intro hlt3
      obtain ⟨n, e, hnone, _⟩ := w.roots i hlt3
      rw [hm] at e; cases e; rw [hp] at hnone; cases hnone
    obtain ⟨p, q', e1, _, e2, _, e3⟩ := w.parent i m hm hi
    rw [hp] at e1; cases e1
    rw [hb] at e2; cases e2
    exact List.count_pos_iff.1 (by omega)
  constructor
  · intro i hi
    obtain ⟨n, e, hp, hbd⟩ := w.roots i hi
    obtain ⟨n', e', _, a2, a3, _⟩ := old i n e
    exact ⟨n', e', by rw [a2, hp], by rw [a3, hbd]⟩
  · intro i n hn hi
    rcases back i n hn with ⟨rfl, rfl⟩ | ⟨m, hm, _, hpar, _, _, _⟩
    · refine ⟨b, addChild ps.length q, rfl, hlt, ?_, by rw [addChild_bnd, hq], ?_⟩
      · rw [addNode_get hlt, if_neg (by omega), if_pos rfl, hb]; rfl
      · rw [addChild_children _ _ hq, List.count_append, List.count_eq_zero.2 (fresh _ _ hb)]
        simp
    · obtain ⟨p, r, e1, e2, e3, e4, e5⟩ := w.parent i m hm hi
      have hil : i < ps.length := (List.getElem?_eq_some_iff.1 hm).1
      obtain ⟨r', e', _, _, a3, _⟩ := old p r e3
      refine ⟨p, r', by rw [hpar, e1], e2, e', by rw [a3, e4], ?_⟩
      rcases back p r' e' with ⟨hp, _⟩ | ⟨m', hm', _, _, _, _, hch⟩
      · omega
      · rw [e3] at hm'; cases hm'
        rw [hch]
        split
        · rw [List.count_append, e5, List.count_eq_zero.2]
          simp; omega
        · exact e5
  · intro p r c hr hc'
    rcases back p r hr with ⟨_, rfl⟩ | ⟨m, hm, _, _, _, _, hch⟩
    · simp only [hc] at hc'; cases hc'
    · rw [hch] at hc'
      have : c ∈ m.item.children ∨ (c = ps.length ∧ b = p) := by
        split at hc'
        · rename_i h; simp at hc'; rcases hc' with h1 | h1
          · exact .inl h1
          · exact .inr ⟨h1, h⟩
        · exact .inl hc'
      rcases this with h | ⟨rfl, rfl⟩
      · obtain ⟨n, e, hp⟩ := w.child p m c hm h
        obtain ⟨n', e', _, a2, _⟩ := old c n e
        exact ⟨n', e', by rw [a2, hp]⟩
      · exact ⟨⟨nm, some b, it⟩, by rw [addNode_get hlt, if_pos rfl], rfl⟩
  · intro i j n m p hn hm hp1 hp2 hnm hb1 hb2
    rcases back i n hn with ⟨rfl, rfl⟩ | ⟨n', hn', a1, a2, a3, _, _⟩ <;>
      rcases back j m hm with ⟨rfl, rfl⟩ | ⟨m', hm', c1, c2, c3, _, _⟩
    · rfl
    · exfalso
      cases hp1
      have := h1 hb1 j (under j m' hm' (by rw [← c2, hp2]))
      have k : is ps (eqBoundary nm) j = true := is_iff.2 ⟨m', hm', by
        simp only [eqBoundary, ← c3, hb2, ← c1, ← hnm]; simp⟩
      rw [k] at this; cases this
    · exfalso
      cases hp2
      have := h1 hb2 i (under i n' hn' (by rw [← a2, hp1]))
      have k : is ps (eqBoundary nm) i = true := is_iff.2 ⟨n', hn', by
        simp only [eqBoundary, ← a3, hb1, ← a1, hnm]; simp⟩
      rw [k] at this; cases this
    · exact w.boundary i j n' m' p hn' hm' (by rw [← a2, hp1]) (by rw [← c2, hp2]) (by rw [← a1, hnm, c1])
        (by rw [← a3, hb1]) (by rw [← c3, hb2])
  · intro i j n m p hn hm hp1 hp2 hnm hb1 hb2
    rcases back i n hn with ⟨rfl, rfl⟩ | ⟨n', hn', a1, a2, _, a3, _⟩ <;>
      rcases back j m hm with ⟨rfl, rfl⟩ | ⟨m', hm', c1, c2, _, c3, _⟩
    · rfl
    · exfalso
      cases hp1
      have := h2 hb1 j (under j m' hm' (by rw [← c2, hp2]))
      have k : is ps (eqType nm) j = true := is_iff.2 ⟨m', hm', by
        simp only [eqType, ← c3, hb2, ← c1, ← hnm]; simp⟩
      rw [k] at this; cases this
    · exfalso
      cases hp2
      have := h2 hb2 i (under i n' hn' (by rw [← a2, hp1]))
      have k : is ps (eqType nm) i = true := is_iff.2 ⟨n', hn', by
        simp only [eqType, ← a3, hb1, ← a1, hnm]; simp⟩
      rw [k] at this; cases this
    · exact w.type_ i j n' m' p hn' hm' (by rw [← a2, hp1]) (by rw [← c2, hp2]) (by rw [← a1, hnm, c1])
        (by rw [← a3, hb1]) (by rw [← c3, hb2])

theorem forest_same {ps qs : Parts} (h : Same ps qs) (w : Forest ps) : Forest qs := by
  have k := h.symm
  constructor
  · intro i hi
    obtain ⟨n, e, a, b⟩ := w.roots i hi
    obtain ⟨m, e', h1, h2, h3, _⟩ := h.node e
    exact ⟨m, e', by rw [h2, a], by rw [h3, b]⟩
  · intro i n hn hi
    obtain ⟨m, e, h1, h2, h3, h4, h5, _⟩ := k.node hn
    obtain ⟨p, q, a1, a2, a3, a4, a5⟩ := w.parent i m e hi
    obtain ⟨q', e', _, _, b3, _, b5, _⟩ := h.node a3
    exact ⟨p, q', by rw [← h2, a1], a2, e', by rw [b3, a4], by rw [b5, a5]⟩
  · intro p q c hq hc
    obtain ⟨m, e, h1, h2, h3, h4, h5, _⟩ := k.node hq
    obtain ⟨n, e', a⟩ := w.child p m c e (by rw [h5]; exact hc)
    obtain ⟨n', e'', _, b2, _⟩ := h.node e'
    exact ⟨n', e'', by rw [b2, a]⟩
  · intro i j n m p hn hm p1 p2 hnm b1 b2
    obtain ⟨n', e, a1, a2, a3, _⟩ := k.node hn
    obtain ⟨m', e', c1, c2, c3, _⟩ := k.node hm
    exact w.boundary i j n' m' p e e' (by rw [a2, p1]) (by rw [c2, p2]) (by rw [a1, c1, hnm]) (by rw [a3, b1]) (by rw [c3, b2])
  · intro i j n m p hn hm p1 p2 hnm b1 b2
    obtain ⟨n', e, a1, a2, _, a3, _⟩ := k.node hn
    obtain ⟨m', e', c1, c2, _, c3, _⟩ := k.node hm
    exact w.type_ i j n' m' p e e' (by rw [a2, p1]) (by rw [c2, p2]) (by rw [a1, c1, hnm]) (by rw [a3, b1]) (by rw [c3, b2])

end Verif.Part
