import Verif.Lemmas.PartSet
namespace Verif.Part

theorem rank_eq {n m : Node} (h1 : n.item.isBoundary = m.item.isBoundary) (h2 : n.item.isType = m.item.isType) :
    rank n.item = rank m.item := by
  cases h : n.item <;> cases h' : m.item <;> simp_all [Item.isBoundary, Item.isType, rank]

theorem keeps_sorted {ps qs : Parts} (k : Keeps ps qs) {s : List Nat} (hr : ∀ x ∈ s, x < ps.length)
    (h : Sorted ps s) : Sorted qs s := by
  refine ⟨List.Pairwise.imp_of_mem ?_ h.1, h.2⟩
  intro a b ha hb hab
  obtain ⟨n, hn⟩ : ∃ n : Node, ps[a]? = some n := ⟨_, List.getElem?_eq_getElem (hr a ha)⟩
  obtain ⟨m, hm⟩ : ∃ m : Node, ps[b]? = some m := ⟨_, List.getElem?_eq_getElem (hr b hb)⟩
  obtain ⟨n', e, a1, _, a3, a4, _⟩ := k a n hn
  obtain ⟨m', e', b1, _, b3, b4, _⟩ := k b m hm
  unfold idLe at hab ⊢
  rw [hn, hm] at hab
  rw [e, e']
  simp only [nodeLe] at hab ⊢
  rw [a1, b1, rank_eq a3 a4, rank_eq b3 b4]
  exact hab

/-- Everything that holds of the graph between two operations. -/
structure Wf (ps : Parts) : Prop where
  forest : Forest ps
  names : ∀ (i : Nat) (n : Node) (p : Nat), ps[i]? = some n → n.item.isBoundary = true → n.parent = some p →
    validName n.name = true
  exports : ∀ (b : Nat) (q : Node), ps[b]? = some q → Sorted ps q.item.exports ∧
    ∀ x ∈ q.item.exports, x ∈ q.item.children ∧ is ps (·.item.isBoundary) x = false
  imports : ∀ (i : Nat) (n : Node), ps[i]? = some n → Sorted ps n.item.imports ∧
    ∀ x ∈ n.item.imports, ∃ m : Node, ps[x]? = some m ∧
      (m.item.isBoundary = true ∨ ∃ p, m.parent = some p ∧ Exported ps p x)

theorem keeps_lt {ps qs : Parts} (_k : Keeps ps qs) {i : Nat} {n : Node} (h : ps[i]? = some n) : i < ps.length :=
  (List.getElem?_eq_some_iff.1 h).1

theorem keeps_exported {ps qs : Parts} (k : Keeps ps qs) {b x : Nat} (h : Exported ps b x) : Exported qs b x := by
  obtain ⟨q, e, hx⟩ := h
  obtain ⟨q', e', _, _, _, _, _, _, h7⟩ := k b q e
  exact ⟨q', e', h7 x hx⟩

theorem keeps_is_bnd {ps qs : Parts} (k : Keeps ps qs) {i : Nat} (hi : i < ps.length) :
    is qs (·.item.isBoundary) i = is ps (·.item.isBoundary) i := by
  obtain ⟨n, hn⟩ : ∃ n : Node, ps[i]? = some n := ⟨_, List.getElem?_eq_getElem hi⟩
  obtain ⟨n', e, _, _, a3, _⟩ := k i n hn
  simp [is, hn, e, a3]

theorem wf_new : Wf new := by
  have look : ∀ (i : Nat) (n : Node), new[i]? = some n → i < 3 ∧ n.parent = none ∧ n.item = .boundary [] [] := by
    intro i n h
    match i with
    | 0 => cases h; exact ⟨by decide, rfl, rfl⟩
    | 1 => cases h; exact ⟨by decide, rfl, rfl⟩
    | 2 => cases h; exact ⟨by decide, rfl, rfl⟩
    | i + 3 => simp [new] at h
  constructor
  · constructor
    · intro i hi
      match i, hi with
      | 0, _ => exact ⟨_, rfl, rfl, rfl⟩
      | 1, _ => exact ⟨_, rfl, rfl, rfl⟩
      | 2, _ => exact ⟨_, rfl, rfl, rfl⟩
    · intro i n h h3; have := (look i n h).1; omega
    · intro p q c h hc; rw [(look p q h).2.2] at hc; cases hc
    · intro i j n m p h _ hp; rw [(look i n h).2.1] at hp; cases hp
    · intro i j n m p h _ hp; rw [(look i n h).2.1] at hp; cases hp
  · intro i n p h _ hp; rw [(look i n h).2.1] at hp; cases hp
  · intro b q h; rw [(look b q h).2.2]; exact ⟨⟨.nil, .nil⟩, fun x hx => by cases hx⟩
  · intro i n h; rw [(look i n h).2.2]; exact ⟨⟨.nil, .nil⟩, fun x hx => by cases hx⟩

theorem Wf.childLt {ps : Parts} (w : Wf ps) {b x : Nat} {q : Node} (hq : ps[b]? = some q) (hx : x ∈ q.item.children) :
    x < ps.length := by
  obtain ⟨n, e, _⟩ := w.forest.child b q x hq hx
  exact (List.getElem?_eq_some_iff.1 e).1

theorem Wf.three {ps : Parts} (w : Wf ps) : 3 ≤ ps.length := by
  obtain ⟨n, e, _⟩ := w.forest.roots 2 (by decide)
  exact (List.getElem?_eq_some_iff.1 e).1

/-- A node is a child of its parent, and nothing else is. -/
theorem Forest.mem_children {ps : Parts} (w : Forest ps) {b : Nat} {q : Node} (hq : ps[b]? = some q) (c : Nat) :
    c ∈ q.item.children ↔ ∃ n : Node, ps[c]? = some n ∧ n.parent = some b := by
  constructor
  · exact w.child b q c hq
  · rintro ⟨n, hn, hp⟩
    have hc : 3 ≤ c := by
      apply Nat.le_of_not_lt; intro h
      obtain ⟨m, e, hm, _⟩ := w.roots c h
      rw [hn] at e; cases e; rw [hp] at hm; cases hm
    obtain ⟨p, q', e1, _, e2, _, e3⟩ := w.parent c n hn hc
    rw [hp] at e1; cases e1; rw [hq] at e2; cases e2
    exact List.count_pos_iff.1 (by omega)

/-- The parent of a node is a boundary. -/
theorem Forest.parent_bnd {ps : Parts} (w : Forest ps) {i p : Nat} {n : Node} (hn : ps[i]? = some n)
    (hp : n.parent = some p) : ∃ q : Node, ps[p]? = some q ∧ q.item.isBoundary = true := by
  have hc : 3 ≤ i := by
    apply Nat.le_of_not_lt; intro h
    obtain ⟨m, e, hm, _⟩ := w.roots i h
    rw [hn] at e; cases e; rw [hp] at hm; cases hm
  obtain ⟨p', q', e1, _, e2, e3, _⟩ := w.parent i n hn hc
  rw [hp] at e1; cases e1
  exact ⟨q', e2, e3⟩

theorem wf_addNode {ps : Parts} (w : Wf ps) {b : Nat} {q : Node} (hb : ps[b]? = some q)
    (hq : q.item.isBoundary = true) (nm : String) (it : Item) (hc : it.children = []) (he : it.exports = [])
    (hi : it.imports = []) (hv : it.isBoundary = true → validName nm = true)
    (h1 : it.isBoundary = true → ∀ c ∈ q.item.children, is ps (eqBoundary nm) c = false)
    (h2 : it.isType = true → ∀ c ∈ q.item.children, is ps (eqType nm) c = false) :
    Wf (addNode ps b nm it).1 := by
  have hlt : b < ps.length := (List.getElem?_eq_some_iff.1 hb).1
  have k := keeps_addNode hb hq nm it
  have back : ∀ (i : Nat) (n : Node), (addNode ps b nm it).1[i]? = some n →
      (i = ps.length ∧ n = ⟨nm, some b, it⟩) ∨ ∃ m : Node, ps[i]? = some m ∧ n.name = m.name ∧ n.parent = m.parent ∧
        n.item.isBoundary = m.item.isBoundary ∧ n.item.exports = m.item.exports ∧ n.item.imports = m.item.imports ∧
        ∀ c ∈ m.item.children, c ∈ n.item.children := by
    intro i n hn
    rw [addNode_get hlt] at hn
    by_cases hi : i = ps.length
    · rw [if_pos hi] at hn; cases hn; exact .inl ⟨hi, rfl⟩
    · rw [if_neg hi] at hn
      by_cases h : b = i
      · subst h
        rw [if_pos rfl, hb] at hn
        cases hn
        exact .inr ⟨q, hb, addChild_name _ _, addChild_parent _ _, addChild_bnd _ _, addChild_exports _ _, addChild_imports _ _,
          by rw [addChild_children _ _ hq]; simp; intro c hc; exact .inl hc⟩
      · rw [if_neg h] at hn
        exact .inr ⟨n, hn, rfl, rfl, rfl, rfl, rfl, fun _ h => h⟩
  constructor
  · exact forest_addNode w.forest hb hq nm it hc h1 h2
  · intro i n p hn hbd hp
    rcases back i n hn with ⟨rfl, rfl⟩ | ⟨m, hm, a1, a2, a3, _⟩
    · exact hv hbd
    · rw [a1]; exact w.names i m p hm (by rw [← a3, hbd]) (by rw [← a2, hp])
  · intro c r hr
    rcases back c r hr with ⟨rfl, rfl⟩ | ⟨m, hm, _, _, _, a4, _, a6⟩
    · simp only [he]; exact ⟨⟨.nil, .nil⟩, fun x hx => by cases hx⟩
    · rw [a4]
      obtain ⟨e1, e2⟩ := w.exports c m hm
      have lt : ∀ x ∈ m.item.exports, x < ps.length := fun x hx => w.childLt hm (e2 x hx).1
      refine ⟨keeps_sorted k lt e1, fun x hx => ⟨a6 x (e2 x hx).1, ?_⟩⟩
      rw [keeps_is_bnd k (lt x hx)]; exact (e2 x hx).2
  · intro i n hn
    rcases back i n hn with ⟨rfl, rfl⟩ | ⟨m, hm, _, _, _, _, a5, _⟩
    · simp only [hi]; exact ⟨⟨.nil, .nil⟩, fun x hx => by cases hx⟩
    · rw [a5]
      obtain ⟨e1, e2⟩ := w.imports i m hm
      have lt : ∀ x ∈ m.item.imports, x < ps.length := by
        intro x hx
        obtain ⟨y, hy, _⟩ := e2 x hx
        exact (List.getElem?_eq_some_iff.1 hy).1
      refine ⟨keeps_sorted k lt e1, fun x hx => ?_⟩
      obtain ⟨y, hy, hor⟩ := e2 x hx
      obtain ⟨y', hy', _, b2, b3, _⟩ := k x y hy
      refine ⟨y', hy', ?_⟩
      rcases hor with h | ⟨p, hp, hx'⟩
      · exact .inl (by rw [b3, h])
      · exact .inr ⟨p, by rw [b2, hp], keeps_exported k hx'⟩

theorem exported_addNode {ps : Parts} {b : Nat} {q : Node} (hb : ps[b]? = some q) {nm : String} {it : Item}
    (he : it.exports = []) {c x : Nat} (h : Exported (addNode ps b nm it).1 c x) : Exported ps c x := by
  have hlt : b < ps.length := (List.getElem?_eq_some_iff.1 hb).1
  obtain ⟨r, hr, hx⟩ := h
  rw [addNode_get hlt] at hr
  by_cases h1 : c = ps.length
  · rw [if_pos h1] at hr; cases hr; simp only [he] at hx; cases hx
  · rw [if_neg h1] at hr
    by_cases h2 : b = c
    · subst h2; rw [if_pos rfl, hb] at hr; cases hr
      rw [addChild_exports] at hx; exact ⟨q, hb, hx⟩
    · rw [if_neg h2] at hr; exact ⟨r, hr, hx⟩

/-! ### Boundary paths -/

theorem keeps_bpath {ps qs : Parts} (k : Keeps ps qs) {a b : Nat} {path : List String} (h : BPath ps a path b) :
    BPath qs a path b := by
  induction h with
  | nil => exact .nil
  | up hn hp _ ih =>
    obtain ⟨n', e, _, a2, _⟩ := k _ _ hn
    exact .up e (by rw [a2, hp]) ih
  | down hx hn hp hnm hb _ ih =>
    obtain ⟨n', e, a1, a2, a3, _⟩ := k _ _ hn
    exact .down hx e (by rw [a2, hp]) (by rw [a1, hnm]) (by rw [a3, hb]) ih

theorem bpath_unique {ps : Parts} (w : Forest ps) {a b c : Nat} {path : List String} (h : BPath ps a path b)
    (k : BPath ps a path c) : b = c := by
  induction h generalizing c with
  | nil => cases k; rfl
  | up hn hp _ ih =>
    cases k with
    | up hn' hp' k' => rw [hn] at hn'; cases hn'; rw [hp] at hp'; cases hp'; exact ih k'
    | down hx => exact absurd rfl hx
  | down hx hn hp hnm hb _ ih =>
    cases k with
    | up => exact absurd rfl hx
    | down _ hn' hp' hnm' hb' k' =>
      have := w.boundary _ _ _ _ _ hn hn' hp hp' (by rw [hnm, hnm']) hb hb'
      subst this
      exact ih k'

theorem find_bnd_some {ps : Parts} (w : Forest ps) {a b : Nat} {q : Node} {x : String} (hq : ps[a]? = some q)
    (h : q.item.children.find? (is ps (eqBoundary x)) = some b) :
    ∃ n : Node, ps[b]? = some n ∧ n.parent = some a ∧ n.name = x ∧ n.item.isBoundary = true := by
  have h1 := List.find?_some h
  have h2 := List.mem_of_find?_eq_some h
  obtain ⟨n, hn, hp⟩ := w.child a q b hq h2
  obtain ⟨n', hn', he⟩ := is_iff.1 h1
  rw [hn] at hn'; cases hn'
  simp only [eqBoundary, Bool.and_eq_true, beq_iff_eq] at he
  exact ⟨n, hn, hp, he.2, he.1⟩

theorem validName_dots : validName ".." = false := by decide +kernel

/-- The facts about creating the boundaries of a path. -/
theorem boundaryPath_spec (path : List String) : ∀ (ps : Parts) (a : Nat) (q : Node), Wf ps → ps[a]? = some q →
    q.item.isBoundary = true →
    boundaryPath ps path a ≠ .error .panic ∧
    ∀ qs b, boundaryPath ps path a = .ok (qs, b) → Wf qs ∧ Keeps ps qs ∧ BPath qs a path b ∧
      (∃ r : Node, qs[b]? = some r ∧ r.item.isBoundary = true) ∧
      (∀ (i : Nat) (n : Node), ps.length ≤ i → qs[i]? = some n → n.item.isBoundary = true) ∧
      ∀ c x, Exported qs c x → Exported ps c x := by
  induction path with
  | nil =>
    intro ps a q w hq hb
    refine ⟨by simp [boundaryPath], ?_⟩
    intro qs b h
    simp only [boundaryPath, Except.ok.injEq, Prod.mk.injEq] at h
    obtain ⟨rfl, rfl⟩ := h
    refine ⟨w, keeps_refl _, .nil, ⟨q, hq, hb⟩, ?_, fun _ _ h => h⟩
    intro i n hi hn
    have := (List.getElem?_eq_some_iff.1 hn).1
    omega
  | cons x path ih =>
    intro ps a q w hq hb
    have hdots : ∀ b : Nat, (∃ n : Node, ps[b]? = some n ∧ n.parent = some a ∧ n.name = x ∧ n.item.isBoundary = true) → x ≠ ".." := by
      rintro b ⟨n, hn, hp, hx, hbd⟩ rfl
      have := w.names b n a hn hbd hp
      rw [hx, validName_dots] at this; cases this
    unfold boundaryPath
    rw [children_of hq hb]
    simp only [Except.bind]
    cases hf : q.item.children.find? (is ps (eqBoundary x)) with
    | some b =>
      have hc := find_bnd_some w.forest hq hf
      obtain ⟨n, hn, hp, hx, hbd⟩ := hc
      obtain ⟨h1, h2⟩ := ih ps b n w hn hbd
      refine ⟨h1, fun qs c h => ?_⟩
      obtain ⟨w', k, bp, r, nw, ex⟩ := h2 qs c h
      obtain ⟨n', e, a1, a2, a3, _⟩ := k b n hn
      exact ⟨w', k, .down (hdots b ⟨n, hn, hp, hx, hbd⟩) e (by rw [a2, hp]) (by rw [a1, hx]) (by rw [a3, hbd]) bp, r, nw, ex⟩
    | none =>
      simp only
      by_cases hv : validName x = true
      · rw [if_pos hv]
        simp only [addNode_id]
        have hlt : a < ps.length := (List.getElem?_eq_some_iff.1 hq).1
        have w1 : Wf (addNode ps a x (.boundary [] [])).1 := wf_addNode w hq hb x _ rfl rfl rfl (fun _ => hv)
          (fun _ c hc => by
            have := List.find?_eq_none.1 hf c hc
            simpa using this) (fun h => by cases h)
        have e1 : (addNode ps a x (.boundary [] [])).1[ps.length]? = some ⟨x, some a, .boundary [] []⟩ := by
          rw [addNode_get hlt, if_pos rfl]
        have k1 := keeps_addNode hq hb x (.boundary [] [])
        obtain ⟨h1, h2⟩ := ih _ _ _ w1 e1 rfl
        refine ⟨h1, fun qs c h => ?_⟩
        obtain ⟨w', k, bp, r, nw, ex⟩ := h2 qs c h
        obtain ⟨n', e, a1, a2, a3, _⟩ := k _ _ e1
        refine ⟨w', keeps_trans k1 k, .down ?_ e a2 a1 a3 bp, r, ?_, fun c x h => exported_addNode hq rfl (ex c x h)⟩
        · rintro rfl; rw [validName_dots] at hv; cases hv
        · intro i n hi hn
          rcases Nat.lt_or_eq_of_le hi with hlt' | rfl
          · exact nw i n (by rw [addNode_length]; omega) hn
          · rw [e] at hn; cases hn; exact a3
      · rw [if_neg hv]
        exact ⟨by simp, fun qs b h => by cases h⟩

/-! ### Types and implementations of a file -/

/-- `qs` is `ps` with one new item per name, all of kind `it` under boundary `b`. -/
structure Adds (ps qs : Parts) (b : Nat) (it : Item) (ns : List String) (is' : List Nat) : Prop where
  wf : Wf qs
  keeps : Keeps ps qs
  len : qs.length = ps.length + ns.length
  ids : is' = List.range' ps.length ns.length
  new : ∀ (k : Nat) (nm : String), ns[k]? = some nm → qs[ps.length + k]? = some ⟨nm, some b, it⟩
  exps : ∀ c x, Exported qs c x → Exported ps c x

theorem adds_nil {ps : Parts} (w : Wf ps) (b : Nat) (it : Item) : Adds ps ps b it [] [] :=
  ⟨w, keeps_refl _, rfl, rfl, fun k nm h => (by simp at h), fun _ _ h => h⟩

theorem adds_cons {ps qs : Parts} {b : Nat} {q : Node} (hq : ps[b]? = some q) (hb : q.item.isBoundary = true)
    {it : Item} (hnb : it.isBoundary = false) (he : it.exports = []) {nm : String} {ns : List String} {is' : List Nat}
    (h : Adds (addNode ps b nm it).1 qs b it ns is') : Adds ps qs b it (nm :: ns) (ps.length :: is') := by
  have hlt : b < ps.length := (List.getElem?_eq_some_iff.1 hq).1
  have e1 : (addNode ps b nm it).1[ps.length]? = some ⟨nm, some b, it⟩ := by rw [addNode_get hlt, if_pos rfl]
  have k1 := keeps_addNode hq hb nm it
  refine ⟨h.wf, keeps_trans k1 h.keeps, by rw [h.len, addNode_length]; simp; omega, ?_, ?_, fun c x hx => exported_addNode hq he (h.exps c x hx)⟩
  · rw [h.ids, addNode_length]; rfl
  · intro k n hk
    cases k with
    | zero =>
      simp only [List.getElem?_cons_zero, Option.some.injEq] at hk
      subst hk
      obtain ⟨m, e, a1, a2, a3, a4, a5, _⟩ := h.keeps _ _ e1
      rw [Nat.add_zero, e]
      rcases m with ⟨mn, mp, mi⟩
      simp only at a1 a2 a3 a4 a5
      subst a1 a2
      have : mi = it := by
        cases it <;> cases mi <;> simp_all [Item.isBoundary, Item.isType, Item.imports]
      rw [this]
    | succ k =>
      have := h.new k n (by simpa using hk)
      rw [addNode_length] at this
      rw [← this]; congr 1; omega

theorem addTypes_spec (ns : List String) : ∀ (ps : Parts) (b : Nat) (q : Node), Wf ps → ps[b]? = some q →
    q.item.isBoundary = true → addTypes ps b ns ≠ .error .panic ∧
    ∀ qs is', addTypes ps b ns = .ok (qs, is') → Adds ps qs b (.type_ []) ns is' := by
  induction ns with
  | nil =>
    intro ps b q w _ _
    refine ⟨by simp [addTypes], fun qs is' h => ?_⟩
    simp only [addTypes, Except.ok.injEq, Prod.mk.injEq] at h
    obtain ⟨rfl, rfl⟩ := h
    exact adds_nil w _ _
  | cons nm ns ih =>
    intro ps b q w hq hb
    simp only [addTypes, addType, children_of hq hb]
    by_cases ha : q.item.children.any (is ps (eqType nm)) = true
    · simp [Except.bind, ha]
    · simp only [Except.bind, if_neg ha]
      have hlt : b < ps.length := (List.getElem?_eq_some_iff.1 hq).1
      have w1 : Wf (addNode ps b nm (.type_ [])).1 := wf_addNode w hq hb nm _ rfl rfl rfl (fun h => by cases h)
        (fun h => by cases h) (fun _ c hc => by
          cases hx : is ps (eqType nm) c with
          | false => rfl
          | true => exact absurd (List.any_eq_true.2 ⟨c, hc, hx⟩) ha)
      obtain ⟨q', e, _, _, a3, _⟩ := keeps_addNode hq hb nm (.type_ []) b q hq
      obtain ⟨h1, h2⟩ := ih _ b q' w1 e (by rw [a3, hb])
      cases hr : addTypes (addNode ps b nm (.type_ [])).1 b ns with
      | error x =>
        rw [hr] at h1
        refine ⟨?_, fun qs is' h => by simp [Except.map] at h⟩
        simp only [Except.map]
        exact h1
      | ok y =>
        obtain ⟨qs', js⟩ := y
        refine ⟨by simp [Except.map], fun qs is' h => ?_⟩
        simp only [Except.map, Except.ok.injEq, Prod.mk.injEq] at h
        obtain ⟨rfl, rfl⟩ := h
        exact adds_cons hq hb rfl rfl (h2 _ _ hr)

theorem addImpls_spec (ns : List String) : ∀ (ps : Parts) (b : Nat) (q : Node), Wf ps → ps[b]? = some q →
    q.item.isBoundary = true → Adds ps (addImpls ps b ns).1 b (.impl []) ns (addImpls ps b ns).2 := by
  induction ns with
  | nil => intro ps b q w _ _; exact adds_nil w _ _
  | cons nm ns ih =>
    intro ps b q w hq hb
    have w1 : Wf (addNode ps b nm (.impl [])).1 := wf_addNode w hq hb nm _ rfl rfl rfl (fun h => by cases h)
      (fun h => by cases h) (fun h => by cases h)
    obtain ⟨q', e, _, _, a3, _⟩ := keeps_addNode hq hb nm (.impl []) b q hq
    exact adds_cons hq hb rfl rfl (ih _ b q' w1 e (by rw [a3, hb]))

end Verif.Part
