import Verif.Lemmas.PartFind
/-! Properties of the partition graph (C10 to C14). -/
namespace Verif.Part

theorem reach_wf {g : Glob} {ps : Parts} (h : Reach g ps) : Wf ps := by
  induction h with
  | new => exact wf_new
  | extend order m _ ho he ih => exact ((extend_spec g order ho ih m).2 _ he).wf

/-! ### C10 -/

/-- However files are added, the graph is a forest under the three roots. -/
theorem partition_forest (g : Glob) (ps : Parts) (h : Reach g ps) : Forest ps := (reach_wf h).forest

/-- Partition names start with a letter or `_` and go on with letters, digits, `-` and `_`, so none is empty,
is `..` or has a `/` in it: every partition can be reached by a path. -/
theorem boundary_names (g : Glob) (ps : Parts) (h : Reach g ps) (i : Nat) (n : Node) (hn : ps[i]? = some n)
    (hb : n.item.isBoundary = true) (hp : n.parent ≠ none) :
    ∃ c cs, n.name.toList = c :: cs ∧ (c = '_' ∨ c.isAlpha = true) ∧
      ∀ d ∈ cs, d = '-' ∨ d = '_' ∨ d.isAlphanum = true := by
  obtain ⟨p, hp⟩ := Option.ne_none_iff_exists'.1 hp
  have v := (reach_wf h).names i n p hn hb hp
  unfold validName at v
  cases hl : n.name.toList with
  | nil => rw [hl] at v; cases v
  | cons c cs =>
    rw [hl] at v
    simp only [partFirst, Bool.and_eq_true, Bool.or_eq_true, beq_iff_eq, List.all_eq_true, partChar] at v
    exact ⟨c, cs, rfl, v.1, fun d hd => by have := v.2 d hd; grind⟩

/-- Adding files never crashes. -/
theorem extend_no_panic (g : Glob) (ps : Parts) (h : Reach g ps)
    (order : List (Nat × List String) → List (Nat × List String)) (ho : ∀ l, (order l).Perm l)
    (m : List (List String × List FileDef)) : extendRoot g order ps m ≠ .error .panic :=
  (extend_spec g order ho (reach_wf h) m).1

/-- Items of earlier files keep their identity. -/
theorem extend_keeps (g : Glob) (ps qs : Parts) (h : Reach g ps)
    (order : List (Nat × List String) → List (Nat × List String)) (ho : ∀ l, (order l).Perm l)
    (m : List (List String × List FileDef)) (he : extendRoot g order ps m = .ok qs) : Keeps ps qs :=
  ((extend_spec g order ho (reach_wf h) m).2 qs he).keeps

/-- The new types and commands are exactly those of the files, in order, and each sits in the partition of a
file that defines it. -/
theorem extend_items (g : Glob) (ps qs : Parts) (h : Reach g ps)
    (order : List (Nat × List String) → List (Nat × List String)) (ho : ∀ l, (order l).Perm l)
    (m : List (List String × List FileDef)) (he : extendRoot g order ps m = .ok qs) :
    itemsOf (qs.drop ps.length) = ((filesOf m).flatMap fun x => fileItems x.2) ∧
    (∀ (i : Nat) (n : Node), ps.length ≤ i → qs[i]? = some n → n.item.isBoundary = false →
      ∃ p f b, (p, f) ∈ filesOf m ∧ BPath qs 0 p b ∧ n.parent = some b ∧ (n.name, n.item.isType) ∈ fileItems f) ∧
    ∀ p f, (p, f) ∈ filesOf m → ∃ b, BPath qs 0 p b ∧ ∀ nm k, (nm, k) ∈ fileItems f →
      ∃ (i : Nat) (n : Node), qs[i]? = some n ∧ n.name = nm ∧ n.parent = some b ∧ n.item.isBoundary = false ∧
        n.item.isType = k := by
  have E := (extend_spec g order ho (reach_wf h) m).2 qs he
  refine ⟨E.items, ?_, ?_⟩
  · intro i n hi hn hb
    obtain ⟨p, f, b, h1, h2, h3, h4, _⟩ := E.origin i n hi hn hb
    exact ⟨p, f, b, h1, h2, h3, h4⟩
  · intro p f hm
    obtain ⟨b, hb, hx⟩ := E.placed p f hm
    refine ⟨b, hb, fun nm k hk => ?_⟩
    obtain ⟨i, n, _, h2, h3, h4, h5, h6, _⟩ := hx nm k hk
    exact ⟨i, n, h2, h3, h4, h5, h6⟩

/-- The order in which the hash map of exports is visited has no effect on the result. -/
theorem extend_order_irrelevant (g : Glob) (ps : Parts) (h : Reach g ps)
    (order order' : List (Nat × List String) → List (Nat × List String)) (ho : ∀ l, (order l).Perm l)
    (ho' : ∀ l, (order' l).Perm l) (m : List (List String × List FileDef)) (qs : Parts) :
    extendRoot g order ps m = .ok qs ↔ extendRoot g order' ps m = .ok qs := by
  have key : okOf (extendRoot g order ps m) = okOf (extendRoot g order' ps m) := by
    unfold extendRoot
    cases hr : phase1 ⟨ps, [], []⟩ m with
    | error y => rfl
    | ok s =>
      have v := ((inv_phase1 m (inv_init (reach_wf h))).2 s hr).1
      simp only [Except.bind]
      have hn : ((order s.exports).map (·.1)).Nodup := ((ho s.exports).map _).nodup_iff.2 v.keys
      have := phase2_perm g ((ho s.exports).trans (ho' s.exports).symm) hn s.ps
      cases h1 : phase2 g s.ps (order s.exports) <;> cases h2 : phase2 g s.ps (order' s.exports) <;>
        rw [h1, h2] at this <;> simp_all [okOf]
  constructor
  · intro e
    rw [e] at key
    cases h2 : extendRoot g order' ps m <;> rw [h2] at key <;> simp_all [okOf]
  · intro e
    rw [e] at key
    cases h2 : extendRoot g order ps m <;> rw [h2] at key <;> simp_all [okOf]

/-! ### C11 -/

/-- Searching a set for a name gives exactly the items of that name, once each: the binary search agrees with
a scan. Ids outside the graph would panic when the set is made. -/
theorem set_find_scan (ps : Parts) (ids : List Nat) (hr : ∀ x ∈ ids, x < ps.length) (name : String) :
    setFind ps (fromVec ids ps) name = (fromVec ids ps).filter (fun x => (ps[x]?).any fun n => n.name == name) ∧
    (setFind ps (fromVec ids ps) name).Nodup ∧
    ∀ x, x ∈ setFind ps (fromVec ids ps) name ↔ x ∈ ids ∧ ∃ n : Node, ps[x]? = some n ∧ n.name = name := by
  have hs := fromVec_sorted ps ids
  have e := setFind_eq hs (fun x hx => hr x ((mem_fromVec ps ids x).1 hx)) name
  refine ⟨e, by rw [e]; exact hs.2.filter _, fun x => ?_⟩
  rw [e, List.mem_filter, mem_fromVec, is_iff]
  simp

/-! ### C12 -/

/-- Whatever an item has in scope through imports is a boundary or was exported by the partition it is in. -/
theorem imports_exported (g : Glob) (ps : Parts) (h : Reach g ps) (i : Nat) (n : Node) (hn : ps[i]? = some n)
    (x : Nat) (hx : x ∈ n.item.imports) :
    ∃ m : Node, ps[x]? = some m ∧ (m.item.isBoundary = true ∨ ∃ p, m.parent = some p ∧ Exported ps p x) :=
  ((reach_wf h).imports i n hn).2 x hx

/-- The imports of every new item are exactly what the imports of a file that defines it denote, and none of
those is idle: an import that matches nothing is an error. -/
theorem imports_exact (g : Glob) (ps qs : Parts) (h : Reach g ps)
    (order : List (Nat × List String) → List (Nat × List String)) (ho : ∀ l, (order l).Perm l)
    (m : List (List String × List FileDef)) (he : extendRoot g order ps m = .ok qs) :
    (∀ (i : Nat) (n : Node), ps.length ≤ i → qs[i]? = some n → n.item.isBoundary = false →
      ∃ p f b, (p, f) ∈ filesOf m ∧ BPath qs 0 p b ∧ n.parent = some b ∧ (n.name, n.item.isType) ∈ fileItems f ∧
        ∀ x, x ∈ n.item.imports ↔ ∃ j ∈ f.imports, Imported g qs b j x) ∧
    ∀ p f, (p, f) ∈ filesOf m → fileItems f ≠ [] → ∃ b, BPath qs 0 p b ∧
      ∀ j ∈ f.imports, ∃ x, Imported g qs b j x := by
  have E := (extend_spec g order ho (reach_wf h) m).2 qs he
  refine ⟨E.origin, fun p f hm hne => ?_⟩
  obtain ⟨b, hb, hx⟩ := E.placed p f hm
  refine ⟨b, hb, ?_⟩
  cases hl : fileItems f with
  | nil => exact absurd hl hne
  | cons y ys =>
    obtain ⟨i, n, _, _, _, _, _, _, _, hj⟩ := hx y.1 y.2 (by rw [hl]; simp)
    exact hj

/-- The exports of a partition are the earlier ones and what the export globs of its files match among its
types and commands. A glob that matches none is an error. -/
theorem exports_exact (g : Glob) (ps qs : Parts) (h : Reach g ps)
    (order : List (Nat × List String) → List (Nat × List String)) (ho : ∀ l, (order l).Perm l)
    (m : List (List String × List FileDef)) (he : extendRoot g order ps m = .ok qs) :
    (∀ b x, Exported qs b x ↔ Exported ps b x ∨ ∃ (p : List String) (f : FileDef) (e : String) (n : Node)
      (t : String → Bool), (p, f) ∈ filesOf m ∧ BPath qs 0 p b ∧ e ∈ f.exports ∧ g e = some t ∧ qs[x]? = some n ∧
        n.parent = some b ∧ n.item.isBoundary = false ∧ t n.name = true) ∧
    ∀ p f e, (p, f) ∈ filesOf m → e ∈ f.exports → ∃ (b x : Nat) (n : Node) (t : String → Bool), BPath qs 0 p b ∧
      g e = some t ∧ qs[x]? = some n ∧ n.parent = some b ∧ n.item.isBoundary = false ∧ t n.name = true := by
  have E := (extend_spec g order ho (reach_wf h) m).2 qs he
  have conv : ∀ b e x, (∃ q : Node, qs[b]? = some q) → (MatchedIn g qs b e x ↔ ∃ (n : Node) (t : String → Bool), g e = some t ∧ qs[x]? = some n ∧
        n.parent = some b ∧ n.item.isBoundary = false ∧ t n.name = true) := by
    rintro b e x ⟨q, hq⟩
    unfold MatchedIn Matched Match
    constructor
    · rintro ⟨q', hq', h1, h2, t, n, h3, h4, h5⟩
      obtain ⟨n', hn', hp⟩ := E.wf.forest.child b q' x hq' h1
      rw [h4] at hn'; cases hn'
      refine ⟨n, t, h3, h4, hp, ?_, h5⟩
      simpa [is, h4] using h2
    · rintro ⟨n, t, h1, h2, h3, h4, h5⟩
      exact ⟨q, hq, (E.wf.forest.mem_children hq x).2 ⟨n, h2, h3⟩, by simp [is, h2, h4], t, n, h1, h2, h5⟩
  have isb : ∀ p b, BPath qs 0 p b → ∃ q : Node, qs[b]? = some q := by
    intro p b hb
    obtain ⟨r, hr, _, hbr⟩ := E.wf.forest.roots 0 (by decide)
    obtain ⟨q, hq, _⟩ := ((findBoundary_spec E.wf p 0 r hr hbr).2 b).2 hb
    exact ⟨q, hq⟩
  constructor
  · intro b x
    rw [E.exported]
    constructor
    · rintro (h | ⟨p, f, e, h1, h2, h3, h4⟩)
      · exact .inl h
      · obtain ⟨n, t, h5⟩ := (conv b e x (isb p b h2)).1 h4
        exact .inr ⟨p, f, e, n, t, h1, h2, h3, h5⟩
    · rintro (h | ⟨p, f, e, n, t, h1, h2, h3, h4⟩)
      · exact .inl h
      · exact .inr ⟨p, f, e, h1, h2, h3, (conv b e x (isb p b h2)).2 ⟨n, t, h4⟩⟩
  · intro p f e h1 h2
    obtain ⟨b, x, h3, h4⟩ := E.matched p f e h1 h2
    obtain ⟨n, t, h5⟩ := (conv b e x (isb p b h3)).1 h4
    exact ⟨b, x, n, t, h3, h5⟩

/-! ### C13 -/

/-- Resolving a path for an item gives, in increasing order and so once each, exactly the items of the kind
asked for that the path denotes, seen from the partition the item is in and with its imports. -/
theorem lookup_denotes (g : Glob) (ps : Parts) (h : Reach g ps) (kind : Item → Bool) (i : Nat) (n : Node)
    (hn : ps[i]? = some n) (path : List Char) :
    ∃ xs, lookup ps kind i path = .ok xs ∧ xs.Pairwise (· < ·) ∧
      ∀ x, x ∈ xs ↔ (∃ m : Node, ps[x]? = some m ∧ kind m.item = true) ∧
        Denotes ps (n.parent.getD 0) n.item.imports (parsePath path) x := by
  have w := reach_wf h
  obtain ⟨q, hq, hb⟩ : ∃ q : Node, ps[n.parent.getD 0]? = some q ∧ q.item.isBoundary = true := by
    cases hp : n.parent with
    | none => obtain ⟨r, hr, _, hb⟩ := w.forest.roots 0 (by decide); exact ⟨r, hr, hb⟩
    | some p => exact w.forest.parent_bnd hn hp
  have nil0 : n.parent = none → n.item.imports = [] := by
    intro hp
    by_cases hi : i < 3
    · obtain ⟨r, hr, _, hb⟩ := w.forest.roots i hi
      rw [hn] at hr; cases hr
      cases hit : n.item <;> rw [hit] at hb <;> first | rfl | cases hb
    · obtain ⟨p, _, hp', _⟩ := w.forest.parent i n hn (by omega)
      rw [hp] at hp'; cases hp'
  obtain ⟨hs, hx⟩ := w.imports i n hn
  have hr : ∀ x ∈ n.item.imports, x < ps.length := by
    intro x h
    obtain ⟨m, hm, _⟩ := hx x h
    exact (List.getElem?_eq_some_iff.1 hm).1
  obtain ⟨xs, e, hlt, hmem⟩ := find_spec w hq hb hs hr (parsePath_ne path)
  have hbi : bndAndImports ps i = .ok (n.parent.getD 0, n.item.imports) := by
    unfold bndAndImports
    rw [hn]
    cases hp : n.parent with
    | none => rw [nil0 hp]; simp only [hp, Option.getD_none]
    | some p => simp only [hp, Option.getD_some]
  refine ⟨xs.filter (is ps fun n => kind n.item), ?_, hlt.sublist List.filter_sublist, fun x => ?_⟩
  · unfold lookup
    rw [hbi]
    simp only [Except.bind, e, Except.map]
  · rw [List.mem_filter, hmem, is_iff]
    exact And.comm

/-- The components of a path are the text between the slashes, after the `/` or `//` it may start with. -/
theorem path_components (s : List Char) : ∃ ws : List (List Char), (parsePath s).2 = ws.map String.ofList ∧
    (∀ w ∈ ws, '/' ∉ w) ∧ ws ≠ [] ∧
    s = (match (parsePath s).1 with | .plugins => ['/', '/'] | .root => ['/'] | .rel => []) ++ joinSlash ws ∧
    ((parsePath s).1 = .rel → ∀ t, s ≠ '/' :: t) ∧ ((parsePath s).1 = .root → ∀ t, s ≠ '/' :: '/' :: t) := by
  unfold parsePath
  split
  · rename_i r
    exact ⟨splitSlash r, rfl, (join_split r).2, splitSlash_ne r, by rw [(join_split r).1]; rfl, by simp, by simp⟩
  · rename_i r hr
    refine ⟨splitSlash r, rfl, (join_split r).2, splitSlash_ne r, by rw [(join_split r).1]; rfl, by simp, ?_⟩
    intro _ t ht
    cases ht
    exact hr t rfl
  · rename_i h1 h2
    refine ⟨splitSlash s, rfl, (join_split s).2, splitSlash_ne s, by rw [(join_split s).1]; rfl, ?_, by simp⟩
    intro _ t ht
    exact h2 t ht

/-! ### C14 -/

/-- The candidates for the exact type and the generic ones. -/
def exact {T α : Type} [DecidableEq T] (t : T) (cs : List (Option T × α)) : List α :=
  (cs.filter fun c => c.1 == some t).map (·.2)
def generic {T α : Type} [DecidableEq T] (cs : List (Option T × α)) : List α :=
  (cs.filter fun c => c.1 == none).map (·.2)

/-- What C14 asks for. -/
def ideal {α : Type} : List α → List α → Choice α
  | [a], _ => .found a
  | _ :: _ :: _, _ => .ambiguous
  | [], [a] => .found a
  | [], _ :: _ :: _ => .ambiguous
  | [], [] => .notFound

/-- What the code does: two generic candidates are an error even if one candidate is exact. -/
def actual {α : Type} : List α → List α → Choice α
  | _ :: _ :: _, _ => .ambiguous
  | _, _ :: _ :: _ => .ambiguous
  | [a], _ => .found a
  | [], [a] => .found a
  | [], [] => .notFound

theorem chooseLoop_eq {T α : Type} [DecidableEq T] (t : T) (cs : List (Option T × α)) : ∀ (f a : Option α),
    chooseLoop t cs f a = actual (f.toList ++ exact t cs) (a.toList ++ generic cs) := by
  induction cs with
  | nil => intro f a; cases f <;> cases a <;> rfl
  | cons c cs ih =>
    intro f a
    obtain ⟨u, x⟩ := c
    cases u with
    | none =>
      have e1 : exact t ((none, x) :: cs) = exact t cs := by simp [exact]
      have e2 : generic ((none, x) :: cs) = x :: generic cs := by simp [generic]
      rw [e1, e2]
      cases a with
      | some y =>
        generalize f.toList ++ exact t cs = E
        simp only [chooseLoop, Option.toList, List.cons_append, List.nil_append]
        cases E with
        | nil => rfl
        | cons z zs => cases zs <;> rfl
      | none => simp only [chooseLoop, ih]; rfl
    | some u =>
      have e2 : generic ((some u, x) :: cs) = generic cs := by simp [generic]
      rw [e2]
      by_cases h : u = t
      · subst h
        have e1 : exact u ((some u, x) :: cs) = x :: exact u cs := by simp [exact]
        rw [e1]
        cases f with
        | some y => simp [chooseLoop, actual]
        | none => simp only [chooseLoop, if_true, ih]; rfl
      · have e1 : exact t ((some u, x) :: cs) = exact t cs := by simp [exact, h]
        rw [e1]
        simp only [chooseLoop, if_neg h, ih]

/-- A command is only chosen when it is the one exact candidate, or the one generic candidate with no exact
one; ambiguity is only reported when two candidates of a kind exist; not-found only when there is none. -/
theorem choose_sound {T α : Type} [DecidableEq T] (t : T) (cs : List (Option T × α)) :
    (∀ a, chooseImpl t cs = .found a → exact t cs = [a] ∨ (exact t cs = [] ∧ generic cs = [a])) ∧
    (chooseImpl t cs = .ambiguous ↔ 2 ≤ (exact t cs).length ∨ 2 ≤ (generic cs).length) ∧
    (chooseImpl t cs = .notFound ↔ exact t cs = [] ∧ generic cs = []) := by
  have e : chooseImpl t cs = actual (exact t cs) (generic cs) := chooseLoop_eq t cs none none
  rw [e]
  generalize exact t cs = E
  generalize generic cs = G
  match E, G with
  | [], [] => simp [actual]
  | [], [_] => simp [actual]
  | [], _ :: _ :: _ => simp [actual]
  | [_], [] => simp [actual]
  | [_], [_] => simp [actual]
  | [_], _ :: _ :: _ => simp [actual]
  | _ :: _ :: _, _ => simp [actual]

/-- C14 holds when there are not two generic candidates beside an exact one. -/
theorem choose_ideal_partial {T α : Type} [DecidableEq T] (t : T) (cs : List (Option T × α))
    (h : (exact t cs).length ≠ 1 ∨ (generic cs).length ≤ 1) : chooseImpl t cs = ideal (exact t cs) (generic cs) := by
  have e : chooseImpl t cs = actual (exact t cs) (generic cs) := chooseLoop_eq t cs none none
  rw [e]
  generalize exact t cs = E at *
  generalize generic cs = G at *
  match E, G with
  | [], [] => rfl
  | [], [_] => rfl
  | [], _ :: _ :: _ => rfl
  | [_], [] => rfl
  | [_], [_] => rfl
  | [_], _ :: _ :: _ => simp at h
  | _ :: _ :: _, _ => rfl

/-- Finding: with one exact candidate and two generic ones the code reports an ambiguity. -/
theorem choose_exact_lost : ∃ cs : List (Option Nat × Nat), exact 0 cs = [7] ∧ chooseImpl 0 cs = .ambiguous :=
  ⟨[(some 0, 7), (none, 8), (none, 9)], by decide, by decide⟩

/-- The order of the candidates does not matter. -/
theorem choose_perm {T α : Type} [DecidableEq T] (t : T) {cs ds : List (Option T × α)} (h : cs.Perm ds) :
    chooseImpl t cs = chooseImpl t ds := by
  have e : ∀ l : List (Option T × α), chooseImpl t l = actual (exact t l) (generic l) := fun l => chooseLoop_eq t l none none
  rw [e, e]
  have p1 : (exact t cs).Perm (exact t ds) := (h.filter _).map _
  have p2 : (generic cs).Perm (generic ds) := (h.filter _).map _
  revert p1 p2
  generalize exact t cs = E
  generalize exact t ds = E'
  generalize generic cs = G
  generalize generic ds = G'
  intro p1 p2
  have l1 := p1.length_eq
  have l2 := p2.length_eq
  match E, E', l1 with
  | [], [], _ =>
    match G, G', l2 with
    | [], [], _ => rfl
    | [a], [b], _ => rw [List.perm_singleton.1 p2]
    | _ :: _ :: _, _ :: _ :: _, _ => rfl
  | [a], [b], _ =>
    rw [List.perm_singleton.1 p1]
    match G, G', l2 with
    | [], [], _ => rfl
    | [a], [b], _ => rfl
    | _ :: _ :: _, _ :: _ :: _, _ => rfl
  | _ :: _ :: _, _ :: _ :: _, _ => rfl

/-- A type is found exactly when the path denotes one type; two or more are reported. -/
theorem type_lookup (g : Glob) (ps : Parts) (h : Reach g ps) (i : Nat) (n : Node) (hn : ps[i]? = some n)
    (path : List Char) : ∃ xs, lookup ps Item.isType i path = .ok xs ∧
      (∀ x, chooseType xs = .found x ↔ ∀ y, y = x ↔ (∃ m : Node, ps[y]? = some m ∧ m.item.isType = true) ∧
        Denotes ps (n.parent.getD 0) n.item.imports (parsePath path) y) ∧
      (chooseType xs = .notFound ↔ ∀ y, ¬ ((∃ m : Node, ps[y]? = some m ∧ m.item.isType = true) ∧
        Denotes ps (n.parent.getD 0) n.item.imports (parsePath path) y)) := by
  obtain ⟨xs, e, hlt, hmem⟩ := lookup_denotes g ps h Item.isType i n hn path
  refine ⟨xs, e, ?_, ?_⟩
  · intro x
    simp only [← hmem]
    match xs, hlt with
    | [], _ => simp only [chooseType, List.not_mem_nil, iff_false]; constructor
               · intro h; cases h
               · intro h; exact absurd rfl (h x)
    | [a], _ =>
      simp only [chooseType, Choice.found.injEq, List.mem_singleton]
      constructor
      · rintro rfl y; rfl
      · intro h; exact ((h x).1 rfl).symm
    | a :: b :: l, hlt =>
      simp only [chooseType]
      constructor
      · intro h; cases h
      · intro h
        have h1 := (h a).2 (by simp)
        have h2 := (h b).2 (by simp)
        have := (List.pairwise_cons.1 hlt).1 b (by simp)
        omega
  · simp only [← hmem]
    match xs with
    | [] => simp [chooseType]
    | [a] => simp only [chooseType]; constructor
             · intro h; cases h
             · intro h; exact absurd (by simp) (h a)
    | a :: b :: l => simp only [chooseType]; constructor
                     · intro h; cases h
                     · intro h; exact absurd (by simp) (h a)

/-! ### A concrete graph -/

/-- Globs that are plain names or `*`. -/
def plainGlob : Glob := fun p => some fun n => p == "*" || p == n

/-- Two partitions: `a` exports a command and keeps a type for itself, `b` imports from it. -/
def twoParts : List (List String × List FileDef) :=
  [(["a"], [⟨[], ["f"], ["T"], ["f", "g"]⟩]), (["b"], [⟨[⟨.root, ["a"], "*"⟩], [], [], ["h"]⟩])]

/-- The graph they give: `h` in `b` sees `f` only. -/
def twoGraph : Parts :=
  [⟨"<root>", none, .boundary [] [3, 7]⟩, ⟨"<shell>", none, .boundary [] []⟩, ⟨"<plugins>", none, .boundary [] []⟩,
   ⟨"a", some 0, .boundary [5] [4, 5, 6]⟩, ⟨"T", some 3, .type_ []⟩, ⟨"f", some 3, .impl []⟩, ⟨"g", some 3, .impl []⟩,
   ⟨"b", some 0, .boundary [] [8]⟩, ⟨"h", some 7, .impl [5]⟩]

theorem twoGraph_extend : extendRoot plainGlob id new twoParts = .ok twoGraph := by decide +kernel

/-- The hypotheses of C10 to C14 are met by a graph with two partitions, an export and an import. -/
theorem twoGraph_reach : Reach plainGlob twoGraph := .extend id twoParts .new (fun _ => .refl _) twoGraph_extend

example : Forest twoGraph := partition_forest _ _ twoGraph_reach
example : Keeps new twoGraph := extend_keeps _ _ _ .new id (fun _ => .refl _) twoParts twoGraph_extend
example : itemsOf (twoGraph.drop 3) = [("T", true), ("f", false), ("g", false), ("h", false)] := by decide +kernel
example : extendRoot plainGlob List.reverse new twoParts = .ok twoGraph :=
  (extend_order_irrelevant _ _ .new List.reverse id List.reverse_perm (fun _ => .refl _) twoParts twoGraph).2 twoGraph_extend
example : ∀ x, x ∈ setFind twoGraph (fromVec [8, 6, 5, 4, 5] twoGraph) "f" ↔ x = 5 := by
  intro x
  rw [(set_find_scan twoGraph [8, 6, 5, 4, 5] (by decide) "f").2.2 x]
  constructor
  · rintro ⟨hx, n, hn, hf⟩
    simp only [List.mem_cons, List.not_mem_nil, or_false] at hx
    rcases hx with rfl | rfl | rfl | rfl | rfl <;> first | rfl | (cases hn; exact absurd hf (by decide))
  · rintro rfl
    exact ⟨by decide, _, rfl, rfl⟩
/-- The glob `*` of the import stands for the exported `f` alone, not for `g` or `T`. -/
example : lookup twoGraph Item.isImpl 8 ['f'] = .ok [5] ∧ lookup twoGraph Item.isImpl 8 ['g'] = .ok [] := by
  decide +kernel
/-- A qualified path is not stopped by the missing export: `/a/g` is found. -/
example : lookup twoGraph Item.isImpl 8 ['/', 'a', '/', 'g'] = .ok [6] := by decide +kernel
/-- Going up from a command is going to its partition. -/
example : lookup twoGraph Item.isImpl 8 ['f', '/', '.', '.', '/', 'g'] = .ok [6] := by decide +kernel
example : extendRoot plainGlob id new [(["a b"], [])] = .error .err := by decide +kernel
/-- An import of a name that is not exported is an error, whatever the order. -/
example : extendRoot plainGlob id new
    [(["a"], [⟨[], ["f"], ["T"], ["f", "g"]⟩]), (["b"], [⟨[⟨.root, ["a"], "g"⟩], [], [], ["h"]⟩])] = .error .err := by
  decide +kernel
/-- Unless the file has no items: then its imports are never looked at. -/
example : (extendRoot plainGlob id new
    [(["a"], [⟨[], ["f"], ["T"], ["f", "g"]⟩]), (["b"], [⟨[⟨.root, ["a"], "g"⟩], [], [], []⟩])]).isOk = true := by
  decide +kernel
example : parsePath ['/', 'a', '/', 'g'] = (.root, ["a", "g"]) := by decide +kernel
example : chooseType [4] = Choice.found 4 ∧ lookup twoGraph Item.isType 5 ['T'] = .ok [4] := by decide +kernel
example : chooseImpl 0 [(some 1, 'a'), (none, 'b'), (some 0, 'c')] = .found 'c' := by decide

end Verif.Part
