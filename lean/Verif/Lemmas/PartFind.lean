import Verif.Lemmas.PartPhase3
namespace Verif.Part

theorem mem_walk1 {ps : Parts} (w : Forest ps) (bs : List Nat) (c : String) (x : Nat) :
    x ∈ walk1 ps bs c ↔ ∃ b ∈ bs, Step ps b c x := by
  unfold walk1
  by_cases hc : c = ".."
  · subst hc
    rw [if_pos rfl, List.mem_filterMap]
    constructor
    · rintro ⟨b, hb, h⟩
      cases hn : ps[b]? with
      | none => rw [hn] at h; cases h
      | some n => rw [hn] at h; exact ⟨b, hb, .up hn h⟩
    · rintro ⟨b, hb, h⟩
      refine ⟨b, hb, ?_⟩
      cases h with
      | up hn hp => rw [hn]; exact hp
      | down hx => exact absurd rfl hx
  · rw [if_neg hc, List.mem_filter, List.mem_flatten]
    constructor
    · rintro ⟨⟨cs, h1, h2⟩, h3⟩
      obtain ⟨b, hb, h4⟩ := List.mem_filterMap.1 h1
      obtain ⟨n, hn, hnm⟩ := is_iff.1 h3
      refine ⟨b, hb, ?_⟩
      cases hq : ps[b]? with
      | none => rw [hq] at h4; cases h4
      | some q =>
        rw [hq] at h4
        simp only [Option.bind] at h4
        split at h4
        · cases h4
          obtain ⟨n', hn', hp⟩ := w.child b q x hq h2
          rw [hn] at hn'; cases hn'
          exact .down hc hn hp (by simpa using hnm)
        · cases h4
    · rintro ⟨b, hb, h⟩
      cases h with
      | up => exact absurd rfl hc
      | down _ hn hp hnm =>
        obtain ⟨q, hq, hqb⟩ := w.parent_bnd hn hp
        refine ⟨⟨q.item.children, List.mem_filterMap.2 ⟨b, hb, ?_⟩, (w.mem_children hq x).2 ⟨_, hn, hp⟩⟩, is_iff.2 ⟨_, hn, by simp [hnm]⟩⟩
        rw [hq]; simp [hqb]

theorem mem_walks {ps : Parts} (w : Forest ps) (cs : List String) : ∀ (bs : List Nat) (x : Nat),
    x ∈ cs.foldl (walk1 ps) bs ↔ ∃ b ∈ bs, Walk ps b cs x := by
  induction cs with
  | nil =>
    intro bs x
    constructor
    · intro h; exact ⟨x, h, .nil⟩
    · rintro ⟨b, hb, h⟩; cases h; exact hb
  | cons c cs ih =>
    intro bs x
    rw [List.foldl_cons, ih]
    constructor
    · rintro ⟨b, hb, h⟩
      obtain ⟨a, ha, hs⟩ := (mem_walk1 w bs c b).1 hb
      exact ⟨a, ha, .cons hs h⟩
    · rintro ⟨a, ha, h⟩
      cases h with
      | cons hs h => exact ⟨_, (mem_walk1 w bs c _).2 ⟨a, ha, hs⟩, h⟩

/-- `find` gives the denoted items, in increasing order. -/
theorem find_spec {ps : Parts} (w : Wf ps) {within : Nat} {q : Node} (hq : ps[within]? = some q)
    (hb : q.item.isBoundary = true) {imports : List Nat} (hs : Sorted ps imports) (hr : ∀ x ∈ imports, x < ps.length)
    {path : Start × List String} (hp : path.2 ≠ []) :
    ∃ xs, find ps within imports path = .ok xs ∧ xs.Pairwise (· < ·) ∧ ∀ x, x ∈ xs ↔ Denotes ps within imports path x := by
  obtain ⟨st, cs⟩ := path
  have done : ∀ (bs : List Nat) (cs' : List String), (∀ x, (∃ b ∈ bs, Walk ps b cs' x) ↔ Denotes ps within imports (st, cs) x) →
      ∃ xs, Except.map (fun y : List Nat × List String => dedup ((y.2.foldl (walk1 ps) y.1).mergeSort fun a b => decide (a ≤ b)))
        (.ok (bs, cs') : Except Bad _) = .ok xs ∧ xs.Pairwise (· < ·) ∧ ∀ x, x ∈ xs ↔ Denotes ps within imports (st, cs) x := by
    intro bs cs' h
    refine ⟨_, rfl, sortDedup_lt _, fun x => ?_⟩
    rw [mem_sortDedup, mem_walks w.forest, h]
  unfold find
  cases st with
  | plugins =>
    refine done [2] cs (fun x => ?_)
    constructor
    · rintro ⟨b, hb, h⟩; rw [List.mem_singleton] at hb; subst hb; exact .plugins h
    · intro h; cases h with | plugins h => exact ⟨2, by simp, h⟩
  | root =>
    refine done [0] cs (fun x => ?_)
    constructor
    · rintro ⟨b, hb, h⟩; rw [List.mem_singleton] at hb; subst hb; exact .root h
    · intro h; cases h with | root h => exact ⟨0, by simp, h⟩
  | rel =>
    cases cs with
    | nil => exact absurd rfl hp
    | cons c cs =>
      simp only
      unfold firstStep
      by_cases hc : c = ".."
      · subst hc
        rw [if_pos rfl, hq]
        refine done q.parent.toList cs (fun x => ?_)
        constructor
        · rintro ⟨b, hb, h⟩
          rw [Option.mem_toList] at hb
          exact .rel (.cons (.up hq hb) h)
        · intro h
          generalize hL : (".." :: cs) = L at h
          cases h with
          | rel h =>
            subst hL
            cases h with
            | cons hs h =>
              cases hs with
              | up hn hp => rw [hq] at hn; cases hn; exact ⟨_, Option.mem_toList.2 hp, h⟩
              | down hx => exact absurd rfl hx
          | imported hx => cases hL; exact absurd rfl hx
      · rw [if_neg hc, children_of hq hb]
        refine done (q.item.children.filter (is ps fun n => n.name == c) ++ setFind ps imports c) cs (fun x => ?_)
        rw [setFind_eq hs hr]
        constructor
        · rintro ⟨b, hb', h⟩
          rcases List.mem_append.1 hb' with hb' | hb'
          · obtain ⟨h1, h2⟩ := List.mem_filter.1 hb'
            obtain ⟨n, hn, hp⟩ := w.forest.child within q b hq h1
            obtain ⟨n', hn', hnm⟩ := is_iff.1 h2
            rw [hn] at hn'; cases hn'
            exact .rel (.cons (.down hc hn hp (by simpa using hnm)) h)
          · obtain ⟨h1, h2⟩ := List.mem_filter.1 hb'
            obtain ⟨n', hn', hnm⟩ := is_iff.1 h2
            exact .imported hc h1 hn' (by simpa using hnm) h
        · intro h
          cases h with
          | rel h =>
            cases h with
            | cons hs h =>
              cases hs with
              | up => exact absurd rfl hc
              | down _ hn hp hnm =>
                exact ⟨_, List.mem_append_left _ (List.mem_filter.2 ⟨(w.forest.mem_children hq _).2 ⟨_, hn, hp⟩,
                  is_iff.2 ⟨_, hn, by simp [hnm]⟩⟩), h⟩
          | imported _ hx hn hnm h =>
            exact ⟨_, List.mem_append_right _ (List.mem_filter.2 ⟨hx, is_iff.2 ⟨_, hn, by simp [hnm]⟩⟩), h⟩

/-! ### Paths as text -/

theorem splitSlash_ne (s : List Char) : splitSlash s ≠ [] := by
  cases s with
  | nil => simp [splitSlash]
  | cons c s =>
    unfold splitSlash
    split
    · simp
    · split <;> simp

/-- Putting the components back together. -/
def joinSlash : List (List Char) → List Char
  | [] => []
  | [w] => w
  | w :: v :: ws => w ++ '/' :: joinSlash (v :: ws)

theorem joinSlash_cons (w : List Char) {ws : List (List Char)} (h : ws ≠ []) : joinSlash (w :: ws) = w ++ '/' :: joinSlash ws := by
  cases ws with
  | nil => exact absurd rfl h
  | cons v ws => rfl

theorem join_split (s : List Char) : joinSlash (splitSlash s) = s ∧ ∀ w ∈ splitSlash s, '/' ∉ w := by
  induction s with
  | nil => simp [splitSlash, joinSlash]
  | cons c s ih =>
    unfold splitSlash
    have hne := splitSlash_ne s
    split
    · rename_i h; subst h
      refine ⟨by rw [joinSlash_cons _ hne, ih.1]; rfl, ?_⟩
      intro w hw
      rcases List.mem_cons.1 hw with rfl | hw
      · simp
      · exact ih.2 w hw
    · rename_i h
      cases hs : splitSlash s with
      | nil => exact absurd hs hne
      | cons w ws =>
        rw [hs] at ih
        simp only
        constructor
        · cases ws with
          | nil => simp only [joinSlash] at ih ⊢; rw [ih.1]
          | cons v ws => simp only [joinSlash, List.cons_append] at ih ⊢; rw [ih.1]
        · intro v hv
          rcases List.mem_cons.1 hv with rfl | hv
          · have := ih.2 w (by simp)
            simp only [List.mem_cons, not_or]
            exact ⟨fun e => h e.symm, this⟩
          · exact ih.2 v (by simp [hv])

theorem parsePath_ne (s : List Char) : (parsePath s).2 ≠ [] := by
  unfold parsePath
  split <;> simp [splitSlash_ne]

end Verif.Part
