import Verif.Lemmas.TabSort
/-! Lemmas on grouping. -/
namespace Verif.Tab
open Std
variable {N K V : Type}

def KeysLt (cmp : K → K → Ordering) (m : List (K × V)) : Prop := m.Pairwise fun a b => cmp a.1 b.1 = .lt

theorem bmUpd_mem (cmp : K → K → Ordering) [TransCmp cmp] (k : K) (new : V) (f : V → V) : ∀ (m : List (K × V)), KeysLt cmp m → ∀ x,
    (x ∈ bmUpd cmp k new f m ↔ (x ∈ m ∧ cmp k x.1 ≠ .eq) ∨ (∃ v, (x.1, v) ∈ m ∧ cmp k x.1 = .eq ∧ x.2 = f v) ∨
      (x = (k, f new) ∧ ∀ e ∈ m, cmp k e.1 ≠ .eq)) := by
  intro m
  induction m with
  | nil => intro _ x; simp [bmUpd]
  | cons a m ih =>
    intro hs x
    obtain ⟨k', v⟩ := a
    have hs' := List.pairwise_cons.1 hs
    have later : cmp k k' ≠ .gt → ∀ e ∈ m, cmp k e.1 = .lt := by
      intro h e he
      have := hs'.1 e he
      cases hc : cmp k k' with
      | lt => exact TransCmp.lt_trans hc this
      | eq => exact TransCmp.lt_of_eq_of_lt hc this
      | gt => exact absurd hc h
    unfold bmUpd
    cases hc : cmp k k' with
    | lt =>
      have hl := later (by rw [hc]; decide)
      have none' : ∀ e ∈ ((k', v) :: m), cmp k e.1 ≠ .eq := by
        intro e he
        rcases List.mem_cons.1 he with rfl | he
        · rw [hc]; decide
        · rw [hl e he]; decide
      constructor
      · intro h
        rcases List.mem_cons.1 h with rfl | h
        · exact .inr (.inr ⟨rfl, none'⟩)
        · exact .inl ⟨h, none' x h⟩
      · rintro (⟨h, _⟩ | ⟨w, h, h', _⟩ | ⟨rfl, _⟩)
        · exact List.mem_cons_of_mem _ h
        · exact absurd h' (none' (x.1, w) h)
        · exact List.mem_cons_self
    | eq =>
      have hl := later (by rw [hc]; decide)
      constructor
      · intro h
        rcases List.mem_cons.1 h with rfl | h
        · exact .inr (.inl ⟨v, by simp, hc, rfl⟩)
        · exact .inl ⟨List.mem_cons_of_mem _ h, by rw [hl x h]; decide⟩
      · rintro (⟨h, h'⟩ | ⟨w, h, h', h2⟩ | ⟨rfl, h⟩)
        · rcases List.mem_cons.1 h with rfl | h
          · exact absurd hc h'
          · exact List.mem_cons_of_mem _ h
        · rcases List.mem_cons.1 h with h | h
          · cases h; obtain ⟨x1, x2⟩ := x; simp only at h2; subst h2; exact List.mem_cons_self
          · have := hl _ h; simp only at this; rw [this] at h'; cases h'
        · exact absurd hc (h (k', v) (by simp))
    | gt =>
      have := ih hs'.2 x
      rw [List.mem_cons, this]
      constructor
      · rintro (rfl | ⟨h, h'⟩ | ⟨w, h, h', h2⟩ | ⟨rfl, h⟩)
        · exact .inl ⟨by simp, by rw [hc]; decide⟩
        · exact .inl ⟨List.mem_cons_of_mem _ h, h'⟩
        · exact .inr (.inl ⟨w, List.mem_cons_of_mem _ h, h', h2⟩)
        · refine .inr (.inr ⟨rfl, ?_⟩)
          intro e he
          rcases List.mem_cons.1 he with rfl | he
          · rw [hc]; decide
          · exact h e he
      · rintro (⟨h, h'⟩ | ⟨w, h, h', h2⟩ | ⟨rfl, h⟩)
        · rcases List.mem_cons.1 h with rfl | h
          · exact .inl rfl
          · exact .inr (.inl ⟨h, h'⟩)
        · rcases List.mem_cons.1 h with h | h
          · cases h; rw [hc] at h'; cases h'
          · exact .inr (.inr (.inl ⟨w, h, h', h2⟩))
        · exact .inr (.inr (.inr ⟨rfl, fun e he => h e (List.mem_cons_of_mem _ he)⟩))

theorem bmUpd_sorted (cmp : K → K → Ordering) [TransCmp cmp] (k : K) (new : V) (f : V → V) : ∀ (m : List (K × V)), KeysLt cmp m →
    KeysLt cmp (bmUpd cmp k new f m) := by
  intro m
  induction m with
  | nil => intro _; exact List.pairwise_singleton _ _
  | cons a m ih =>
    intro hs
    obtain ⟨k', v⟩ := a
    have hs' := List.pairwise_cons.1 hs
    unfold bmUpd
    cases hc : cmp k k' with
    | lt =>
      refine List.pairwise_cons.2 ⟨?_, hs⟩
      intro e he
      rcases List.mem_cons.1 he with rfl | he
      · exact hc
      · exact TransCmp.lt_trans hc (hs'.1 e he)
    | eq => exact List.pairwise_cons.2 ⟨hs'.1, hs'.2⟩
    | gt =>
      refine List.pairwise_cons.2 ⟨?_, ih hs'.2⟩
      intro e he
      rcases (bmUpd_mem cmp k new f m hs'.2 e).1 he with ⟨h, _⟩ | ⟨w, h, _, _⟩ | ⟨rfl, _⟩
      · exact hs'.1 e h
      · exact hs'.1 (e.1, w) h
      · exact OrientedCmp.lt_of_gt hc

theorem find_append_some {α : Type} {p : α → Bool} {l : List α} {x : α} (r : α) (h : l.find? p = some x) : (l ++ [r]).find? p = some x := by
  rw [List.find?_append, h]; rfl

theorem group_step (cmp : K → K → Ordering) [TransCmp cmp] {h : List (Entry N)} {ks : List (K × List (Entry N))} {m : List (K × Rows N)}
    (g : Grouped cmp h ks m) (k : K) (r : List (Entry N)) (hr : r.length = h.length) (hpos : 0 < h.length) (hks : ∀ x ∈ ks, x.2.length = h.length) :
    Grouped cmp h (ks ++ [(k, r)]) (bmUpd cmp k (addRow [] h) (addRow · r) m) := by
  have e0 : addRow [] h = [h] := by
    have := addRow_eq (t := ([] : Rows N)) (r := h) (rect_of hpos (by simp))
    simpa using this
  have eadd : ∀ (L : List (K × List (Entry N))), (∀ x ∈ L, x ∈ ks) → addRow (h :: L.map (·.2)) r = h :: L.map (·.2) ++ [r] := by
    intro L hL
    apply addRow_eq
    refine rect_of hpos ?_
    intro x hx
    simp only [List.cons_append, List.mem_cons, List.mem_append, List.mem_map, List.not_mem_nil, or_false] at hx
    rcases hx with rfl | ⟨y, hy, rfl⟩ | rfl
    · rfl
    · exact hks y (hL y hy)
    · exact hr
  have mem := bmUpd_mem cmp k (addRow [] h) (addRow · r) m g.sorted
  refine ⟨bmUpd_sorted cmp k _ _ m g.sorted, ?_, ?_, ?_⟩
  · intro x hx
    rw [List.filter_append, List.map_append]
    rcases (mem x).1 hx with ⟨hm, hne⟩ | ⟨v, hm, he, hv⟩ | ⟨rfl, hn⟩
    · have : (cmp k x.1 == .eq) = false := by simpa using hne
      rw [g.rows x hm]; simp [this]
    · have hrow := g.rows _ hm
      simp only at hrow
      rw [hv, hrow, eadd _ (fun y hy => (List.mem_filter.1 hy).1)]
      simp [he]
    · have : ks.filter (fun x => cmp x.1 k == .eq) = [] := by
        rw [List.filter_eq_nil_iff]
        intro y hy hc
        obtain ⟨z, hz, hz'⟩ := g.cover y hy
        have h1 : cmp k y.1 = .eq := OrientedCmp.eq_symm (by simpa using hc)
        exact hn z hz (TransCmp.eq_trans h1 hz')
      have e1 := eadd [] (by simp)
      simp only [List.map_nil] at e1
      simp only [this, List.map_nil, List.nil_append, e0, e1]
      simp [ReflCmp.compare_self (cmp := cmp)]
  · intro x hx
    rcases (mem x).1 hx with ⟨hm, hne⟩ | ⟨v, hm, he, hv⟩ | ⟨rfl, hn⟩
    · have := g.key x hm
      obtain ⟨y, hy, hy'⟩ := Option.map_eq_some_iff.1 this
      rw [find_append_some _ hy]; simp [hy']
    · have := g.key _ hm
      obtain ⟨y, hy, hy'⟩ := Option.map_eq_some_iff.1 this
      simp only at hy
      rw [find_append_some _ hy]; simp [hy']
    · have : ks.find? (fun x => cmp x.1 k == .eq) = none := by
        rw [List.find?_eq_none]
        intro y hy hc
        obtain ⟨z, hz, hz'⟩ := g.cover y hy
        have h1 : cmp k y.1 = .eq := OrientedCmp.eq_symm (by simpa using hc)
        exact hn z hz (TransCmp.eq_trans h1 hz')
      rw [List.find?_append, this]
      simp [ReflCmp.compare_self (cmp := cmp)]
  · intro x hx
    by_cases hex : ∃ e ∈ m, cmp k e.1 = .eq
    · obtain ⟨e, he, hk⟩ := hex
      rcases List.mem_append.1 hx with hx | hx
      · obtain ⟨z, hz, hz'⟩ := g.cover x hx
        by_cases hkz : cmp k z.1 = .eq
        · exact ⟨(z.1, addRow z.2 r), (mem _).2 (.inr (.inl ⟨z.2, hz, hkz, rfl⟩)), hz'⟩
        · exact ⟨z, (mem _).2 (.inl ⟨hz, hkz⟩), hz'⟩
      · simp only [List.mem_singleton] at hx; subst hx
        exact ⟨(e.1, addRow e.2 r), (mem _).2 (.inr (.inl ⟨e.2, he, hk, rfl⟩)), hk⟩
    · have hn : ∀ e ∈ m, cmp k e.1 ≠ .eq := fun e he hk => hex ⟨e, he, hk⟩
      rcases List.mem_append.1 hx with hx | hx
      · obtain ⟨z, hz, hz'⟩ := g.cover x hx
        exact ⟨z, (mem _).2 (.inl ⟨hz, hn z hz⟩), hz'⟩
      · simp only [List.mem_singleton] at hx; subst hx
        exact ⟨_, (mem _).2 (.inr (.inr ⟨rfl, hn⟩)), ReflCmp.compare_self⟩

theorem groups_spec (cmp : K → K → Ordering) [TransCmp cmp] {h : List (Entry N)} (hpos : 0 < h.length) (rest : List (K × List (Entry N))) :
    ∀ (ks : List (K × List (Entry N))) (m : List (K × Rows N)), Grouped cmp h ks m → (∀ x ∈ ks ++ rest, x.2.length = h.length) →
      Grouped cmp h (ks ++ rest) (groups cmp h rest m) := by
  induction rest with
  | nil => intro ks m g _; simpa [groups] using g
  | cons x rest ih =>
    intro ks m g hl
    obtain ⟨k, r⟩ := x
    unfold groups
    have := ih (ks ++ [(k, r)]) _ (group_step cmp g k r (hl (k, r) (by simp)) hpos (fun x hx => hl x (by simp [hx])))
      (by intro x hx; exact hl x (by simpa using hx))
    simpa using this

theorem grouped_nil (cmp : K → K → Ordering) (h : List (Entry N)) : Grouped cmp h [] [] :=
  ⟨.nil, (by intro g hg; cases hg), (by intro g hg; cases hg), (by intro g hg; cases hg)⟩

theorem buildGroups_eq {K : Type} (key : K → Value N) (m : List (K × Rows N)) :
    buildGroups key m = [.obj (.str "key"), .obj (.str "value")] :: m.map fun x => [(key x.1).entry, .obj (.tab x.2)] := by
  unfold buildGroups
  have e : addRow ([] : Rows N) [.obj (.str "key"), .obj (.str "value")] = [[.obj (.str "key"), .obj (.str "value")]] :=
    addRow_eq (t := []) (rect_of (w := 2) (by omega) (by simp))
  rw [e, addRows_eq]
  · rfl
  · refine rect_of (w := 2) (by omega) ?_
    intro r hr
    simp only [List.cons_append, List.nil_append, List.mem_cons, List.mem_map] at hr
    rcases hr with rfl | ⟨x, _, rfl⟩ <;> rfl

end Verif.Tab
