import Verif.Model.Map
namespace Verif.AMap
variable {α β : Type} [DecidableEq α]

theorem get_none {m : AMap α β} {k : α} : m.get k = none ↔ k ∉ m.map (·.1) := by
  induction m with
  | nil => simp [get]
  | cons x m ih =>
    obtain ⟨a, b⟩ := x
    simp only [get, List.map_cons, List.mem_cons, not_or]
    by_cases h : a = k
    · simp [h]
    · rw [if_neg h, ih]
      constructor
      · exact fun h' => ⟨fun e => h e.symm, h'⟩
      · exact fun h' => h'.2

theorem mem_of_get {m : AMap α β} {k : α} {v : β} (h : m.get k = some v) : (k, v) ∈ m := by
  induction m with
  | nil => simp [get] at h
  | cons x m ih =>
    obtain ⟨a, b⟩ := x
    simp only [get] at h
    by_cases e : a = k
    · rw [if_pos e] at h; cases h; simp [e]
    · rw [if_neg e] at h; exact List.mem_cons_of_mem _ (ih h)

theorem get_of_mem {m : AMap α β} (hw : m.Wf) {k : α} {v : β} (h : (k, v) ∈ m) : m.get k = some v := by
  induction m with
  | nil => simp at h
  | cons x m ih =>
    obtain ⟨a, b⟩ := x
    simp only [Wf, List.map_cons, List.nodup_cons] at hw
    simp only [get]
    rcases List.mem_cons.1 h with e | h
    · cases e; simp
    · have : a ≠ k := by
        rintro rfl
        exact hw.1 (List.mem_map.2 ⟨_, h, rfl⟩)
      rw [if_neg this]; exact ih hw.2 h

theorem get_iff_mem {m : AMap α β} (hw : m.Wf) {k : α} {v : β} : m.get k = some v ↔ (k, v) ∈ m :=
  ⟨mem_of_get, get_of_mem hw⟩

theorem get_insert (m : AMap α β) (k k' : α) (v : β) :
    (m.insert k v).get k' = if k = k' then some v else m.get k' := by
  induction m with
  | nil => simp [insert, get]
  | cons x m ih =>
    obtain ⟨a, b⟩ := x
    simp only [insert]
    by_cases h : a = k
    · subst h
      simp only [if_true, get]
      by_cases h' : a = k' <;> simp [h']
    · rw [if_neg h]
      simp only [get]
      by_cases h' : a = k'
      · subst h'
        have : k ≠ a := fun e => h e.symm
        simp [this]
      · rw [if_neg h', if_neg h', ih]

theorem keys_insert (m : AMap α β) (k : α) (v : β) :
    (m.insert k v).map (·.1) = if k ∈ m.map (·.1) then m.map (·.1) else m.map (·.1) ++ [k] := by
  induction m with
  | nil => simp [insert]
  | cons x m ih =>
    obtain ⟨a, b⟩ := x
    simp only [insert]
    by_cases h : a = k
    · simp [h]
    · have h' : k ≠ a := fun e => h e.symm
      rw [if_neg h]
      simp only [List.map_cons, ih, List.mem_cons, h', false_or]
      split <;> simp

theorem wf_insert {m : AMap α β} (h : m.Wf) (k : α) (v : β) : (m.insert k v).Wf := by
  unfold Wf at h ⊢
  rw [keys_insert]
  split
  · exact h
  · rename_i hk
    rw [List.nodup_append]
    refine ⟨h, by simp, ?_⟩
    intro a ha b hb e
    simp at hb
    subst hb e
    exact hk ha

omit [DecidableEq α] in
theorem wf_nil : Wf ([] : AMap α β) := by simp [Wf]

omit [DecidableEq α] in
theorem wf_retain {m : AMap α β} (h : m.Wf) (p : α → β → Bool) : (m.retain p).Wf := by
  unfold Wf retain at *
  exact List.Sublist.nodup (List.Sublist.map _ List.filter_sublist) h

theorem get_retain {m : AMap α β} (h : m.Wf) (p : α → β → Bool) (k : α) :
    (m.retain p).get k = (m.get k).filter (p k) := by
  cases hg : m.get k with
  | none =>
    rw [Option.filter_none, get_none]
    rw [get_none] at hg
    intro hm
    apply hg
    obtain ⟨x, hx, e⟩ := List.mem_map.1 hm
    exact List.mem_map.2 ⟨x, (List.mem_filter.1 hx).1, e⟩
  | some v =>
    have hm := mem_of_get hg
    by_cases hp : p k v = true
    · have : (k, v) ∈ m.retain p := List.mem_filter.2 ⟨hm, hp⟩
      rw [get_of_mem (wf_retain h p) this]
      simp [Option.filter, hp]
    · have e : (some v).filter (p k) = none := by simp [Option.filter, hp]
      rw [e, get_none]
      intro hk
      obtain ⟨⟨a, b⟩, hx, e⟩ := List.mem_map.1 hk
      have e : a = k := e
      subst e
      obtain ⟨hx1, hx2⟩ := List.mem_filter.1 hx
      have := get_of_mem h hx1
      rw [hg] at this
      cases this
      exact hp hx2

theorem get_mapVals (m : AMap α β) (f : β → β) (k : α) : (m.mapVals f).get k = (m.get k).map f := by
  induction m with
  | nil => rfl
  | cons x m ih =>
    obtain ⟨a, b⟩ := x
    have e : mapVals ((a, b) :: m) f = (a, f b) :: mapVals m f := rfl
    rw [e]
    simp only [get]
    by_cases h : a = k
    · simp [h]
    · rw [if_neg h, if_neg h]; exact ih

omit [DecidableEq α] in
theorem wf_mapVals {m : AMap α β} (h : m.Wf) (f : β → β) : (m.mapVals f).Wf := by
  unfold Wf mapVals at *
  rw [List.map_map]
  exact h

theorem has_iff {m : AMap α β} {k : α} : m.has k = true ↔ ∃ v, m.get k = some v := by
  unfold has
  cases m.get k <;> simp

end Verif.AMap
