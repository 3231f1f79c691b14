import Verif.Lemmas.TabPar
/-! Lemmas on the operations of the `table` crate. -/
namespace Verif.Tab
variable {N : Type}

theorem padTo_length (w : Nat) (r : List (Entry N)) : (padTo w r).length = max w r.length := by
  simp [padTo]; omega

theorem padTo_eq {w : Nat} {r : List (Entry N)} (h : r.length = w) : padTo w r = r := by simp [padTo, h]

theorem padTo_self {w : Nat} {r : List (Entry N)} (h : w ≤ r.length) : padTo w r = r := by
  simp [padTo, Nat.sub_eq_zero_of_le h]

theorem at_padTo (w : Nat) (r : List (Entry N)) (c : Nat) : at_ (padTo w r) c = at_ r c := by
  unfold at_ padTo
  rw [List.getElem?_append]
  split
  · rfl
  · rename_i h
    rw [List.getElem?_replicate, List.getElem?_eq_none (by omega)]
    split <;> rfl

theorem width_pos_of_rect {t : Rows N} (h : Rect t) (hne : t ≠ []) : 0 < width t := by
  cases t with
  | nil => exact absurd rfl hne
  | cons a l => exact (h.len (r := a) (by simp)).2

theorem width_append {t u : Rows N} (h : t ≠ []) : width (t ++ u) = width t := by
  cases t with
  | nil => exact absurd rfl h
  | cons a l => rfl

/-- All rows of one positive width, given. -/
theorem rect_of {t : Rows N} {w : Nat} (hw : 0 < w) (h : ∀ r ∈ t, r.length = w) : Rect t := .inr ⟨w, hw, h⟩

theorem Rect.sub {t u : Rows N} (h : Rect t) (hs : ∀ r ∈ u, r ∈ t) : Rect u := by
  rcases h with rfl | ⟨w, hw, h⟩
  · left
    cases u with
    | nil => rfl
    | cons a l => have := hs a (by simp); cases this
  · exact .inr ⟨w, hw, fun r hr => h r (hs r hr)⟩

theorem norm_rect {t : Rows N} (h : Rect t) : norm t = t := by
  unfold norm
  split
  · rename_i hw
    cases t with
    | nil => rfl
    | cons a l => have := (h.len (r := a) (by simp)).2; omega
  · rfl

theorem rect_norm {t : Rows N} {w : Nat} (h : ∀ r ∈ t, r.length = w) : Rect (norm t) := by
  unfold norm
  split
  · exact .inl rfl
  · rename_i hw
    cases t with
    | nil => exact .inl rfl
    | cons a l =>
      have := h a (by simp)
      simp only [width] at hw
      exact rect_of (by omega) h

/-! ### add_row, add_rows -/

theorem rect_addRow {t : Rows N} (h : Rect t) (r : List (Entry N)) : Rect (addRow t r) := by
  refine rect_norm (w := max (width t) r.length) ?_
  intro x hx
  simp only [List.map_append, List.map_cons, List.map_nil, List.mem_append, List.mem_map, List.mem_singleton] at hx
  rcases hx with ⟨y, hy, rfl⟩ | rfl
  · rw [padTo_length]; have := (h.len hy).1; omega
  · rw [padTo_length]; omega

theorem addRow_eq {t : Rows N} {r : List (Entry N)} (h : Rect (t ++ [r])) : addRow t r = t ++ [r] := by
  unfold addRow
  have hr := h.len (r := r) (by simp)
  have hw : max (width t) r.length = r.length := by
    cases t with
    | nil => simp [width]
    | cons a l => have := h.len (r := a) (by simp); simp only [width, List.cons_append] at *; omega
  rw [hw]
  have : (t ++ [r]).map (padTo r.length) = t ++ [r] := by
    conv => rhs; rw [← List.map_id (t ++ [r])]
    apply List.map_congr_left
    intro x hx
    exact padTo_eq (by rw [hr.1]; exact (h.len hx).1)
  rw [this]
  exact norm_rect h

theorem addRows_eq (rs : Rows N) : ∀ {t : Rows N}, Rect (t ++ rs) → addRows t rs = t ++ rs := by
  induction rs with
  | nil => intro t _; simp [addRows]
  | cons r rs ih =>
    intro t h
    have h1 : Rect (t ++ [r]) := h.sub (by simp; grind)
    unfold addRows
    rw [List.foldl_cons, addRow_eq h1]
    have := ih (t := t ++ [r]) (by simpa using h)
    unfold addRows at this
    simpa using this

theorem rect_addRows (rs : Rows N) : ∀ {t : Rows N}, Rect t → Rect (addRows t rs) := by
  induction rs with
  | nil => intro t h; exact h
  | cons r rs ih => intro t h; exact ih (rect_addRow h r)

/-- Adding rows to a table that has a header: everything is padded to the widest row. -/
theorem addRows_pad (rs : Rows N) : ∀ {t : Rows N}, Rect t → t ≠ [] →
    addRows t rs = (t ++ rs).map (padTo (rs.foldl (fun w r => max w r.length) (width t))) := by
  induction rs with
  | nil =>
    intro t h _
    simp only [addRows, List.foldl_nil, List.append_nil]
    conv => lhs; rw [← List.map_id t]
    exact List.map_congr_left fun x hx => (padTo_eq (h.len hx).1).symm
  | cons r rs ih =>
    intro t h hne
    have hr := rect_addRow h r
    have hw := width_pos_of_rect h hne
    have e : addRow t r = (t ++ [r]).map (padTo (max (width t) r.length)) := by
      unfold addRow norm
      rw [if_neg]
      cases t with
      | nil => exact absurd rfl hne
      | cons a l => simp only [List.cons_append, List.map_cons, width, padTo_length]; simp only [width] at hw; omega
    have hne' : addRow t r ≠ [] := by rw [e]; simp
    have hw' : width (addRow t r) = max (width t) r.length := by
      rw [e]
      cases t with
      | nil => exact absurd rfl hne
      | cons a l => simp only [List.cons_append, List.map_cons, width, padTo_length]; omega
    unfold addRows at *
    rw [List.foldl_cons, ih hr hne', hw', List.foldl_cons]
    have mono : ∀ (l : Rows N) (w : Nat), w ≤ l.foldl (fun w r => max w r.length) w := by
      intro l
      induction l with
      | nil => intro w; exact Nat.le_refl _
      | cons a l ih => intro w; exact Nat.le_trans (Nat.le_max_left _ _) (ih _)
    generalize hW : rs.foldl (fun w r => max w r.length) (max (width t) r.length) = W
    have hm : max (width t) r.length ≤ W := by rw [← hW]; exact mono _ _
    have e2 : (addRow t r).map (padTo W) = (t ++ [r]).map (padTo W) := ?_
    · rw [List.map_append, e2, ← List.map_append]; simp
    rw [e, List.map_map]
    apply List.map_congr_left
    intro x hx
    simp only [Function.comp]
    unfold padTo
    simp only [List.append_assoc, List.append_cancel_left_eq, List.length_append, List.length_replicate]
    rw [List.replicate_append_replicate]
    congr 1
    have hx' : x.length ≤ max (width t) r.length := by
      rcases List.mem_append.1 hx with h' | h'
      · have := (h.len h').1; omega
      · simp only [List.mem_singleton] at h'; subst h'; omega
    omega

/-! ### add_cols -/

theorem rect_addCol {t : Rows N} (h : Rect t) (c : List (Entry N)) : Rect (addCol t c) := by
  refine rect_of (w := width t + 1) (by omega) ?_
  intro x hx
  unfold addCol at hx
  obtain ⟨i, _, rfl⟩ := List.mem_map.1 hx
  rw [List.length_append, padTo_length]
  have : (t[i]?.getD []).length ≤ width t := by
    cases h' : t[i]? with
    | none => simp
    | some r => simp only [Option.getD_some]; have := (h.len (List.mem_of_getElem? h')).1; omega
  simp; omega

theorem rect_addCols (cs : List (List (Entry N))) : ∀ {t : Rows N}, Rect t → Rect (addCols t cs) := by
  induction cs with
  | nil => intro t h; exact h
  | cons r rs ih => intro t h; exact ih (rect_addCol h r)

theorem addCol_length (t : Rows N) (c : List (Entry N)) : (addCol t c).length = max t.length c.length := by
  simp [addCol]

theorem addCol_get {t : Rows N} (h : Rect t) {c : List (Entry N)} (hc : c.length = t.length) (i : Nat) :
    (addCol t c)[i]? = t[i]?.map fun r => r ++ [at_ c i] := by
  unfold addCol
  rw [List.getElem?_map, hc, Nat.max_self]
  by_cases hi : i < t.length
  · have e : t[i]? = some t[i] := List.getElem?_eq_getElem hi
    rw [List.getElem?_range hi]
    simp only [Option.map_some, e, Option.getD_some]
    rw [padTo_eq (h.len (List.getElem_mem hi)).1]
    rfl
  · rw [List.getElem?_eq_none (by simpa using hi), List.getElem?_eq_none (by omega)]
    rfl

theorem addCols_get (cs : List (List (Entry N))) : ∀ {t : Rows N}, Rect t → (∀ c ∈ cs, c.length = t.length) → ∀ i,
    (addCols t cs)[i]? = t[i]?.map fun r => r ++ cs.map fun c => at_ c i := by
  induction cs with
  | nil => intro t h _ i; cases hi : t[i]? <;> simp [addCols, hi]
  | cons c cs ih =>
    intro t h hl i
    have hc := hl c (by simp)
    unfold addCols at *
    rw [List.foldl_cons, ih (rect_addCol h c) (by
      intro c' hc'
      rw [addCol_length, hc, hl c' (by simp [hc'])]; omega) i, addCol_get h hc]
    cases t[i]? <;> simp

/-! ### retain_rows -/

theorem retainRows_eq (q : Nat → Bool) (h0 : q 0 = true) (t : Rows N) : retainRows q t = keepRows q t := by
  cases t with
  | nil => rfl
  | cons h d =>
    unfold retainRows keepRows
    rw [List.zipIdx_cons, List.filter_cons]
    simp [h0]

theorem mem_keepRows {q : Nat → Bool} {t : Rows N} {r : List (Entry N)} (h : r ∈ keepRows q t) : r ∈ t := by
  cases t with
  | nil => exact h
  | cons a d =>
    unfold keepRows at h
    rcases List.mem_cons.1 h with rfl | h
    · simp
    · obtain ⟨x, hx, rfl⟩ := List.mem_map.1 h
      have := (List.mem_filter.1 hx).1
      have := List.fst_mem_of_mem_zipIdx this
      simp [this]

theorem keepRows_congr {q q' : Nat → Bool} {t : Rows N} (h : ∀ i, 1 ≤ i → i < t.length → q i = q' i) : keepRows q t = keepRows q' t := by
  cases t with
  | nil => rfl
  | cons a d =>
    simp only [keepRows]
    congr 2
    apply List.filter_congr
    intro x hx
    have := List.mem_zipIdx hx
    exact h x.2 (by omega) (by simp; omega)

theorem keepRows_all {q : Nat → Bool} {t : Rows N} (h : ∀ i, 1 ≤ i → i < t.length → q i = true) : keepRows q t = t := by
  rw [keepRows_congr (q' := fun _ => true) h]
  cases t with
  | nil => rfl
  | cons a d => simp only [keepRows]; rw [List.filter_eq_self.2 (by simp)]; exact congrArg _ (List.zipIdx_map_fst _ _)

theorem range_filter_get (q : Nat → Bool) (t : Rows N) : ((List.range t.length).filter q).map (fun i => t[i]?.getD []) = retainRows q t := by
  unfold retainRows
  have : t.zipIdx = (List.range t.length).map fun i => (t[i]?.getD [], i) := by
    apply List.ext_getElem?
    intro i
    rw [List.getElem?_zipIdx, List.getElem?_map]
    by_cases hi : i < t.length
    · have e : t[i]? = some t[i] := List.getElem?_eq_getElem hi
      rw [List.getElem?_range hi]; simp [e]
    · rw [List.getElem?_eq_none (by omega), List.getElem?_eq_none (by simpa using hi)]; rfl
  rw [this, List.filter_map, List.map_map]
  rfl

/-! ### Columns -/

theorem removeCol_eq {t : Rows N} (h : Rect t) {i : Nat} (hi : i < width t) (hw : 1 < width t) :
    removeCol t i = t.map (·.eraseIdx i) := by
  unfold removeCol
  refine norm_rect (rect_of (w := width t - 1) (by omega) ?_)
  intro r hr
  obtain ⟨x, hx, rfl⟩ := List.mem_map.1 hr
  have := (h.len hx).1
  rw [List.length_eraseIdx]
  split <;> omega

theorem rect_removeCol {t : Rows N} (h : Rect t) (i : Nat) : Rect (removeCol t i) := by
  refine rect_norm (w := if i < width t then width t - 1 else width t) ?_
  intro r hr
  obtain ⟨x, hx, rfl⟩ := List.mem_map.1 hr
  rw [List.length_eraseIdx, (h.len hx).1]

theorem at_eq {t : Rows N} (h : Rect t) {r : List (Entry N)} (hr : r ∈ t) {c : Nat} (hc : c < width t) : r[c]? = some (at_ r c) := by
  have := (h.len hr).1
  unfold at_
  rw [List.getElem?_eq_getElem (by omega)]
  rfl

end Verif.Tab
