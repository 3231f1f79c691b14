import Verif.Lemmas.TabCmd
/-! Lemmas on commands that change columns. -/
namespace Verif.Tab
variable {N : Type}

theorem seedCol_length (n : Nat) (name : String) : (seedCol n name : List (Entry N)).length = n := by simp [seedCol]

theorem seedCol_zero {n : Nat} (h : 0 < n) (name : String) : (seedCol n name : List (Entry N))[0]? = some (.obj (.str name)) := by
  unfold seedCol
  rw [List.getElem?_set_self (by simpa using h)]

/-- The value of column `w` in row `i`, for each of the columns to append. -/
abbrev Withs (N : Type) := List ((Rows N → Nat → Prog N (Value N)) × String)

/-- All columns are computed, or some row of one of them fails and the command fails with such an error. -/
theorem appendCols_spec {t : Rows N} (ht : Rect t) (withs : Withs N) (scheds : List Sched) (order : List Nat)
    (hs : ∀ j, j < withs.length → Schedule t.length (scheds[j]?.getD [])) (ho : order.Perm (List.range withs.length)) :
    (∃ cs, appendCols t withs scheds order = .ok cs ∧ cs.length = withs.length ∧
      ∀ (j : Nat) (w : (Rows N → Nat → Prog N (Value N)) × String), withs[j]? = some w → ∃ c : List (Entry N), cs[j]? = some c ∧ c.length = t.length ∧
        (0 < t.length → c[0]? = some (.obj (.str w.2))) ∧
        ∀ i : Nat, 1 ≤ i → i < t.length → ∃ v, evalRow t i (w.1 t i) = .ok v ∧ c[i]? = some v.entry) ∨
    (∃ (j : Nat) (w : (Rows N → Nat → Prog N (Value N)) × String) (i : Nat) (b : TErr), withs[j]? = some w ∧ 1 ≤ i ∧ i < t.length ∧
      evalRow t i (w.1 t i) = .error (.err b) ∧ appendCols t withs scheds order = .error (.err b)) := by
  have hr : ∀ (j : Nat) (w : (Rows N → Nat → Prog N (Value N)) × String), withs[j]? = some w →
      ((withs.zipIdx.map fun w => parOver (rowTask t w.1.1 Value.entry) noCache (seedCol t.length w.1.2) (scheds[w.2]?.getD []))[j]? =
        some (parOver (rowTask t w.1 Value.entry) noCache (seedCol t.length w.2) (scheds[j]?.getD []))) := by
    intro j w hw
    rw [List.getElem?_map, List.getElem?_zipIdx, hw]; simp
  have hspec : ∀ (j : Nat) (w : (Rows N → Nat → Prog N (Value N)) × String), withs[j]? = some w → _ := fun j w hw =>
    rows_spec ht w.1 Value.entry (seedCol t.length w.2) (seedCol_length _ _) (scheds[j]?.getD []) (hs j (List.getElem?_eq_some_iff.1 hw).1)
  unfold appendCols
  dsimp only
  generalize hrs : (withs.zipIdx.map fun w => parOver (rowTask t w.1.1 Value.entry) noCache (seedCol t.length w.1.2) (scheds[w.2]?.getD [])) = rs at *
  have hlen : rs.length = withs.length := by rw [← hrs]; simp
  have hnp : (rs.any fun r => errOf r == some .panic) = false := by
    rw [List.any_eq_false]
    intro r hm
    obtain ⟨j, hj⟩ := List.getElem?_of_mem hm
    have hjl : j < withs.length := by rw [← hlen]; exact (List.getElem?_eq_some_iff.1 hj).1
    have hw : withs[j]? = some withs[j] := List.getElem?_eq_getElem hjl
    have e := hr j _ hw
    rw [hj] at e; cases e
    rcases hspec j _ hw with ⟨out, h1, _⟩ | ⟨i, b, _, _, _, h4⟩
    · rw [h1]; simp [errOf]
    · rw [h4]; simp [errOf]
  rw [if_neg (by rw [hnp]; decide)]
  cases hl : (order.filterMap fun i => (rs[i]?).bind errOf).getLast? with
  | none =>
    left
    rw [List.getLast?_eq_none_iff, List.filterMap_eq_nil_iff] at hl
    have hok : ∀ (j : Nat) (w : (Rows N → Nat → Prog N (Value N)) × String), withs[j]? = some w → ∃ (out : List (Entry N)), rs[j]? = some (.ok out) ∧ out.length = t.length ∧
        out[0]? = (seedCol t.length w.2 : List (Entry N))[0]? ∧ ∀ i : Nat, 1 ≤ i → i < t.length → ∃ v, evalRow t i (w.1 t i) = .ok v ∧ out[i]? = some v.entry := by
      intro j w hw
      have e := hr j _ hw
      rcases hspec j _ hw with ⟨out, h1, h2, h3, h4⟩ | ⟨i, b, _, _, _, h4⟩
      · exact ⟨out, by rw [e, h1], h2, h3, h4⟩
      · have hm : j ∈ order := ho.mem_iff.2 (by rw [List.mem_range]; exact (List.getElem?_eq_some_iff.1 hw).1)
        have := hl j hm
        rw [e, h4] at this; cases this
    have all : ∀ r ∈ rs, ∃ out, r = .ok out := by
      intro r hm
      obtain ⟨j, hj⟩ := List.getElem?_of_mem hm
      have hjl : j < withs.length := by rw [← hlen]; exact (List.getElem?_eq_some_iff.1 hj).1
      obtain ⟨out, h1, _⟩ := hok j _ (List.getElem?_eq_getElem hjl)
      rw [hj] at h1; cases h1; exact ⟨out, rfl⟩
    have fm : ∀ (l : List (Res (List (Entry N)))), (∀ r ∈ l, ∃ out, r = .ok out) → (l.filterMap valOf).length = l.length ∧ ∀ (j : Nat) (out : List (Entry N)), l[j]? = some (.ok out) → (l.filterMap valOf)[j]? = some out := by
      intro l
      induction l with
      | nil => intro _; exact ⟨rfl, by intro j out h; cases h⟩
      | cons a l ih =>
        intro h
        obtain ⟨out, rfl⟩ := h a (by simp)
        have := ih (fun r hr => h r (by simp [hr]))
        rw [List.filterMap_cons]
        refine ⟨by simp [valOf, this.1], ?_⟩
        intro j o hj
        cases j with
        | zero => simp at hj; subst hj; simp [valOf]
        | succ j => rw [List.getElem?_cons_succ] at hj; have := this.2 j o hj; simpa [valOf] using this
    refine ⟨_, rfl, by rw [(fm rs all).1, hlen], ?_⟩
    intro j w hw
    obtain ⟨out, h1, h2, h3, h4⟩ := hok j w hw
    refine ⟨out, (fm rs all).2 j out h1, h2, ?_, h4⟩
    intro h0
    rw [h3, seedCol_zero h0]
  | some b =>
    right
    have hm := List.mem_of_getLast? hl
    obtain ⟨j, _, hj⟩ := List.mem_filterMap.1 hm
    cases hrj : rs[j]? with
    | none => rw [hrj] at hj; cases hj
    | some r =>
      rw [hrj] at hj
      have hjl : j < withs.length := by rw [← hlen]; exact (List.getElem?_eq_some_iff.1 hrj).1
      have hw : withs[j]? = some withs[j] := List.getElem?_eq_getElem hjl
      have e := hr j _ hw
      rw [hrj] at e; cases e
      rcases hspec j _ hw with ⟨out, h1, _⟩ | ⟨i, b', h1, h2, h3, h4⟩
      · rw [h1] at hj; cases hj
      · rw [h4] at hj; cases hj
        exact ⟨j, _, i, b', hw, h1, h2, h3, rfl⟩

theorem appendNames_eq (fs : List String) : ∀ (n a : Nat), appendNames fs n a =
    fs.take n ++ (List.range (n - fs.length)).map fun i => "_append" ++ toString (a + i) := by
  have nil : ∀ (n a : Nat), appendNames [] n a = (List.range n).map fun i => "_append" ++ toString (a + i) := by
    intro n
    induction n with
    | zero => intro a; rfl
    | succ n ih =>
      intro a
      unfold appendNames
      rw [ih, List.range_succ_eq_map]
      simp [Function.comp_def, Nat.add_assoc, Nat.add_comm 1]
  induction fs with
  | nil => intro n a; rw [nil]; simp
  | cons f fs ih =>
    intro n a
    cases n with
    | zero => simp [appendNames]
    | succ n => unfold appendNames; rw [ih]; simp

/-! ### map -/

/-- What `map` computes for row `i`. -/
def mapVal (t : Rows N) (c : Nat) (force : Bool) (ty : Ty) (tf : Value N → Prog N (Value N)) (i : Nat) : Res (Value N) :=
  if force then evalRow t i (tf .nil)
  else (liftErr (cnvValue (cell t i c) ty)).bind fun v => evalRow t i (tf v)

theorem mapTask_spec {t : Rows N} (ht : Rect t) {c : Nat} (hc : c < width t) (force : Bool) (ty : Ty) (tf : Value N → Prog N (Value N)) (row0 : Nat)
    (sched : Sched) (hs : Schedule t.length sched) :
    (∃ vs : List (Value N), parOver (mapTask t c force ty tf) (row0, noCache) (List.replicate t.length .nil) sched = .ok vs ∧ vs.length = t.length ∧
      ∀ i : Nat, 1 ≤ i → i < t.length → ∃ v, mapVal t c force ty tf i = .ok v ∧ vs[i]? = some v) ∨
    (∃ (i : Nat) (b : TErr), 1 ≤ i ∧ i < t.length ∧ mapVal t c force ty tf i = .error (.err b) ∧
      parOver (mapTask t c force ty tf) (row0, noCache) (List.replicate t.length .nil) sched = .error (.err b)) := by
  have lt : ∀ (i : Nat) (x : Value N), (List.replicate t.length (.nil : Value N))[i]? = some x → i < t.length := by
    intro i x h; have := (List.getElem?_eq_some_iff.1 h).1; simpa using this
  have task : ∀ (w : Nat × Cache), CacheOk t w.2 → ∀ (i : Nat) (x : Value N), (List.replicate t.length (.nil : Value N))[i]? = some x →
      (mapTask t c force ty tf w i x).1 = mapVal t c force ty tf i ∧ CacheOk t (mapTask t c force ty tf w i x).2.2 := by
    intro w hw i x hx
    have hi := lt i x hx
    unfold mapTask mapVal
    dsimp only
    cases force with
    | true =>
      rw [if_pos rfl, if_pos rfl]
      exact runCached_eq t i (tf .nil) w.2 hw
    | false =>
      rw [if_neg (by decide), if_neg (by decide)]
      obtain ⟨r, e, h1, h2, h3⟩ := entryAt_rect ht hi hc
      have hcell : cell t i c = e := by unfold cell; rw [h1]; simp [h2]
      rw [h3, hcell]
      simp only
      cases cnvValue e ty with
      | error b => exact ⟨rfl, hw⟩
      | ok v => exact runCached_eq t i (tf v) w.2 hw
  have := parOver_spec (fun w : Nat × Cache => CacheOk t w.2) (fun i _ => mapVal t c force ty tf i) (mapTask t c force ty tf) (row0, noCache)
    (List.replicate t.length .nil) sched (cacheOk_none t) task (by simpa using hs) (by
      intro i x hx
      have hi := lt i x hx
      show mapVal t c force ty tf i ≠ _
      unfold mapVal
      cases force with
      | true => rw [if_pos rfl]; exact evalRow_no_panic ht hi _
      | false =>
        rw [if_neg (by decide)]
        cases cnvValue (cell t i c) ty with
        | error b => intro h; cases h
        | ok v => exact evalRow_no_panic ht hi _)
  rcases this with ⟨out, h1, h2, _, h4⟩ | ⟨i, x, e, h1, h2, h3, h4⟩
  · left
    refine ⟨out, h1, by simpa using h2, ?_⟩
    intro i hi hl
    exact h4 i .nil hi (by simp [hl])
  · right
    exact ⟨i, e, h1, lt i x h2, h3, h4⟩

end Verif.Tab
