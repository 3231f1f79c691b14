import Verif.Lemmas.TabCmd
/-! C15, C17, C18, C19, C20, C25: commands that pick or reorder the rows of a table. -/
namespace Verif.Tab
open Std
variable {N : Type}

/-! ## A table to try things on -/

abbrev s (x : String) : Entry Int := .obj (.str x)

/-- Three people and their age; one age is missing. -/
def people : Rows Int := [[s "name", s "age"], [s "bo", .num 30], [s "al", .num 20], [s "cy", .nil]]

theorem people_rect : Rect people := .inr ⟨2, by decide, by intro r hr; simp [people] at hr; rcases hr with rfl | rfl | rfl | rfl <;> rfl⟩

/-- Two workers, rows out of order. -/
def sched3 : Sched := [(1, 3), (0, 1), (1, 2)]

theorem sched3_ok : Schedule people.length sched3 := by
  show [3, 1, 2].Perm [1, 2, 3]
  decide

/-- `{ get age --Num | > 25 }`. -/
def over25 : Rows Int → Nat → Prog Int Bool := fun _ _ => .get "age" fun e => match e with
  | .num n => .ret (decide (25 < n))
  | _ => .fail .entryTy
/-- The same with a default of 0. -/
def over25d : Rows Int → Nat → Prog Int Bool := fun _ _ => .get "age" fun e => match e with
  | .num n => .ret (decide (25 < n))
  | _ => .ret false

/-! ## C25: row-parallel evaluation -/

/-- Evaluating an expression for all rows in parallel: either each data row gets its own value, the one it has
when evaluated alone, or the command fails with the error of some row. -/
theorem rows_any_schedule {A : Type} {t : Rows N} (ht : Rect t) (dflt : A) (e : Rows N → Nat → Prog N A) (sched : Sched)
    (hs : Schedule t.length sched) :
    (∃ out : List A, resolveRows dflt t e sched = .ok out ∧ out.length = t.length ∧
      ∀ i : Nat, 1 ≤ i → i < t.length → ∃ a, evalRow t i (e t i) = .ok a ∧ out[i]? = some a) ∨
    (∃ (i : Nat) (b : TErr), 1 ≤ i ∧ i < t.length ∧ evalRow t i (e t i) = .error (.err b) ∧
      resolveRows dflt t e sched = .error (.err b)) := by
  rcases rows_spec ht e id (List.replicate t.length dflt) (by simp) sched hs with ⟨out, h1, h2, _, h4⟩ | ⟨i, b, h1, h2, h3, h4⟩
  · exact .inl ⟨out, h1, h2, h4⟩
  · exact .inr ⟨i, b, h1, h2, h3, h4⟩

/-- Two schedules give the same values, or both fail. -/
theorem rows_schedules_agree {A : Type} {t : Rows N} (ht : Rect t) (dflt : A) (e : Rows N → Nat → Prog N A) (s₁ s₂ : Sched)
    (h₁ : Schedule t.length s₁) (h₂ : Schedule t.length s₂) :
    resolveRows dflt t e s₁ = resolveRows dflt t e s₂ ∨
    (∃ b₁ b₂, resolveRows dflt t e s₁ = .error (.err b₁) ∧ resolveRows dflt t e s₂ = .error (.err b₂)) := by
  have r1 := rows_spec ht e id (List.replicate t.length dflt) (by simp) s₁ h₁
  have r2 := rows_spec ht e id (List.replicate t.length dflt) (by simp) s₂ h₂
  rcases r1 with ⟨o1, a1, a2, a3, a4⟩ | ⟨i, b, a1, a2, a3, a4⟩ <;> rcases r2 with ⟨o2, c1, c2, c3, c4⟩ | ⟨j, b', c1, c2, c3, c4⟩
  · left
    have : o1 = o2 := by
      apply List.ext_getElem?
      intro i
      rcases Nat.eq_zero_or_pos i with rfl | hi
      · rw [a3, c3]
      · by_cases hl : i < t.length
        · obtain ⟨x, hx, hx'⟩ := a4 i hi hl
          obtain ⟨y, hy, hy'⟩ := c4 i hi hl
          rw [hx] at hy; cases hy
          rw [hx', hy']
        · rw [List.getElem?_eq_none (by omega), List.getElem?_eq_none (by omega)]
    unfold resolveRows; rw [a1, c1, this]
  · obtain ⟨x, hx, _⟩ := a4 j c1 c2
    rw [hx] at c3; cases c3
  · obtain ⟨x, hx, _⟩ := c4 i a1 a2
    rw [hx] at a3; cases a3
  · exact .inr ⟨b, b', a4, c4⟩

/-- Three rows over two workers, and a row that fails. -/
example : valOf (resolveRows false people over25d sched3) = some [false, true, false, false] ∧
    errOf (resolveRows false people over25 sched3) = some (.err .entryTy) := by decide +kernel

/-! ## C17: filter -/

/-- `filter` keeps the header and exactly the data rows for which the predicate is true, in order; if the
predicate fails on a row the command fails, with the error of such a row. -/
theorem filter_exact {t : Rows N} (ht : Rect t) (o : Owner) (p : Rows N → Nat → Prog N Bool) (sched : Sched) (hs : Schedule t.length sched) :
    (∃ keep : Nat → Bool, (∀ i, 1 ≤ i → i < t.length → evalRow t i (p t i) = .ok (keep i)) ∧
      filterTable o t p sched = .ok (keepRows keep t)) ∨
    (∃ (i : Nat) (b : TErr), 1 ≤ i ∧ i < t.length ∧ evalRow t i (p t i) = .error (.err b) ∧
      filterTable o t p sched = .error (.err b)) := by
  rcases rows_spec ht p id (List.replicate t.length true) (by simp) sched hs with ⟨out, h1, h2, h3, h4⟩ | ⟨i, b, h1, h2, h3, h4⟩
  · left
    refine ⟨fun i => out[i]?.getD false, ?_, ?_⟩
    · intro i hi hl
      obtain ⟨a, ha, ha'⟩ := h4 i hi hl
      simp only [id] at ha'
      show _ = Except.ok (out[i]?.getD false)
      rw [ha, ha']; rfl
    · unfold filterTable
      rw [h1]
      show Except.ok _ = _
      congr 1
      show retainKeep o out t = _
      unfold retainKeep
      cases t with
      | nil => cases o <;> simp [keepRows, retainRows]
      | cons a d =>
        have h0 : out[0]?.getD false = true := by rw [h3]; rfl
        by_cases hall : out.all id = true
        · rw [if_pos hall]
          symm
          apply keepRows_all
          intro i _ hl
          have e : out[i]? = some (out[i]'(by omega)) := List.getElem?_eq_getElem (by omega)
          rw [e]
          have := List.all_eq_true.1 hall _ (List.getElem_mem (l := out) (n := i) (by omega))
          simpa using this
        · rw [if_neg hall]
          cases o with
          | owned => exact retainRows_eq _ h0 _
          | shared => simp only; rw [range_filter_get]; exact retainRows_eq _ h0 _
  · right
    refine ⟨i, b, h1, h2, h3, ?_⟩
    unfold filterTable
    rw [h4]; rfl

example : (filterTable .owned people over25d sched3).map (·.length) = .ok 2 ∧
    errOf (filterTable .shared people over25 sched3) = some (.err .entryTy) := by decide +kernel

/-- `filter col p` keeps the rows whose cell in that column is of the predicate's type and passes it. -/
theorem filter_col_exact {t : Rows N} (ht : Rect t) (o : Owner) {name : String} {c : Nat} (hc : Column t name c) (ty : Ty)
    (p : Value N → Except TErr Bool) (sched : Sched) (hs : Schedule t.length sched) :
    (∃ keep : Nat → Bool, (∀ i, 1 ≤ i → i < t.length →
        if (cell t i c).value.ty = ty then p (cell t i c).value = .ok (keep i) else keep i = false) ∧
      filterCol o t (.ok name) ty p sched = .ok (keepRows keep t)) ∨
    (∃ (i : Nat) (b : TErr), 1 ≤ i ∧ i < t.length ∧ (cell t i c).value.ty = ty ∧ p (cell t i c).value = .error b ∧
      filterCol o t (.ok name) ty p sched = .error (.err b)) := by
  have hci := (colIdx_ok t name c).2 hc
  have ev : ∀ i, i < t.length → evalRow t i (cellTest name ty p) =
      if (cell t i c).value.ty = ty then liftErr (p (cell t i c).value) else .ok false := by
    intro i hi
    obtain ⟨r, e, h1, h2, h3⟩ := entryAt_rect ht hi (colIdx_lt hci)
    have hcell : cell t i c = e := by unfold cell; rw [h1]; simp [h2]
    unfold cellTest
    simp only [evalRow, hci, h3, hcell]
    unfold cnvValue
    by_cases hty : e.value.ty = ty
    · rw [if_pos hty, if_pos hty]
      simp only
      cases p e.value <;> rfl
    · rw [if_neg hty, if_neg hty]; rfl
  rcases filter_exact ht o (fun _ _ => cellTest name ty p) sched hs with ⟨keep, h1, h2⟩ | ⟨i, b, h1, h2, h3, h4⟩
  · left
    refine ⟨keep, ?_, h2⟩
    intro i hi hl
    have := h1 i hi hl
    rw [ev i hl] at this
    split at this
    · rename_i h; rw [if_pos h]
      cases hp : p (cell t i c).value with
      | ok b => rw [hp] at this; cases this; rfl
      | error e => rw [hp] at this; cases this
    · rename_i h; rw [if_neg h]
      exact (Except.ok.inj this).symm
  · right
    rw [ev i h2] at h3
    split at h3
    · rename_i h
      refine ⟨i, b, h1, h2, h, ?_, h4⟩
      cases hp : p (cell t i c).value with
      | ok b => rw [hp] at h3; cases h3
      | error e => rw [hp] at h3; cases h3; rfl
    · cases h3

example : Column people "age" 1 ∧
    (filterCol .shared people (.ok "age") .num (fun v => match v with | .num n => .ok (decide (n < 25)) | _ => .error .entryTy) sched3).map (·.length) = .ok 2 := by
  refine ⟨(colIdx_ok people "age" 1).1 (by decide +kernel), by decide +kernel⟩

/-- A column that is not in the table is an error as soon as there is a data row. -/
theorem filter_col_missing {t : Rows N} (ht : Rect t) (o : Owner) {name : String} (hn : ∀ c, ¬ Column t name c) (hd : 1 < t.length) (ty : Ty)
    (p : Value N → Except TErr Bool) (sched : Sched) (hs : Schedule t.length sched) :
    filterCol o t (.ok name) ty p sched = .error (.err (.header name)) := by
  have hci : colIdx t name = .error (.header name) := by
    cases h : colIdx t name with
    | ok c => exact absurd ((colIdx_ok t name c).1 h) (hn c)
    | error e =>
      unfold colIdx at h
      cases t with
      | nil => simp at hd
      | cons a d =>
        simp only at h
        split at h
        · cases h
        · cases h; rfl
  rcases filter_exact ht o (fun _ _ => cellTest name ty p) sched hs with ⟨keep, h1, h2⟩ | ⟨i, b, h1, h2, h3, h4⟩
  · have := h1 1 (by omega) hd
    unfold cellTest at this
    simp only [evalRow, hci] at this
    cases this
  · unfold cellTest at h3
    simp only [evalRow, hci] at h3
    cases h3
    exact h4

/-- `filter --cols` keeps exactly the columns whose header passes, in order. A table left without columns is empty. -/
theorem filter_cols_exact {t : Rows N} (ht : Rect t) (p : String → Res Bool) (q : Nat → Bool)
    (hp : ∀ c, c < width t → p (headerText (t[0]?.bind (·[c]?))) = .ok (q c)) :
    filterCols t p = .ok (if ∀ c, c < width t → q c = false then [] else t.map (sel q)) := by
  have := filterColsLoop_spec ht p q (width t) (Nat.le_refl _) hp
  unfold filterCols
  have e : t.map (sel fun c => decide (c < width t) || q c) = t := by
    conv => rhs; rw [← List.map_id t]
    apply List.map_congr_left
    intro r hr
    apply sel_all
    intro i hi
    rw [(ht.len hr).1] at hi
    simp [hi]
  rw [e, norm_rect ht] at this
  rw [this]
  congr 1
  unfold norm
  cases t with
  | nil => simp [width]
  | cons a d =>
    have : width ((a :: d).map (sel q)) = 0 ↔ ∀ c, c < width (a :: d) → q c = false := by
      simp only [List.map_cons, width, sel, List.length_map, List.length_eq_zero_iff, List.filter_eq_nil_iff]
      constructor
      · intro h c hc
        have := h (a[c], c) (by rw [List.mem_zipIdx_iff_getElem?]; simp [hc])
        simpa using this
      · intro h x hx
        have := List.mem_zipIdx hx
        rw [h x.2 (by omega)]; decide
    by_cases h : width ((a :: d).map (sel q)) = 0
    · rw [if_pos h, if_pos (this.1 h)]
    · rw [if_neg h, if_neg (fun h' => h (this.2 h'))]

/-- When the predicate fails on a header the command fails. -/
theorem filter_cols_fails {t : Rows N} (ht : Rect t) (p : String → Res Bool) {c : Nat} (hc : c < width t) {b : Bad}
    (hp : p (headerText (t[0]?.bind (·[c]?))) = .error b) : ∃ b', filterCols t p = .error b' := by
  cases h : filterCols t p with
  | error b' => exact ⟨b', rfl⟩
  | ok u =>
    exfalso
    -- among the columns that fail take the last
    have key : ∀ k, ∀ i, i + k = width t → (∀ d, i ≤ d → d < width t → ∃ q, p (headerText (t[0]?.bind (·[d]?))) = .ok q) ∨
        (∃ d, i ≤ d ∧ d < width t ∧ (∃ e, p (headerText (t[0]?.bind (·[d]?))) = .error e) ∧
          ∀ d', d < d' → d' < width t → ∃ q, p (headerText (t[0]?.bind (·[d']?))) = .ok q) := by
      intro k
      induction k with
      | zero => intro i hi; left; intro d h1 h2; omega
      | succ k ih =>
        intro i hi
        rcases ih (i + 1) (by omega) with h | ⟨d, h1, h2, h3, h4⟩
        · cases hpi : p (headerText (t[0]?.bind (·[i]?))) with
          | error e => right; exact ⟨i, by omega, by omega, ⟨e, hpi⟩, fun d' hd hd' => h d' hd hd'⟩
          | ok q =>
            left; intro d hd hd'
            rcases Nat.eq_or_lt_of_le hd with rfl | hd
            · exact ⟨q, hpi⟩
            · exact h d hd hd'
        · right; exact ⟨d, by omega, h2, h3, h4⟩
    rcases key (width t) 0 (by omega) with h0 | ⟨d, _, hd, ⟨e, he⟩, hl⟩
    · obtain ⟨q, hq⟩ := h0 c (by omega) hc
      rw [hq] at hp; cases hp
    · let q : Nat → Bool := fun c => (valOf (p (headerText (t[0]?.bind (·[c]?))))).getD false
      have loop : ∀ k i, i = d + k → i < width t → ∀ w, filterColsLoop p (i + 1) (norm (t.map (sel fun c => decide (c < i + 1) || q c))) = .ok w → False := by
        intro k
        induction k with
        | zero =>
          intro i hi hlt w hw
          have hi : i = d := by omega
          subst hi
          have hh := filterCols_head ht q i hlt
          unfold filterColsLoop at hw
          rw [hh, he] at hw; cases hw
        | succ k ih =>
          intro i hi hlt w hw
          obtain ⟨b, hb⟩ := hl i (by omega) hlt
          have hq : q i = b := by show (valOf _).getD false = b; rw [hb]; rfl
          unfold filterColsLoop at hw
          rw [filterCols_head ht q i hlt, hb] at hw
          simp only [Except.bind] at hw
          have st := filterCols_step ht q i hlt
          rw [hq] at st
          rw [st] at hw
          have := ih (i - 1) (by omega) (by omega) w (by rw [show i - 1 + 1 = i by omega]; exact hw)
          exact this
      unfold filterCols at h
      have e : t.map (sel fun c => decide (c < width t - 1 + 1) || q c) = t := by
        conv => rhs; rw [← List.map_id t]
        apply List.map_congr_left
        intro r hr
        apply sel_all
        intro i hi
        rw [(ht.len hr).1] at hi
        have : i < width t - 1 + 1 := by omega
        simp [this]
      refine loop (width t - 1 - d) (width t - 1) (by omega) (by omega) u ?_
      rw [e, norm_rect ht, show width t - 1 + 1 = width t by omega]
      exact h

example : (filterCols people fun h => .ok (h == "age")).map (·.map (·.length)) = .ok [1, 1, 1, 1] ∧
    (filterCols people fun _ => .ok false).map (·.length) = .ok 0 ∧
    errOf (filterCols people fun h => if h = "age" then .ok true else .error (.err (.user 1))) = some (.err (.user 1)) := by decide +kernel

end Verif.Tab
