import Verif.Props.TabCols
/-! C24: adding tables; C50: range, len, nth. -/
namespace Verif.Tab
open Std
variable {N : Type}

/-! ## by row -/

theorem foldl_max (l : Rows N) (w w' : Nat) (h : ∀ r ∈ l, r.length = w') : l.foldl (fun w r => max w r.length) w = if l = [] then w else max w w' := by
  induction l generalizing w with
  | nil => rfl
  | cons r l ih =>
    rw [List.foldl_cons, ih _ (fun x hx => h x (List.mem_cons_of_mem _ hx)), h r List.mem_cons_self, if_neg (List.cons_ne_nil _ _)]
    split
    · rfl
    · rw [Nat.max_assoc, Nat.max_self]

theorem addRows_rows {t u : Rows N} (ht : Rect t) (hne : t ≠ []) {w : Nat} (hu : ∀ r ∈ u, r.length = w) :
    addRows t u = (t ++ u).map (padTo (if u = [] then width t else max (width t) w)) := by
  rw [addRows_pad u ht hne, foldl_max u _ w hu]

theorem nameCols_eq {u : Rows N} (h : List (Entry N)) (d : Rows N) : ∀ (n c : Nat), (n = 0 ∨ c + n ≤ h.length) →
    nameCols u (List.range' c n) (h :: d) =
      .ok ((h.take c ++ ((List.range' c n).map fun j => ((col u j).bind (·.head?)).getD .nil) ++ h.drop (c + n)) :: d) := by
  intro n
  induction n generalizing h with
  | zero => intro c _; simp [nameCols]
  | succ n ih =>
    intro c hc
    have hl : c < h.length := by omega
    rw [List.range'_succ]
    unfold nameCols
    rw [if_pos (by simpa [width] using hl)]
    dsimp only
    rw [ih _ (c + 1) (by simp; omega)]
    congr 2
    rw [List.map_cons]
    generalize ((col u c).bind (·.head?)).getD .nil = x
    have e1 : (h.set c x).take (c + 1) = h.take c ++ [x] := by
      rw [List.take_succ_eq_append_getElem (by simpa using hl), List.getElem_set_self, List.take_set_of_le (Nat.le_refl c)]
    have e2 : (h.set c x).drop (c + 1 + n) = h.drop (c + (n + 1)) := by
      rw [List.drop_set_of_lt (by omega), show c + 1 + n = c + (n + 1) by omega]
    rw [e1, e2]; simp

theorem col_head {u : Rows N} {hu : List (Entry N)} {du : Rows N} (h : u = hu :: du) {j : Nat} (hj : j < hu.length) :
    ((col u j).bind (·.head?)).getD .nil = at_ hu j := by
  subst h; simp [col, width, hj]

theorem range_at (h : List (Entry N)) (c n : Nat) (hl : h.length = c + n) : ((List.range' c n).map (at_ h)) = h.drop c := by
  apply List.ext_getElem?
  intro i
  rw [List.getElem?_map, List.getElem?_drop]
  by_cases hi : i < n
  · rw [List.getElem?_range' hi]
    have : h[c + i]? = some (h[c + i]'(by omega)) := List.getElem?_eq_getElem (by omega)
    simp [at_, this]
  · rw [List.getElem?_eq_none (by simpa using hi), List.getElem?_eq_none (by omega)]; rfl

/-- Adding by row, with union, two tables that have data rows or headers no wider than the first's: the header of
the first table, followed by those header cells of the second that lie past its last column; then all data rows of
the first and of the second, padded with nil to the greater width. -/
theorem add_rows_union_partial {h hu : List (Entry N)} {d du : Rows N} (ht : Rect (h :: d)) (hu' : Rect (hu :: du)) (hd : du ≠ [] ∨ hu.length ≤ h.length) :
    addByRow (h :: d) (hu :: du) false =
      .ok ((h ++ hu.drop h.length) :: (d ++ du).map (padTo (max h.length hu.length))) := by
  unfold addByRow
  dsimp only
  rw [if_neg (by decide), if_neg (by simp)]
  have hl : ∀ r ∈ du, r.length = hu.length := fun r hr => by have := (hu'.len (r := r) (by simp [hr])).1; simpa [width] using this
  have hl' : ∀ r ∈ d, r.length = h.length := fun r hr => by have := (ht.len (r := r) (by simp [hr])).1; simpa [width] using this
  rw [show (hu :: du).drop 1 = du from rfl, addRows_rows ht (by simp) hl]
  show nameCols _ (List.range' h.length (hu.length - h.length)) (((h :: (d ++ du))).map _) = _
  by_cases hw : hu.length ≤ h.length
  · have e : (if du = [] then width (h :: d) else max (width (h :: d)) hu.length) = h.length := by
      show (if du = [] then h.length else max h.length hu.length) = _
      split <;> omega
    rw [e, Nat.sub_eq_zero_of_le hw, show max h.length hu.length = h.length by omega, List.drop_eq_nil_of_le hw]
    simp [nameCols, padTo_eq]
  · have hne : du ≠ [] := by rcases hd with h | h; exact h; exact absurd h hw
    rw [if_neg hne]
    show nameCols _ _ (((h :: (d ++ du))).map (padTo (max h.length hu.length))) = _
    rw [List.map_cons, nameCols_eq _ _ _ _ (.inr (by rw [padTo_length]; omega))]
    congr 2
    rw [show max h.length hu.length = hu.length by omega]
    have e1 : (padTo hu.length h).take h.length = h := by simp [padTo]
    have e2 : (padTo hu.length h).drop (h.length + (hu.length - h.length)) = [] := List.drop_eq_nil_of_le (by rw [padTo_length]; omega)
    have e3 : (List.range' h.length (hu.length - h.length)).map (fun j => ((col (hu :: du) j).bind (·.head?)).getD .nil) = hu.drop h.length := by
      rw [← range_at hu h.length (hu.length - h.length) (by omega)]
      apply List.map_congr_left
      intro j hj
      exact col_head rfl (by have := List.mem_range'_1.1 hj; omega)
    rw [e1, e2, e3, List.append_nil]

/-- What `add_rows_union_partial` leaves out: a second table with a header only that is wider than the first makes
the command panic, because no row was added and so the columns to be named are not there. -/
theorem add_rows_union_panics {h hu : List (Entry N)} {d : Rows N} (ht : Rect (h :: d)) (hw : h.length < hu.length) :
    addByRow (h :: d) [hu] false = .error .panic := by
  unfold addByRow
  dsimp only
  rw [if_neg (by decide), if_neg (by simp)]
  show nameCols _ (List.range' h.length (hu.length - h.length)) (h :: d) = _
  rw [show hu.length - h.length = (hu.length - h.length - 1) + 1 by omega, List.range'_succ]
  unfold nameCols
  rw [if_neg (by simp [width])]

/-- `range 0 3 | + { Table a b }`. -/
example : errOf (addByRow (range id 0 3) [[.obj (.str "a"), .obj (.str "b")]] false) = some .panic := by decide +kernel

/-- Adding to or adding the empty table. -/
theorem add_rows_union_empty (t : Rows N) : addByRow [] t false = .ok t ∧ addByRow t [] false = .ok t := by
  constructor
  · rfl
  · unfold addByRow
    cases t with
    | nil => rfl
    | cons h d => simp [width, nameCols, addRows]

theorem take_erase {α : Type} (l : List α) {k i : Nat} (h : k ≤ i) : (l.eraseIdx i).take k = l.take k := by
  apply List.ext_getElem?
  intro j
  rw [List.getElem?_take, List.getElem?_take]
  split
  · rw [List.getElem?_eraseIdx, if_pos (by omega)]
  · rfl

theorem removeCols_take {t : Rows N} (ht : Rect t) : ∀ (n k : Nat), width t = k + n →
    (List.range' k n).reverse.foldl removeCol t = norm (t.map (·.take k)) := by
  intro n
  induction n generalizing t with
  | zero =>
    intro k hk
    have : t.map (·.take k) = t := by
      conv => rhs; rw [← List.map_id t]
      apply List.map_congr_left
      intro r hr
      exact List.take_of_length_le (by have := (ht.len hr).1; omega)
    rw [this, norm_rect ht]; rfl
  | succ n ih =>
    intro k hk
    rw [List.range'_concat, List.reverse_append]
    simp only [List.reverse_cons, List.reverse_nil, List.nil_append, List.singleton_append, List.foldl_cons, Nat.one_mul]
    by_cases hz : k + n = 0
    · have hn : n = 0 := by omega
      have hk0 : k = 0 := by omega
      subst hn; subst hk0
      show removeCol t 0 = _
      unfold removeCol
      congr 1
      apply List.map_congr_left
      intro r hr
      have := (ht.len hr).1
      rw [List.take_zero]
      apply List.eq_nil_of_length_eq_zero
      rw [List.length_eraseIdx]; split <;> omega
    · have hne : t ≠ [] := by rintro rfl; simp [width] at hk
      have e := removeCol_eq ht (i := k + n) (by omega) (by omega)
      have hw : width (removeCol t (k + n)) = k + n := by
        rw [e]
        cases t with
        | nil => exact absurd rfl hne
        | cons a l => simp only [List.map_cons, width, List.length_eraseIdx] at hk ⊢; split <;> omega
      rw [ih (rect_removeCol ht _) k hw, e, List.map_map]
      congr 1
      apply List.map_congr_left
      intro r hr
      simp only [Function.comp]
      exact take_erase r (by omega)

/-- Adding by row with intersection: the rows of the first table, then the data rows of the second, all cut to the
smaller width; the empty table if that is zero. -/
theorem add_rows_intersect {t u : Rows N} (ht : Rect t) (hu : Rect u) :
    addByRow t u true = .ok (norm ((t ++ u.drop 1).map (·.take (min (width t) (width u))))) := by
  unfold addByRow
  dsimp only
  rw [if_pos rfl]
  congr 1
  have hl : ∀ r ∈ u.drop 1, r.length = width u := fun r hr => (hu.len (List.mem_of_mem_drop hr)).1
  cases t with
  | nil =>
    have e : ∀ l : Rows N, addRows [] (l.map (·.take 0)) = [] := by
      intro l
      induction l with
      | nil => rfl
      | cons r l ih => rw [List.map_cons]; unfold addRows; rw [List.foldl_cons]; simp only [List.take_zero]; exact ih
    simp only [width, Nat.zero_min, Nat.not_lt_zero, if_false]
    rw [e]
    unfold norm
    rw [if_pos]
    cases u.drop 1 <;> simp [width]
  | cons h d =>
    have hpc : 0 < width (h :: d) := (ht.len (r := h) (by simp)).2
    generalize hmin : min (width (h :: d)) (width u) = m
    have hm : ∀ r ∈ (u.drop 1).map (·.take m), r.length = m := by
      intro r hr
      obtain ⟨x, hx, rfl⟩ := List.mem_map.1 hr
      rw [List.length_take, hl x hx]; omega
    rw [addRows_rows ht (by simp) hm]
    have hw : (if (u.drop 1).map (·.take m) = [] then width (h :: d) else max (width (h :: d)) m) = width (h :: d) := by split <;> omega
    rw [hw]
    have hrect : Rect ((h :: d ++ (u.drop 1).map (·.take m)).map (padTo (width (h :: d)))) := by
      refine rect_of hpc ?_
      intro r hr
      obtain ⟨x, hx, rfl⟩ := List.mem_map.1 hr
      rw [padTo_length]
      rcases List.mem_append.1 hx with h' | h'
      · have := (ht.len h').1; omega
      · have := hm x h'; omega
    have hmap : ((h :: d ++ (u.drop 1).map (·.take m)).map (padTo (width (h :: d)))).map (·.take m) = (h :: d ++ u.drop 1).map (·.take m) := by
      rw [List.map_map, List.map_append, List.map_append, List.map_map]
      congr 1
      · apply List.map_congr_left
        intro r hr
        simp only [Function.comp]
        rw [padTo_eq (ht.len hr).1]
      · apply List.map_congr_left
        intro r hr
        simp only [Function.comp]
        have := hl r hr
        rw [padTo, List.take_append_of_le_length (by rw [List.length_take]; omega), List.take_take, Nat.min_self]
    by_cases hlt : width u < width (h :: d)
    · rw [if_pos hlt, show width u = m by omega]
      rw [removeCols_take hrect (width (h :: d) - m) m, hmap]
      show (padTo (width (h :: d)) h).length = _
      rw [padTo_length]
      have : h.length = width (h :: d) := rfl
      omega
    · rw [if_neg hlt]
      have hm' : m = width (h :: d) := by omega
      rw [← hmap]
      have : ((h :: d ++ (u.drop 1).map (·.take m)).map (padTo (width (h :: d)))).map (·.take m) = (h :: d ++ (u.drop 1).map (·.take m)).map (padTo (width (h :: d))) := by
        conv => rhs; rw [← List.map_id ((h :: d ++ (u.drop 1).map (·.take m)).map (padTo (width (h :: d))))]
        apply List.map_congr_left
        intro r hr
        refine List.take_of_length_le ?_
        have h1 := (hrect.len hr).1
        have h2 : width ((h :: d ++ (u.drop 1).map (·.take m)).map (padTo (width (h :: d)))) = width (h :: d) := by
          show (padTo (width (h :: d)) h).length = _
          rw [padTo_length]
          have : h.length = width (h :: d) := rfl
          omega
        omega
      rw [this, norm_rect hrect]

example : valOf ((addByRow people [[.obj (.str "x")], [.num 7]] false).map fun u => u.map fun r => (r.length, headerText r[0]?)) =
      some [(2, "name"), (2, "bo"), (2, "al"), (2, "cy"), (2, "")] ∧
    valOf ((addByRow people [[.obj (.str "x")], [.num 7]] true).map fun u => u.map fun r => (r.length, headerText r[0]?)) =
      some [(1, "name"), (1, "bo"), (1, "al"), (1, "cy"), (1, "")] ∧
    valOf ((addByRow [[.obj (.str "x")], [.num 7]] people false).map fun u => u.map fun r => (r.length, headerText r[0]?)) =
      some [(2, "x"), (2, ""), (2, "bo"), (2, "al"), (2, "cy")] := by decide +kernel

/-! ## by column -/

theorem addCols_pad (cs : List (List (Entry N))) (n : Nat) (hc : ∀ c ∈ cs, c.length = n) : ∀ {t : Rows N}, Rect t → cs ≠ [] →
    addCols t cs = (List.range (max t.length n)).map fun i => padTo (width t) (t[i]?.getD []) ++ cs.map (at_ · i) := by
  induction cs with
  | nil => intro t _ h; exact absurd rfl h
  | cons c cs ih =>
    intro t ht _
    have hcl := hc c (by simp)
    have hone : addCol t c = (List.range (max t.length n)).map fun i => padTo (width t) (t[i]?.getD []) ++ [at_ c i] := by
      unfold addCol; rw [hcl]; rfl
    unfold addCols
    rw [List.foldl_cons]
    by_cases hcs : cs = []
    · subst hcs; rw [List.foldl_nil, hone]; simp
    · show addCols (addCol t c) cs = _
      rw [ih (fun x hx => hc x (by simp [hx])) (rect_addCol ht c) hcs, addCol_length, hcl, show max (max t.length n) n = max t.length n by omega]
      apply List.map_congr_left
      intro i hi
      rw [List.mem_range] at hi
      have hgi : (addCol t c)[i]? = some (padTo (width t) (t[i]?.getD []) ++ [at_ c i]) := by
        rw [hone, List.getElem?_map, List.getElem?_range hi]; rfl
      rw [hgi, Option.getD_some, padTo_eq]
      · rw [List.map_cons]; simp
      · exact ((rect_addCol ht c).len (List.mem_of_getElem? hgi)).1

theorem padTo_row {u : Rows N} (hu : Rect u) (i : Nat) : (List.range (width u)).map (fun c => at_ (u.map (at_ · c)) i) = padTo (width u) (u[i]?.getD []) := by
  apply List.ext_getElem?
  intro c
  rw [List.getElem?_map]
  by_cases hc : c < width u
  · rw [List.getElem?_range hc]
    simp only [Option.map_some]
    have hlen : c < (padTo (width u) (u[i]?.getD [])).length := by rw [padTo_length]; omega
    have hat : (padTo (width u) (u[i]?.getD []))[c]? = some (at_ (padTo (width u) (u[i]?.getD [])) c) := by
      unfold at_; rw [List.getElem?_eq_getElem hlen]; rfl
    rw [hat, at_padTo]
    congr 1
    show (u.map (at_ · c))[i]?.getD .nil = _
    rw [List.getElem?_map]
    cases u[i]? <;> rfl
  · rw [List.getElem?_eq_none (by simpa using hc), List.getElem?_eq_none]
    · rfl
    · rw [padTo_length]
      cases hi : u[i]? with
      | none => simp; omega
      | some r => have := (hu.len (List.mem_of_getElem? hi)).1; simp; omega

/-- Adding by column with union: row by row the cells of the first, then of the second table; the shorter table
is extended with rows of nil. -/
theorem add_cols_union {t u : Rows N} (ht : Rect t) (hu : Rect u) :
    addByCol t u false = (List.range (max t.length u.length)).map fun i => padTo (width t) (t[i]?.getD []) ++ padTo (width u) (u[i]?.getD []) := by
  unfold addByCol
  dsimp only
  rw [if_neg (by decide)]
  by_cases hw : width u = 0
  · have : u = [] := by
      cases u with
      | nil => rfl
      | cons a l => have := width_pos_of_rect hu (by simp); omega
    subst this
    show t = _
    apply List.ext_getElem?
    intro i
    rw [List.getElem?_map]
    by_cases hi : i < t.length
    · have e : t[i]? = some t[i] := List.getElem?_eq_getElem hi
      rw [List.getElem?_range (by simp; omega), e]
      simp only [Option.map_some, e, Option.getD_some]
      rw [padTo_eq (ht.len (List.mem_of_getElem? e)).1]
      have : ([] : Rows N)[i]? = none := rfl
      simp [width, padTo]
    · rw [List.getElem?_eq_none (by omega), List.getElem?_eq_none (by simp; omega)]; rfl
  · rw [addCols_pad (colsOf u) u.length (by intro c hc; obtain ⟨j, _, rfl⟩ := List.mem_map.1 hc; simp) ht (by unfold colsOf; simp; omega)]
    apply List.map_congr_left
    intro i _
    congr 1
    rw [← padTo_row hu i]
    unfold colsOf
    rw [List.map_map]; rfl

theorem removeRows_take (t : Rows N) : ∀ (n k : Nat), t.length = k + n → (List.range' k n).reverse.foldl removeRow t = t.take k := by
  intro n
  induction n generalizing t with
  | zero => intro k h; rw [List.take_of_length_le (by omega)]; rfl
  | succ n ih =>
    intro k h
    rw [List.range'_concat, List.reverse_append]
    simp only [List.reverse_cons, List.reverse_nil, List.nil_append, List.singleton_append, List.foldl_cons, Nat.one_mul]
    unfold removeRow at *
    rw [ih _ k (by rw [List.length_eraseIdx]; split <;> omega), take_erase t (by omega)]

/-- Adding by column with intersection: the rows of the two tables side by side, as many as the shorter has. -/
theorem add_cols_intersect {t u : Rows N} (ht : Rect t) (hu : Rect u) : addByCol t u true = List.zipWith (· ++ ·) t u := by
  unfold addByCol
  dsimp only
  rw [if_pos rfl]
  by_cases hw : width u = 0
  · have : u = [] := by
      cases u with
      | nil => rfl
      | cons a l => have := width_pos_of_rect hu (by simp); omega
    subst this
    show (if 0 < t.length then (List.range' 0 (t.length - 0)).reverse.foldl removeRow t else t) = _
    rw [List.zipWith_nil_right]
    split
    · rw [removeRows_take t _ 0 (by omega)]; rfl
    · cases t with
      | nil => rfl
      | cons => simp_all
  · have hune : u ≠ [] := by rintro rfl; exact hw rfl
    have hc : ∀ c ∈ (colsOf u).map (·.take (min t.length u.length)), c.length = min t.length u.length := by
      intro c hc
      obtain ⟨x, hx, rfl⟩ := List.mem_map.1 hc
      obtain ⟨j, _, rfl⟩ := List.mem_map.1 hx
      simp
    have hcne : (colsOf u).map (·.take (min t.length u.length)) ≠ [] := by unfold colsOf; simp; omega
    rw [addCols_pad _ _ hc ht hcne, show max t.length (min t.length u.length) = t.length by omega]
    generalize hB : (List.range t.length).map (fun i => padTo (width t) (t[i]?.getD []) ++ ((colsOf u).map (·.take (min t.length u.length))).map (at_ · i)) = B
    have hBl : B.length = t.length := by rw [← hB]; simp
    have hif : (if u.length < t.length then (List.range' u.length (t.length - u.length)).reverse.foldl removeRow B else B) = B.take u.length := by
      split
      · exact removeRows_take B _ _ (by omega)
      · rw [List.take_of_length_le (by omega)]
    rw [hif]
    apply List.ext_getElem?
    intro i
    rw [List.getElem?_take, List.getElem?_zipWith]
    by_cases hi : i < u.length
    · rw [if_pos hi]
      have eu : u[i]? = some u[i] := List.getElem?_eq_getElem hi
      rw [eu]
      by_cases hi' : i < t.length
      · have et : t[i]? = some t[i] := List.getElem?_eq_getElem hi'
        rw [et, ← hB, List.getElem?_map, List.getElem?_range hi']
        simp only [Option.map_some, et, Option.getD_some]
        congr 1
        rw [padTo_eq (ht.len (List.mem_of_getElem? et)).1]
        congr 1
        have := padTo_row hu i
        rw [eu, Option.getD_some, padTo_eq (hu.len (List.mem_of_getElem? eu)).1] at this
        rw [← this]
        unfold colsOf
        rw [List.map_map, List.map_map]
        apply List.map_congr_left
        intro c _
        simp only [Function.comp]
        unfold at_
        rw [List.getElem?_take, if_pos (by omega)]
      · rw [List.getElem?_eq_none (l := B) (by omega), List.getElem?_eq_none (l := t) (by omega)]
    · rw [if_neg hi, List.getElem?_eq_none (l := u) (by omega)]
      cases t[i]? <;> rfl

example : (addByCol people [[.obj (.str "x")], [.num 7]] false).map (fun r => (r.length, headerText r[2]?)) = [(3, "x"), (3, ""), (3, ""), (3, "")] ∧
    (addByCol people [[.obj (.str "x")], [.num 7]] true).map (fun r => (r.length, headerText r[2]?)) = [(3, "x"), (3, "")] := by decide +kernel

/-! ## range, len, nth -/

/-- `range a b` has the header `i` and the numbers a, a+1, …, b-1. -/
theorem range_rows (ofNat : Nat → N) (a b : Nat) :
    (range ofNat a b).length = 1 + (b - a) ∧ (range ofNat a b)[0]? = some [.obj (.str "i")] ∧
    ∀ k, k < b - a → (range ofNat a b)[1 + k]? = some [.num (ofNat (a + k))] := by
  refine ⟨by simp [range]; omega, rfl, ?_⟩
  intro k hk
  unfold range
  rw [Nat.add_comm, List.getElem?_cons_succ, List.getElem?_map, List.getElem?_range' hk]
  simp

/-- `len` counts the data rows. -/
theorem len_rows (h : List (Entry N)) (d : Rows N) : len (h :: d) false = d.length ∧ len (h :: d) true = h.length ∧
    len ([] : Rows N) false = 0 ∧ len ([] : Rows N) true = 0 := ⟨by simp [len], rfl, rfl, rfl⟩

/-- `nth n` evaluates the expression on data row `n` if there is one, and is an error otherwise. `n` is less than the
largest machine number. -/
theorem nth_exact_partial (t : Rows N) (b : Build) {umax n : Nat} (hn : n < umax) {A : Type} (e : Rows N → Nat → Prog N A) :
    nth b umax t n e = if n < len t false then evalRow t (n + 1) (e t (n + 1)) else .error (.err .bounds) := by
  unfold nth uadd
  rw [if_pos (by omega)]
  simp only [Except.bind, len, if_neg (show ¬ (false = true) by decide)]
  by_cases hl : n < t.length - 1
  · rw [if_pos hl, if_neg (by omega)]
    exact (runCached_eq _ _ _ noCache (cacheOk_none t)).1
  · rw [if_neg hl, if_pos (by omega)]

/-- With the largest number the addition overflows: a checked build panics, a wrapping build evaluates the
expression on the header row. -/
theorem nth_max {t : Rows N} (umax : Nat) {A : Type} (e : Rows N → Nat → Prog N A) :
    nth .checked umax t umax e = .error .panic ∧
    (t ≠ [] → nth .wrapping umax t umax e = (runCached t 0 (e t 0) noCache).1) := by
  constructor
  · unfold nth uadd; rw [if_neg (by omega)]; rfl
  · intro h
    unfold nth uadd
    rw [if_neg (by omega)]
    simp only [Except.bind]
    have : umax + 1 - (umax + 1) = 0 := by omega
    rw [if_neg]
    · simp
    · have := List.length_pos_iff.2 h; simp; omega

/-- `nth` on strings counts characters. -/
theorem nth_str (s : List Char) (n : Nat) : (∀ c, nthStr s n = .ok c ↔ s[n]? = some c) ∧ (nthStr s n = .error (.err .bounds) ↔ lenStr s ≤ n) := by
  unfold nthStr lenStr
  cases h : s[n]? with
  | none => simp [List.getElem?_eq_none_iff.1 h]
  | some c => have := (List.getElem?_eq_some_iff.1 h).1; simp; omega

/-- `last` is `nth {len | - 1}` (`lang/defs.rs:141`): it is the expression on the last row of a table with data
rows. -/
theorem last_row (t : Rows N) (b : Build) {umax : Nat} (hl : 0 < len t false) (hm : len t false ≤ umax) {A : Type} (e : Rows N → Nat → Prog N A) :
    nth b umax t (len t false - 1) e = evalRow t (t.length - 1) (e t (t.length - 1)) := by
  rw [nth_exact_partial t b (by omega), if_pos (by omega)]
  have : len t false - 1 + 1 = t.length - 1 := by have : len t false = t.length - 1 := rfl; omega
  rw [this]

example : Rect (range id 3 6) ∧ len (range id 3 6) false = 3 ∧
    valOf (nth .checked 100 (range id 3 6) 2 fun _ _ => .get "i" fun e => match e with | .num n => .ret n | _ => .ret 0) = some 5 ∧
    errOf (nth .checked 100 (range id 3 6) 3 fun _ _ => .get "i" fun e => .ret e.value.ty) = some (.err .bounds) :=
  ⟨rect_of (w := 1) (by omega) (by intro r hr; simp [range] at hr; rcases hr with rfl | ⟨x, _, rfl⟩ <;> rfl), by decide +kernel, by decide +kernel, by decide +kernel⟩

end Verif.Tab
