import Verif.Model.Trace

/-! Lemmas on byte positions, slices and lines. -/

namespace Verif.Trace

theorem utf8_pos (c : Char) : 0 < c.utf8Size := Char.utf8Size_pos c

theorem blen_append (x y : Text) : blen (x ++ y) = blen x + blen y := by
  induction x with
  | nil => simp [blen]
  | cons c x ih => simp [blen, ih]; omega

theorem width_append (x y : Text) : width (x ++ y) = width x + width y := by
  induction x with
  | nil => simp [width]
  | cons c x ih => simp [width, ih]; omega

theorem blen_zero {x : Text} (h : blen x = 0) : x = [] := by
  cases x with
  | nil => rfl
  | cons c x => have := utf8_pos c; simp only [blen] at h; omega

theorem blen_pos {x : Text} (h : x ≠ []) : 0 < blen x := by
  rcases Nat.eq_zero_or_pos (blen x) with e | e
  · exact absurd (blen_zero e) h
  · exact e

theorem width_pos {x : Text} (h : x ≠ []) : 0 < width x := by
  cases x with
  | nil => exact absurd rfl h
  | cons c x => simp only [width]; split <;> omega

theorem blen_nl : blen ['\n'] = 1 := by decide

/-! ### Slices -/

theorem dropBytes_append (x y : Text) : dropBytes (blen x) (x ++ y) = some y := by
  induction x with
  | nil => simp [blen, dropBytes]
  | cons c x ih =>
    have hp := utf8_pos c
    obtain ⟨n, hn⟩ : ∃ n, blen (c :: x) = n + 1 := ⟨blen (c :: x) - 1, by simp only [blen]; omega⟩
    rw [hn, List.cons_append]
    simp only [dropBytes]
    rw [if_pos (by simp only [blen] at hn; omega)]
    have : n + 1 - c.utf8Size = blen x := by simp only [blen] at hn; omega
    rw [this, ih]

theorem takeBytes_append (x y : Text) : takeBytes (blen x) (x ++ y) = some x := by
  induction x with
  | nil => simp [blen, takeBytes]
  | cons c x ih =>
    have hp := utf8_pos c
    obtain ⟨n, hn⟩ : ∃ n, blen (c :: x) = n + 1 := ⟨blen (c :: x) - 1, by simp only [blen]; omega⟩
    rw [hn, List.cons_append]
    simp only [takeBytes]
    rw [if_pos (by simp only [blen] at hn; omega)]
    have : n + 1 - c.utf8Size = blen x := by simp only [blen] at hn; omega
    rw [this, ih]; rfl

theorem slice_mid (x y z : Text) : slice (x ++ (y ++ z)) (blen x) (blen x + blen y) = some y := by
  unfold slice
  rw [if_pos (Nat.le_add_right _ _), dropBytes_append, Nat.add_sub_cancel_left]
  exact takeBytes_append y z

/-- Between characters `i` and `i + 1` for some `i`, or at one of the ends. -/
def Boundary (s : Text) (n : Nat) : Prop := ∃ x y, s = x ++ y ∧ blen x = n

theorem prefix_of_le {x y x' y' : Text} (h : x ++ y = x' ++ y') (hb : blen x ≤ blen x') :
    ∃ z, x' = x ++ z := by
  induction x generalizing x' with
  | nil => exact ⟨x', rfl⟩
  | cons c x ih =>
    cases x' with
    | nil => have := utf8_pos c; simp only [blen] at hb; omega
    | cons d x' =>
      simp only [List.cons_append, List.cons.injEq] at h
      obtain ⟨hc, h⟩ := h
      obtain ⟨z, hz⟩ := ih h (by simp only [blen, hc] at hb; omega)
      exact ⟨z, by simp [hc, hz]⟩

theorem slice_some {s : Text} {a b : Nat} (ha : Boundary s a) (hb : Boundary s b) (h : a ≤ b) :
    ∃ t, slice s a b = some t := by
  obtain ⟨x, y, hx, ha⟩ := ha
  obtain ⟨x', y', hx', hb⟩ := hb
  obtain ⟨z, hz⟩ := prefix_of_le (hx ▸ hx') (by omega)
  refine ⟨z, ?_⟩
  have e : s = x ++ (z ++ y') := by rw [hx', hz, List.append_assoc]
  have eb : b = blen x + blen z := by rw [← hb, hz, blen_append]
  rw [e, eb, ← ha]; exact slice_mid x z y'

/-! ### Lines -/

theorem stripCr_le (l : Text) : blen (stripCr l) ≤ blen l := by
  unfold stripCr
  split
  · rename_i h
    have hne : l ≠ [] := by rintro rfl; simp at h
    have := List.dropLast_concat_getLast hne
    have e : blen l = blen (l.dropLast ++ [l.getLast hne]) := by rw [this]
    rw [e, blen_append]; omega
  · exact Nat.le_refl _

theorem linesGo_mem {X : Text} : ∀ {o acc p}, p ∈ linesGo o acc X →
    o ≤ p.1 ∧ p.1 + blen p.2 ≤ o + blen acc + blen X := by
  induction X with
  | nil =>
    intro o acc p h
    simp only [linesGo] at h
    split at h
    · cases h
    · simp only [List.mem_singleton] at h; subst h; simp [blen]
  | cons c X ih =>
    intro o acc p h
    simp only [linesGo] at h
    split at h
    · rename_i hc
      have hcs : c.utf8Size = 1 := by rw [hc]; decide
      rcases List.mem_cons.1 h with h | h
      · subst h
        have := stripCr_le acc
        simp only [blen]; omega
      · have := ih h
        simp only [blen] at this ⊢; omega
    · have := ih h
      rw [blen_append] at this
      simp only [blen] at this ⊢; omega

/-- Lines of a text that ends with a line feed end before it. -/
theorem linesGo_mem_ended {X : Text} : ∀ {o acc p}, p ∈ linesGo o acc (X ++ ['\n']) →
    o ≤ p.1 ∧ p.1 + blen p.2 ≤ o + blen acc + blen X := by
  induction X with
  | nil =>
    intro o acc p h
    simp only [List.nil_append, linesGo, if_true] at h
    have := stripCr_le acc
    simp only [List.mem_singleton] at h
    subst h; simp only [blen]; omega
  | cons c X ih =>
    intro o acc p h
    simp only [List.cons_append, linesGo] at h
    split at h
    · rename_i hc
      have hcs : c.utf8Size = 1 := by rw [hc]; decide
      rcases List.mem_cons.1 h with h | h
      · subst h
        have := stripCr_le acc
        simp only [blen]; omega
      · have := ih h
        simp only [blen] at this ⊢; omega
    · have := ih h
      rw [blen_append] at this
      simp only [blen] at this ⊢; omega

/-- The lines of a text that is cut after a line feed. -/
theorem linesGo_cut (X Y : Text) : ∀ o acc, linesGo o acc (X ++ '\n' :: Y) =
    linesGo o acc (X ++ ['\n']) ++ linesGo (o + blen acc + blen X + 1) [] Y := by
  induction X with
  | nil => intro o acc; simp [linesGo, blen]
  | cons c X ih =>
    intro o acc
    simp only [List.cons_append, linesGo]
    split
    · rename_i hc
      have hcs : c.utf8Size = 1 := by rw [hc]; decide
      rw [ih, List.cons_append]
      congr 2
      · congr 1; simp only [blen]; omega
    · rw [ih, blen_append]
      congr 2
      simp only [blen]; omega

/-- Made of whole lines, each with its line feed. -/
def Whole (A : Text) : Prop := A = [] ∨ ∃ A', A = A' ++ ['\n']

theorem linesGo_whole {A : Text} (h : Whole A) (o : Nat) (X : Text) :
    linesGo o [] (A ++ X) = linesGo o [] A ++ linesGo (o + blen A) [] X := by
  rcases h with rfl | ⟨A', rfl⟩
  · simp [linesGo, blen]
  · rw [List.append_assoc, List.singleton_append, linesGo_cut, blen_append, blen_nl]
    simp [blen, Nat.add_assoc]

theorem linesGo_whole_lt {A : Text} (h : Whole A) {o : Nat} {p : Nat × Text}
    (hp : p ∈ linesGo o [] A) : o ≤ p.1 ∧ p.1 + blen p.2 < o + blen A := by
  rcases h with rfl | ⟨A', rfl⟩
  · simp [linesGo] at hp
  · have := linesGo_mem_ended hp
    rw [blen_append, blen_nl]
    simp only [blen] at this; omega

/-- A run without a line feed, followed by one. -/
theorem linesGo_line {L : Text} (h : '\n' ∉ L) (Y : Text) : ∀ o acc, linesGo o acc (L ++ '\n' :: Y) =
    (o, stripCr (acc ++ L)) :: linesGo (o + blen (acc ++ L) + 1) [] Y := by
  induction L with
  | nil => intro o acc; simp [linesGo]
  | cons c L ih =>
    intro o acc
    have hc : c ≠ '\n' := fun e => h (by simp [e])
    simp only [List.cons_append, linesGo]
    rw [if_neg hc, ih (fun hm => h (List.mem_cons_of_mem _ hm))]
    simp

theorem linesGo_last {L : Text} (h : '\n' ∉ L) : ∀ o acc, acc ++ L ≠ [] →
    linesGo o acc L = [(o, acc ++ L)] := by
  induction L with
  | nil => intro o acc hne; simp at hne; simp [linesGo, hne]
  | cons c L ih =>
    intro o acc _
    have hc : c ≠ '\n' := fun e => h (by simp [e])
    simp only [linesGo]
    rw [if_neg hc, ih (fun hm => h (List.mem_cons_of_mem _ hm)) _ _ (by simp)]
    simp

theorem stripCr_append {x y : Text} (hy : y ≠ []) : stripCr (x ++ y) = x ++ stripCr y := by
  unfold stripCr
  rw [List.getLast?_append, List.dropLast_append_of_ne_nil hy]
  obtain ⟨c, hc⟩ : ∃ c, y.getLast? = some c := ⟨_, List.getLast?_eq_some_getLast hy⟩
  rw [hc, Option.some_or]
  by_cases h : some c = some '\r'
  · rw [if_pos h, if_pos h]
  · rw [if_neg h, if_neg h]

theorem stripCr_none {x : Text} (h : x.getLast? ≠ some '\r') : stripCr x = x := by
  unfold stripCr; rw [if_neg h]

/-! ### Rows -/

theorem rows_outside {ws code start stop} {ls : List (Nat × Text)}
    (h : ∀ l ∈ ls, outside start stop l = true) : rows ws code start stop ls = some [] := by
  induction ls with
  | nil => rfl
  | cons l ls ih =>
    simp only [rows]
    rw [if_pos (h l (by simp)), ih fun l hl => h l (List.mem_cons_of_mem _ hl)]

theorem rows_append {ws code start stop} (xs ys : List (Nat × Text)) :
    rows ws code start stop (xs ++ ys) =
      (rows ws code start stop xs).bind fun a => (rows ws code start stop ys).map (a ++ ·) := by
  induction xs with
  | nil => simp only [List.nil_append, rows, Option.bind_some]; cases rows ws code start stop ys <;> simp
  | cons l xs ih =>
    simp only [List.cons_append, rows]
    split
    · exact ih
    · rw [ih]
      cases row ws code start stop l with
      | none => rfl
      | some r =>
        cases rows ws code start stop xs with
        | none => rfl
        | some a => cases rows ws code start stop ys <;> simp

theorem rows_append_none {ws code start stop} {xs ys : List (Nat × Text)}
    (h : ∀ l ∈ xs, outside start stop l = true) :
    rows ws code start stop (xs ++ ys) = rows ws code start stop ys := by
  rw [rows_append, rows_outside h]
  cases rows ws code start stop ys <;> simp

theorem rows_all {ws code start stop} {g : Nat × Text → Row} {ls : List (Nat × Text)}
    (h : ∀ l ∈ ls, outside start stop l = false ∧ row ws code start stop l = some (g l)) :
    rows ws code start stop ls = some (ls.map g) := by
  induction ls with
  | nil => rfl
  | cons l ls ih =>
    simp only [rows]
    rw [if_neg (by rw [(h l (by simp)).1]; decide), (h l (by simp)).2,
      ih fun l hl => h l (List.mem_cons_of_mem _ hl)]
    rfl

end Verif.Trace
