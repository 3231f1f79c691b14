import Verif.Model.Print
import Verif.Spec.Csv
/-! Properties of printed and saved tables (C44, C45). -/
namespace Verif.Print
variable {A : Type}

/-! ### Printing -/

/-- C44. The columns of a wide table: the first three, a mark, the last three; the mark of the header says how many were
left out. -/
theorem wide_row (hdr : Bool) (row : List A) (h : 7 < row.length) :
    ∃ first mid last, row = first ++ mid ++ last ∧ first.length = 3 ∧ last.length = 3 ∧
      fmtRow true row.length hdr row = first.map .cell ++ [if hdr then .colsElided mid.length else .dots] ++ last.map .cell := by
  refine ⟨row.take 3, (row.drop 3).take (row.length - 6), (row.drop 3).drop (row.length - 6), ?_, ?_, ?_, ?_⟩
  · rw [List.append_assoc, List.take_append_drop, List.take_append_drop]
  · simp; omega
  · simp; omega
  · simp only [fmtRow, if_true]
    have : ((row.drop 3).take (row.length - 6)).length = row.length - 6 := by simp; omega
    rw [this]
    simp

/-- C44. Other tables show every column. -/
theorem narrow_row (hdr : Bool) (row : List A) : fmtRow false row.length hdr row = row.map .cell := by
  simp [fmtRow]

/-- The number of cells of a printed row. -/
theorem fmtRow_length (n : Nat) (hdr : Bool) (row : List A) (h : row.length = n) :
    (fmtRow (decide (n > 7)) n hdr row).length = min n 7 := by
  subst h
  by_cases hw : 7 < row.length
  · rw [decide_eq_true (by omega)]
    obtain ⟨f, m, l, -, h2, h3, h4⟩ := wide_row hdr row hw
    rw [h4]
    simp [h2, h3]; omega
  · rw [decide_eq_false (by omega), narrow_row]
    simp; omega

/-- C44. A table with a header and more than 29 data rows shows its first five and last five data rows and the number of
the others. -/
theorem long_table (n : Nat) (header : List A) (data : List (List A)) (hn : n ≠ 0) (h : 29 < data.length) :
    ∃ first mid last, data = first ++ mid ++ last ∧ first.length = 5 ∧ last.length = 5 ∧
      printTable true n (header :: data) = some ⟨some (fmtRow (decide (n > 7)) n true header),
        first.map (fmtRow (decide (n > 7)) n false) ++
          [.rowsElided mid.length :: List.replicate (min n 7 - 1) .dots] ++ last.map (fmtRow (decide (n > 7)) n false)⟩ := by
  refine ⟨data.take 5, (data.drop 5).take (data.length - 10), (data.drop 5).drop (data.length - 10), ?_, ?_, ?_, ?_⟩
  · rw [List.append_assoc, List.take_append_drop, List.take_append_drop]
  · simp; omega
  · simp; omega
  · simp only [printTable]
    rw [if_neg (by simp [hn])]
    have hl : decide ((header :: data).length > 30) = true := by simp; omega
    have hm : ((data.drop 5).take (data.length - 10)).length = data.length - 10 := by simp; omega
    have hd : (if decide (n > 7) = true then 6 else n - 1) = min n 7 - 1 := by
      by_cases h7 : n > 7
      · simp [h7]; omega
      · simp [h7]; omega
    rw [hl, hd, hm]
    simp only [if_true, List.head?_cons, Option.map_some, List.drop_succ_cons, List.drop_zero, List.length_cons,
      List.append_assoc, List.singleton_append]
    rw [show data.length + 1 - 10 - 1 = data.length - 10 by omega, show data.length + 1 - 11 = data.length - 10 by omega]

/-- C44. A table with a header and up to 29 data rows shows them all. -/
theorem short_table (n : Nat) (header : List A) (data : List (List A)) (hn : n ≠ 0) (h : data.length ≤ 29) :
    printTable true n (header :: data) = some ⟨some (fmtRow (decide (n > 7)) n true header),
      data.map (fmtRow (decide (n > 7)) n false)⟩ := by
  simp only [printTable]
  rw [if_neg (by simp [hn])]
  have hl : decide ((header :: data).length > 30) = false := by simp; omega
  rw [hl]
  simp
  exact List.take_of_length_le (by simp)

/-- C44. Every printed row has the same number of cells. -/
theorem printed_rectangular (hdr : Bool) (n : Nat) (t : List (List A)) (hr : ∀ r ∈ t, r.length = n) (p : Printed A)
    (h : printTable hdr n t = some p) : (∀ r ∈ p.body, r.length = min n 7) ∧ ∀ r, p.head = some r → r.length = min n 7 := by
  simp only [printTable] at h
  by_cases he : t = [] ∨ n = 0
  · rw [if_pos he] at h; cases h
  · rw [if_neg he] at h
    simp only [Option.some.injEq] at h
    subst h
    have hrows : ∀ r ∈ (if hdr then t.drop 1 else t), r.length = n := by
      intro r hr'
      split at hr'
      · exact hr r (List.mem_of_mem_drop hr')
      · exact hr r hr'
    constructor
    · intro r hr'
      dsimp only at hr'
      rcases List.mem_append.1 hr' with hr' | hr'
      · obtain ⟨x, hx, rfl⟩ := List.mem_map.1 hr'
        exact fmtRow_length n false x (hrows x (List.mem_of_mem_take hx))
      · by_cases hl : decide (t.length > 30) = true
        · rw [if_pos hl] at hr'
          rcases List.mem_cons.1 hr' with rfl | hr'
          · simp only [List.length_cons, List.length_replicate]
            by_cases h7 : n > 7
            · simp [h7]; omega
            · simp [h7]; omega
          · obtain ⟨x, hx, rfl⟩ := List.mem_map.1 hr'
            exact fmtRow_length n false x (hrows x (List.mem_of_mem_drop (List.mem_of_mem_drop hx)))
        · rw [if_neg hl] at hr'; cases hr'
    · intro r hr'
      dsimp only at hr'
      split at hr'
      · cases ht : t.head? with
        | none => rw [ht] at hr'; cases hr'
        | some x =>
          rw [ht] at hr'
          cases hr'
          exact fmtRow_length n true x (hr x (List.mem_of_head? ht))
      · cases hr'

/-- C44 is false of a table not marked as having a header: one more row is shown than is accounted for. -/
theorem headerless_miscounts (n : Nat) (t : List (List A)) (hn : n ≠ 0) (h : 30 < t.length) :
    ∃ first mid last, t = first ++ mid ++ last ∧ first.length = 5 ∧ last.length = 6 ∧
      printTable false n t = some ⟨none, first.map (fmtRow (decide (n > 7)) n false) ++
          [.rowsElided (mid.length + 1) :: List.replicate (min n 7 - 1) .dots] ++ last.map (fmtRow (decide (n > 7)) n false)⟩ := by
  refine ⟨t.take 5, (t.drop 5).take (t.length - 11), (t.drop 5).drop (t.length - 11), ?_, ?_, ?_, ?_⟩
  · rw [List.append_assoc, List.take_append_drop, List.take_append_drop]
  · simp; omega
  · simp; omega
  · simp only [printTable]
    rw [if_neg (by
      rintro (rfl | h0)
      · simp at h
      · exact hn h0)]
    have hl : decide (t.length > 30) = true := by simp; omega
    have hm : ((t.drop 5).take (t.length - 11)).length + 1 = t.length - 10 := by simp; omega
    have hd : (if decide (n > 7) = true then 6 else n - 1) = min n 7 - 1 := by
      by_cases h7 : n > 7
      · simp [h7]; omega
      · simp [h7]; omega
    rw [hl, hd, hm]
    simp

example : printTable true 1 (["h"] :: ["a"] :: [["b"]]) = some ⟨some [.cell "h"], [[.cell "a"], [.cell "b"]]⟩ := by decide +kernel
example : printTable true 8 [[1, 2, 3, 4, 5, 6, 7, 8]] =
    some ⟨some [.cell 1, .cell 2, .cell 3, .colsElided 2, .cell 6, .cell 7, .cell 8], []⟩ := by decide +kernel
example : (printTable true 1 ((List.range 31).map fun i => [i])).map (·.body.length) = some 11 := by decide +kernel

/-! ### Saving -/

open Verif.Csv

theorem steps_append : ∀ (a b : List Char) (r : Reader), steps r (a ++ b) = (steps r a).bind fun r => steps r b
  | [], _, _ => rfl
  | c :: a, b, r => by
    simp only [List.cons_append, steps]
    cases step r c with
    | none => rfl
    | some r' => exact steps_append a b r'

theorem hexVal_digit : ∀ d, d < 16 → hexVal (hexDigit d) = some d ∧ hexDigit d ≠ '}' := by decide

theorem steps_hex (rows : List (List (List Char))) (row : List (List Char)) (fld : List Char) (n : Nat) : ∀ m,
    ∃ k, steps ⟨rows, row, fld, .uni m⟩ (hex n) = some ⟨rows, row, fld, .uni (m * k + n)⟩ := by
  induction n using Nat.strongRecOn with
  | _ n ih =>
    intro m
    rw [hex]
    by_cases h : n < 16
    · rw [if_pos h]
      refine ⟨16, ?_⟩
      have := hexVal_digit n h
      simp [steps, step, this.1, this.2]
    · rw [if_neg h]
      obtain ⟨k, hk⟩ := ih (n / 16) (by omega) m
      refine ⟨k * 16, ?_⟩
      rw [steps_append, hk]
      have := hexVal_digit (n % 16) (by omega)
      simp only [Option.bind_some, steps, step, if_neg this.2, this.1, Option.map_some, Option.some.injEq, Reader.mk.injEq,
        St.uni.injEq, true_and]
      rw [Nat.add_mul, Nat.mul_assoc]
      omega

theorem steps_escChar (rows : List (List (List Char))) (row : List (List Char)) (fld : List Char) (sp : Bool) (c : Char) :
    steps ⟨rows, row, fld, .quoted⟩ (escChar sp c) = some ⟨rows, row, fld ++ [c], .quoted⟩ := by
  unfold escChar
  split
  · next h => subst h; simp [steps, step, unesc]
  split
  · next h => subst h; simp [steps, step, unesc]
  split
  · next h => subst h; simp [steps, step, unesc]
  split
  · next h => subst h; simp [steps, step, unesc]
  split
  · next h => subst h; simp [steps, step, unesc]
  split
  · next h => subst h; simp [steps, step, unesc]
  split
  · next h => subst h; simp [steps, step, unesc]
  split
  · obtain ⟨k, hk⟩ := steps_hex rows row fld c.toNat 0
    have : '\\' :: 'u' :: '{' :: (hex c.toNat ++ ['}']) = ['\\', 'u', '{'] ++ (hex c.toNat ++ ['}']) := rfl
    rw [this, steps_append]
    have h1 : steps ⟨rows, row, fld, .quoted⟩ ['\\', 'u', '{'] = some ⟨rows, row, fld, .uni 0⟩ := by simp [steps, step]
    rw [h1]
    simp only [Option.bind_some]
    rw [steps_append, hk]
    simp [steps, step, Char.ofNat_toNat]
  · next h1 h2 h3 h4 h5 h6 h7 _ => simp [steps, step, h5, h6]

theorem steps_escAll (rows : List (List (List Char))) (row : List (List Char)) (sp : Char → Bool) : ∀ (s fld : List Char),
    steps ⟨rows, row, fld, .quoted⟩ (s.flatMap fun d => escChar (sp d) d) = some ⟨rows, row, fld ++ s, .quoted⟩
  | [], fld => by simp [steps]
  | c :: s, fld => by
    rw [List.flatMap_cons, steps_append, steps_escChar]
    simp only [Option.bind_some]
    rw [steps_escAll rows row sp s]
    simp

theorem steps_escape (rows : List (List (List Char))) (row : List (List Char)) (special : Bool → Char → Bool) (s fld : List Char) :
    steps ⟨rows, row, fld, .quoted⟩ (escape special s) = some ⟨rows, row, fld ++ s, .quoted⟩ := by
  cases s with
  | nil => simp [escape, steps]
  | cons c s =>
    rw [escape, steps_append, steps_escChar]
    simp only [Option.bind_some]
    rw [steps_escAll rows row (special false) s]
    simp

theorem steps_plain (rows : List (List (List Char))) (row : List (List Char)) : ∀ (s fld : List Char) , needsQuotes s = false →
    steps ⟨rows, row, fld, .plain⟩ s = some ⟨rows, row, fld ++ s, .plain⟩
  | [], fld, _ => by simp [steps]
  | c :: s, fld, h => by
    simp only [needsQuotes, List.any_cons, Bool.or_eq_false_iff, decide_eq_false_iff_not] at h
    simp only [steps, step, if_neg h.1.1.1.1, if_neg h.1.2, Option.bind_some]
    rw [steps_plain rows row s _ (by simpa [needsQuotes] using h.2)]
    simp

/-- Reading one saved cell, at the start of a field: its text, and a state in which the field can end. -/
theorem steps_cell (special : Bool → Char → Bool) (rows : List (List (List Char))) (row : List (List Char)) (o : Option (List Char)) :
    ∃ st, (st = .start ∨ st = .plain ∨ st = .closed) ∧
      steps ⟨rows, row, [], .start⟩ (saveCell special o) = some ⟨rows, row, o.getD [], st⟩ := by
  cases o with
  | none => exact ⟨.start, .inl rfl, rfl⟩
  | some s =>
    simp only [saveCell, Option.getD_some]
    by_cases hq : needsQuotes s = true
    · rw [if_pos hq]
      refine ⟨.closed, .inr (.inr rfl), ?_⟩
      have : '"' :: (escape special s ++ ['"']) = ['"'] ++ (escape special s ++ ['"']) := rfl
      rw [this, steps_append]
      have h1 : steps ⟨rows, row, [], .start⟩ ['"'] = some ⟨rows, row, [], .quoted⟩ := by simp [steps, step]
      rw [h1]
      simp only [Option.bind_some]
      rw [steps_append, steps_escape]
      simp [steps, step]
    · have hq' : needsQuotes s = false := by simpa using hq
      rw [if_neg hq]
      cases s with
      | nil => exact ⟨.start, .inl rfl, rfl⟩
      | cons c s =>
        refine ⟨.plain, .inr (.inl rfl), ?_⟩
        have h := hq'
        simp only [needsQuotes, List.any_cons, Bool.or_eq_false_iff, decide_eq_false_iff_not] at h
        simp only [steps, step, if_neg h.1.1.1.1, if_neg h.1.2, if_neg h.1.1.1.2, Option.bind_some, List.nil_append]
        rw [steps_plain rows row s _ (by simpa [needsQuotes] using h.2)]
        simp

theorem step_comma (rows : List (List (List Char))) (row : List (List Char)) (f : List Char) (st : St)
    (h : st = .start ∨ st = .plain ∨ st = .closed) : step ⟨rows, row, f, st⟩ ',' = some ⟨rows, row ++ [f], [], .start⟩ := by
  rcases h with rfl | rfl | rfl <;> simp [step, endField]

theorem step_newline (rows : List (List (List Char))) (row : List (List Char)) (f : List Char) (st : St)
    (h : st = .start ∨ st = .plain ∨ st = .closed) : step ⟨rows, row, f, st⟩ '\n' = some ⟨rows ++ [row ++ [f]], [], [], .start⟩ := by
  rcases h with rfl | rfl | rfl <;> simp [step, endRow]

theorem steps_row (special : Bool → Char → Bool) (rows : List (List (List Char))) : ∀ (cells : List (Option (List Char)))
    (row : List (List Char)), cells ≠ [] →
    ∃ init last st, (st = .start ∨ st = .plain ∨ st = .closed) ∧ row ++ cells.map (·.getD []) = init ++ [last] ∧
      steps ⟨rows, row, [], .start⟩ (sepBy ',' (cells.map (saveCell special))) = some ⟨rows, init, last, st⟩
  | [], _, h => absurd rfl h
  | [c], row, _ => by
    obtain ⟨st, h1, h2⟩ := steps_cell special rows row c
    exact ⟨row, c.getD [], st, h1, by simp, by simpa [sepBy] using h2⟩
  | c :: d :: cells, row, _ => by
    obtain ⟨st, h1, h2⟩ := steps_cell special rows row c
    obtain ⟨init, last, st', g1, g2, g3⟩ := steps_row special rows (d :: cells) (row ++ [c.getD []]) (by simp)
    refine ⟨init, last, st', g1, by rw [← g2]; simp, ?_⟩
    simp only [List.map_cons, sepBy] at g3 ⊢
    rw [steps_append, h2]
    simp only [Option.bind_some, steps]
    rw [step_comma rows row _ st h1]
    simpa using g3

theorem steps_table (special : Bool → Char → Bool) : ∀ (t : List (List (Option (List Char)))) (rows : List (List (List Char))),
    t ≠ [] → (∀ r ∈ t, r ≠ []) →
    ∃ rows' init last st, (st = .start ∨ st = .plain ∨ st = .closed) ∧
      rows ++ t.map (·.map (·.getD [])) = rows' ++ [init ++ [last]] ∧
      steps ⟨rows, [], [], .start⟩ (saveTable special t) = some ⟨rows', init, last, st⟩
  | [], _, h, _ => absurd rfl h
  | [r], rows, _, hr => by
    obtain ⟨init, last, st, h1, h2, h3⟩ := steps_row special rows r [] (hr r (by simp))
    exact ⟨rows, init, last, st, h1, by simpa using h2, by simpa [saveTable, sepBy] using h3⟩
  | r :: r' :: t, rows, _, hr => by
    obtain ⟨init, last, st, h1, h2, h3⟩ := steps_row special rows r [] (hr r (by simp))
    obtain ⟨rows', init', last', st', g1, g2, g3⟩ := steps_table special (r' :: t) (rows ++ [init ++ [last]]) (by simp)
      fun x hx => hr x (by simp only [List.mem_cons] at hx ⊢; exact .inr hx)
    refine ⟨rows', init', last', st', g1, ?_, ?_⟩
    · rw [← g2, ← h2]; simp
    · simp only [saveTable, List.map_cons, sepBy] at g3 ⊢
      rw [steps_append, h3]
      simp only [Option.bind_some, steps]
      rw [step_newline rows init _ st h1]
      exact g3

/-- C45. A saved table reads back as it was: one record for each row, one field for each cell, with the text of the cell,
whatever separators, quotes, newlines or other characters it has. A nil cell reads as an empty field. -/
theorem saved_reads_back (special : Bool → Char → Bool) (t : List (List (Option (List Char)))) (ht : t ≠ [])
    (hr : ∀ r ∈ t, r ≠ []) : readCsv (saveTable special t) = some (t.map fun r => r.map (·.getD [])) := by
  obtain ⟨rows', init, last, st, h1, h2, h3⟩ := steps_table special t [] ht hr
  rw [readCsv, h3]
  simp only [Option.bind_some]
  simp only [List.nil_append] at h2
  rcases h1 with rfl | rfl | rfl <;> simp [h2]

/-- C45. Different tables of texts are saved as different files. -/
theorem saved_distinct (special : Bool → Char → Bool) (t u : List (List (List Char))) (ht : t ≠ []) (hu : u ≠ [])
    (hr : ∀ r ∈ t, r ≠ []) (hs : ∀ r ∈ u, r ≠ [])
    (h : saveTable special (t.map (·.map some)) = saveTable special (u.map (·.map some))) : t = u := by
  have key : ∀ t : List (List (List Char)), t ≠ [] → (∀ r ∈ t, r ≠ []) →
      readCsv (saveTable special (t.map (·.map some))) = some t := by
    intro t ht hr
    rw [saved_reads_back special _ (by simpa using ht) (by
      intro r hr'
      obtain ⟨x, hx, rfl⟩ := List.mem_map.1 hr'
      simpa using hr x hx)]
    simp [Function.comp_def]
  have h1 := key t ht hr
  have h2 := key u hu hs
  rw [h] at h1
  rw [h1] at h2
  exact Option.some.inj h2

/-- A nil cell and an empty text are saved alike. -/
theorem nil_is_empty_text (special : Bool → Char → Bool) : saveTable special [[none]] = saveTable special [[some []]] := rfl

/-- A table without rows and one with a single empty cell are saved alike. -/
theorem no_rows_is_one_cell (special : Bool → Char → Bool) : saveTable special [] = saveTable special [[none]] := rfl

example : saveTable (fun _ _ => false) [[some ['a'], none], [some ['b', ','], some ['c', '"', '\n']]] =
    ['a', ',', '\n', '"', 'b', ',', '"', ',', '"', 'c', '\\', '"', '\\', 'n', '"'] ∧
    readCsv (saveTable (fun _ c => c = 'b') [[some ['a'], none], [some ['b', ','], some ['c', '"', '\n']]]) =
      some [[['a'], []], [['b', ','], ['c', '"', '\n']]] := by
  decide +kernel

end Verif.Print
