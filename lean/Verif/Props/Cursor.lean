import Verif.Props.Wrap
/-! C95: the cursor and the scroll bar. -/
namespace Verif.Wrap
variable {St Lk : Type} {wd : Char → Nat} {width : Nat}

theorem cursorLoop_spec {pos : Nat} : ∀ (rows : List (List Char)) (w y : Nat), w ≤ pos → pos ≤ w + (rows.map List.length).sum → pos < 65536 → rows ≠ [] →
    ∃ (k : Nat) (row : List Char), rows[k]? = some row ∧ (cursorLoop pos (rows.map List.length) w y).2 = y + k ∧
      (cursorLoop pos (rows.map List.length) w y).1 ≤ row.length ∧ w + (rows.take k).flatten.length + (cursorLoop pos (rows.map List.length) w y).1 = pos
  | [], _, _, _, _, _, h => absurd rfl h
  | r :: rows, w, y, hw, hp, hb, _ => by
    rw [List.map_cons]
    unfold cursorLoop
    by_cases h : w + r.length ≥ pos
    · rw [if_pos h]
      refine ⟨0, r, rfl, rfl, ?_, ?_⟩
      · show (pos - w) % 65536 ≤ _
        rw [Nat.mod_eq_of_lt (by omega)]; omega
      · show w + 0 + (pos - w) % 65536 = pos
        rw [Nat.mod_eq_of_lt (by omega)]; omega
    · rw [if_neg h]
      rw [List.map_cons, List.sum_cons] at hp
      have hne : rows ≠ [] := by
        rintro rfl
        simp only [List.map_nil, List.sum_nil] at hp
        omega
      obtain ⟨k, row, h1, h2, h3, h4⟩ := cursorLoop_spec rows (w + r.length) (y + 1) (by omega) (by omega) hb hne
      refine ⟨k + 1, row, by simpa using h1, by omega, h3, ?_⟩
      rw [List.take_succ_cons, List.flatten_cons, List.length_append]
      omega

/-- Where a position of a text is in its rows. -/
theorem rows_split : ∀ (rows : List (List Char)) (k x : Nat) (row : List Char), rows[k]? = some row → x ≤ row.length →
    (rows.take k).flatten ++ row.take x = rows.flatten.take ((rows.take k).flatten.length + x)
  | [], k, _, _, h, _ => by simp at h
  | r :: rows, 0, x, row, h, hx => by
    cases Option.some.inj h
    simp [List.take_append_of_le_length hx]
  | r :: rows, k + 1, x, row, h, hx => by
    have ih := rows_split rows k x row (by simpa using h) hx
    rw [List.take_succ_cons, List.flatten_cons, List.append_assoc, ih, List.flatten_cons, List.length_append, Nat.add_assoc, List.take_length_add_append]

theorem flatten_textOf (rows : List (List (Span St))) : (rows.map textOf).flatten = textOf rows.flatten := by
  induction rows with
  | nil => rfl
  | cons r rows ih => rw [List.map_cons, List.flatten_cons, ih, List.flatten_cons, textOf_append]

theorem columns_one {t : List Char} (h : ∀ c ∈ t, wd c = 1) : columns wd t = t.length := by
  induction t with
  | nil => rfl
  | cons c t ih =>
    show wd c + columns wd t = _
    rw [h c List.mem_cons_self, ih fun d hd => h d (List.mem_cons_of_mem _ hd), List.length_cons, Nat.add_comm]

/-- The text on the screen. -/
theorem convert_text (look : St → Lk) (plain : Lk) (lines : List (List (Span St))) (ends : Bool) (ht : '\t' ∉ textOf lines.flatten) :
    textOf (convert wd width look plain lines ends).flatten = textOf lines.flatten := by
  unfold convert
  rw [foldl_eq, List.nil_append, List.flatten_append, textOf_append, ← List.map_flatten]
  have e : textOf (lines.map (rowsOf wd width)).flatten.flatten = textOf lines.flatten := by
    clear ht
    induction lines with
    | nil => rfl
    | cons l lines ih =>
      rw [List.map_cons, List.flatten_cons, List.flatten_append, textOf_append, ih, List.flatten_cons, textOf_append, textOf_glyphs, rowsOf_glyphs, ← textOf_glyphs]
  rw [cnv_plain look (by rw [e]; exact ht), e]
  cases ends <;> simp [textOf]

/-- **C95**, for the cursor: if no character is a tab and each takes one column, then the characters on the screen before the cursor (the rows above
it, and those left of it in its row) are the first `pos` characters of the text. -/
theorem cursor_is_after_what_was_typed_partial (look : St → Lk) (plain : Lk) (lines : List (List (Span St))) (ends : Bool)
    (ht : '\t' ∉ textOf lines.flatten) (h1 : ∀ c ∈ textOf lines.flatten, wd c = 1) (hne : lines ≠ [])
    {pos : Nat} (hp : pos ≤ (textOf lines.flatten).length) (hb : pos < 65536) {x y : Nat}
    (hc : cursorOffset ((convert wd width look plain lines ends).map fun r => columns wd (textOf r)) pos = (x, y)) :
    ∃ row, (convert wd width look plain lines ends)[y]? = some row ∧ x ≤ (textOf row).length ∧
      textOf ((convert wd width look plain lines ends).take y).flatten ++ (textOf row).take x = (textOf lines.flatten).take pos := by
  have e := convert_text (wd := wd) (width := width) look plain lines ends ht
  generalize hrows : convert wd width look plain lines ends = rows at hc e ⊢
  have hr : rows ≠ [] := by
    rintro rfl
    cases lines with
    | nil => exact hne rfl
    | cons l lines =>
      unfold convert at hrows
      rw [foldl_eq] at hrows
      simp only [List.nil_append, List.append_eq_nil_iff, List.map_eq_nil_iff, List.map_cons, List.flatten_cons] at hrows
      have := hrows.1.1
      unfold rowsOf cutLine at this
      simp at this
  have hw : rows.map (fun r => columns wd (textOf r)) = (rows.map textOf).map List.length := by
    rw [List.map_map]
    refine List.map_congr_left fun r hm => columns_one fun c hcm => h1 c ?_
    rw [← e]
    obtain ⟨s, hs, hc'⟩ := List.mem_flatMap.1 hcm
    exact List.mem_flatMap.2 ⟨s, List.mem_flatten.2 ⟨r, hm, hs⟩, hc'⟩
  have hlen : ((rows.map textOf).map List.length).sum = (textOf lines.flatten).length := by
    rw [← List.length_flatten, flatten_textOf, e]
  unfold cursorOffset at hc
  rw [hw] at hc
  obtain ⟨k, t, ha, hb', hc', hd⟩ := cursorLoop_spec (rows.map textOf) 0 0 (Nat.zero_le pos) (by rw [hlen]; omega) hb (by simpa using hr)
  rw [hc] at hb' hc' hd
  simp only [Nat.zero_add] at hb' hc' hd
  subst hb'
  have hs := rows_split _ _ x t ha hc'
  rw [List.getElem?_map] at ha
  obtain ⟨row, hrow, rfl⟩ := Option.map_eq_some_iff.1 ha
  refine ⟨row, hrow, hc', ?_⟩
  rw [flatten_textOf, e, ← List.map_take, flatten_textOf, ← flatten_textOf, List.map_take, hd] at hs
  rw [← flatten_textOf, List.map_take]
  exact hs

/-- For C95: eleven characters in rows of four; the cursor after the sixth. -/
example : cursorOffset ((convert asciiWidth 4 id 0 [[("filter x < 3".toList, 1)]] false).map fun r => columns asciiWidth (textOf r)) 6 = (2, 1) ∧
    '\t' ∉ textOf [[("filter x < 3".toList, 1)]].flatten ∧ ∀ c ∈ textOf [[("filter x < 3".toList, 1)]].flatten, asciiWidth c = 1 := by decide +kernel

/-- At the end of a full row, the cursor is drawn beyond the last column, not at the begin of the next row, where the next character is or
will be shown. -/
theorem cursor_leaves_the_screen : cursor ((convert asciiWidth 4 id 0 [[("abcdef".toList, 1)]] false).map fun r => columns asciiWidth (textOf r)) "abcd".toList = (4, 0) := by
  decide +kernel

/-- After an empty line, the cursor is drawn a line too high: `ab`, a line break, another one, and the cursor before `cd`. -/
theorem empty_lines_move_the_cursor : cursor ((convert asciiWidth 4 id 0 [[("ab".toList, 1)], [([], 1)], [("cd".toList, 1)]] false).map
    fun r => columns asciiWidth (textOf r)) "ab\n\n".toList = (0, 1) := by decide +kernel

/-- Positions count characters, and widths columns: after a character of two columns, the cursor is drawn in the midst of it. -/
theorem wide_characters_move_the_cursor : cursor ((convert (fun c => if c = '字' then 2 else 1) 9 id 0 [[("字a".toList, 1)]] false).map
    fun r => columns (fun c => if c = '字' then 2 else 1) (textOf r)) "字".toList = (1, 0) := by decide +kernel

/-- What is assumed of floating point numbers: `a / b * c` grows with `a`, is zero for zero and `c` for `b`. -/
structure Part (part : Nat → Nat → Nat → Nat) : Prop where
  mono : ∀ a a' b c, a ≤ a' → part a b c ≤ part a' b c
  zero : ∀ b c, 0 < b → part 0 b c = 0
  full : ∀ b c, 0 < b → part b b c = c

/-- **C95**, for the scroll bar of an area that is not empty: it lies in the area and is not empty; it fills the area if all lines can be seen; it is
at the top before scrolling and at the bottom at the last line; and it goes down as one scrolls down. -/
theorem scroll_bar_shows_the_place_partial {part : Nat → Nat → Nat → Nat} (hp : Part part) (area : Rows) (ha : 0 < area.height) (lines : Nat) :
    (∀ scroll, area.y ≤ (scrollBar part area lines scroll).y ∧ 0 < (scrollBar part area lines scroll).height ∧
      (scrollBar part area lines scroll).y + (scrollBar part area lines scroll).height ≤ area.y + area.height) ∧
    (lines ≤ area.height → ∀ scroll, scrollBar part area lines scroll = area) ∧
    (scrollBar part area lines 0).y = area.y ∧
    (0 < lines → (scrollBar part area lines (lines - 1)).y + (scrollBar part area lines (lines - 1)).height = area.y + area.height) ∧
    ∀ s s', s ≤ s' → (scrollBar part area lines s).y ≤ (scrollBar part area lines s').y ∧ (scrollBar part area lines s).height = (scrollBar part area lines s').height := by
  obtain ⟨y, h⟩ := area
  have ha' : ¬ h < 1 := Nat.not_lt.2 ha
  unfold scrollBar
  dsimp only
  by_cases hl : lines ≤ 1
  · simp only [if_pos hl]
    exact ⟨fun _ => ⟨Nat.le_refl _, ha, Nat.le_refl _⟩, fun _ _ => trivial, trivial, fun _ => trivial, fun _ _ _ => ⟨Nat.le_refl _, trivial⟩⟩
  · simp only [if_neg hl, if_neg ha']
    generalize hb : min h (max (if lines ≤ h then h else h * h / lines) 1) = b
    have hb1 : 0 < b := by have : 0 < h := ha; omega
    have hb2 : b ≤ h := by omega
    have hb3 : lines ≤ h → b = h := by intro hh; rw [if_pos hh] at hb; omega
    refine ⟨fun scroll => ⟨Nat.le_add_right _ _, hb1, by omega⟩, fun hh scroll => ?_, ?_, fun _ => ?_, fun s s' hs => ⟨?_, trivial⟩⟩
    · rw [hb3 hh, Nat.sub_self, Nat.min_zero, Nat.add_zero]
    · rw [hp.zero _ _ (by omega), Nat.zero_min, Nat.add_zero]
    · rw [hp.full _ _ (by omega), Nat.min_self]; omega
    · have := hp.mono s s' (lines - 1) (h - b) hs
      omega

/-- For C95: exact division meets what is assumed, and a bar of fifty rows goes down. -/
example : Part (fun a b c => a * c / b) ∧ scrollBar (fun a b c => a * c / b) ⟨0, 100⟩ 200 50 = ⟨12, 50⟩ ∧
    scrollBar (fun a b c => a * c / b) ⟨0, 100⟩ 200 199 = ⟨50, 50⟩ := by
  refine ⟨⟨fun a a' b c h => Nat.div_le_div_right (Nat.mul_le_mul_right c h), fun b c _ => by simp, fun b c h => Nat.mul_div_cancel_left c h⟩, ?_⟩
  decide +kernel

/-- Of an area without rows, the bar is one row, outside of it (`outputs.rs:129`: `clamp` makes the height at least 1). -/
theorem scroll_bar_leaves_an_empty_area (part : Nat → Nat → Nat → Nat) (y lines : Nat) (h : 1 < lines) (scroll : Nat) :
    scrollBar part ⟨y, 0⟩ lines scroll = ⟨y, 1⟩ := by
  unfold scrollBar
  simp [Nat.not_le.2 h]

end Verif.Wrap
