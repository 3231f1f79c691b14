import Verif.Model.Wrap
import Verif.Spec.Wrap
/-! C94: wrapping loses nothing. -/
namespace Verif.Wrap
variable {St Lk : Type} {wd : Char → Nat} {width : Nat}

theorem glyphs_append (a b : List (Span St)) : glyphs (a ++ b) = glyphs a ++ glyphs b := List.flatMap_append

theorem textOf_append (a b : List (Span St)) : textOf (a ++ b) = textOf a ++ textOf b := List.flatMap_append

theorem glyphs_one (t : List Char) (st : St) : glyphs [(t, st)] = t.map fun c => (c, st) := by simp [glyphs]

theorem textOf_one (t : List Char) (st : St) : textOf [(t, st)] = t := by simp [textOf]

theorem columns_append (a b : List Char) : columns wd (a ++ b) = columns wd a + columns wd b := by simp [columns]

/-- Rows that are complete do not matter. -/
theorem cutSlice_rows (st : St) : ∀ (cs cur : List Char) (rs rows : List (List (Span St))) (spans : List (Span St)) (w : Nat),
    cutSlice wd width st cs cur ⟨rs ++ rows, spans, w⟩ =
      ⟨rs ++ (cutSlice wd width st cs cur ⟨rows, spans, w⟩).rows, (cutSlice wd width st cs cur ⟨rows, spans, w⟩).spans, (cutSlice wd width st cs cur ⟨rows, spans, w⟩).w⟩
  | [], _, _, _, _, _ => rfl
  | c :: cs, cur, rs, rows, spans, w => by
    unfold cutSlice
    by_cases h : w + wd c > width
    · simp only [h, if_true]
      rw [List.append_assoc]
      exact cutSlice_rows st cs _ rs _ _ _
    · simp only [h, if_false]
      exact cutSlice_rows st cs _ rs _ _ _

theorem cutSlices_rows : ∀ (l : List (Span St)) (rs rows : List (List (Span St))) (spans : List (Span St)) (w : Nat),
    cutSlices wd width l ⟨rs ++ rows, spans, w⟩ =
      ⟨rs ++ (cutSlices wd width l ⟨rows, spans, w⟩).rows, (cutSlices wd width l ⟨rows, spans, w⟩).spans, (cutSlices wd width l ⟨rows, spans, w⟩).w⟩
  | [], _, _, _, _ => rfl
  | (t, st) :: l, rs, rows, spans, w => by
    unfold cutSlices
    rw [cutSlice_rows, cutSlices_rows l rs]

/-- The rows of a line. -/
def rowsOf (wd : Char → Nat) (width : Nat) (line : List (Span St)) : List (List (Span St)) := cutLine wd width [] line

theorem cutLine_eq (rows : List (List (Span St))) (line : List (Span St)) : cutLine wd width rows line = rows ++ rowsOf wd width line := by
  unfold rowsOf cutLine
  have := cutSlices_rows (wd := wd) (width := width) line rows [] [] 0
  rw [List.append_nil] at this
  simp only [this, List.append_assoc]

theorem foldl_eq : ∀ (lines : List (List (Span St))) (rows : List (List (Span St))),
    lines.foldl (cutLine wd width) rows = rows ++ (lines.map (rowsOf wd width)).flatten
  | [], rows => by simp
  | l :: lines, rows => by
    rw [List.foldl_cons, foldl_eq lines, cutLine_eq]
    simp

theorem cutSlice_glyphs (st : St) : ∀ (cs cur : List Char) (a : Acc St),
    glyphs ((cutSlice wd width st cs cur a).rows.flatten ++ (cutSlice wd width st cs cur a).spans) =
      glyphs (a.rows.flatten ++ a.spans) ++ (cur ++ cs).map fun c => (c, st)
  | [], cur, a => by
    unfold cutSlice
    simp only [← List.append_assoc, List.append_nil]
    rw [glyphs_append _ [(cur, st)], glyphs_one]
  | c :: cs, cur, a => by
    unfold cutSlice
    by_cases h : a.w + wd c > width
    · simp only [h, if_true]
      rw [cutSlice_glyphs st cs]
      simp [glyphs]
    · simp only [h, if_false]
      rw [cutSlice_glyphs st cs]
      simp

theorem cutSlices_glyphs : ∀ (l : List (Span St)) (a : Acc St),
    glyphs ((cutSlices wd width l a).rows.flatten ++ (cutSlices wd width l a).spans) = glyphs (a.rows.flatten ++ a.spans) ++ glyphs l
  | [], a => by simp [cutSlices, glyphs]
  | (t, st) :: l, a => by
    unfold cutSlices
    rw [cutSlices_glyphs l, cutSlice_glyphs]
    simp [glyphs]

theorem rowsOf_glyphs (line : List (Span St)) : glyphs (rowsOf wd width line).flatten = glyphs line := by
  have := cutSlices_glyphs (wd := wd) (width := width) line ⟨[], [], 0⟩
  unfold rowsOf cutLine
  simpa [glyphs] using this

theorem glyphs_cnv (look : St → Lk) (r : List (Span St)) : glyphs (r.map (cnvSpan look)) = (glyphs r).flatMap (shownAs look) := by
  induction r with
  | nil => rfl
  | cons s r ih =>
    have e : glyphs (s :: r) = (s.1.map fun c => (c, s.2)) ++ glyphs r := rfl
    have e' : glyphs ((s :: r).map (cnvSpan look)) = ((spaces s.1).map fun c => (c, look s.2)) ++ glyphs (r.map (cnvSpan look)) := rfl
    rw [e, e', ih, List.flatMap_append]
    congr 1
    unfold spaces
    induction s.1 with
    | nil => rfl
    | cons c t ih =>
      rw [List.flatMap_cons, List.map_append, ih, List.map_cons, List.flatMap_cons]
      congr 1
      unfold shownAs
      dsimp only
      split <;> simp [List.replicate]

theorem Tight.ext : ∀ (ls : List (List (Span St))) {r r' : List (Span St)}, Tight wd width (ls ++ [r]) →
    (∀ c t, textOf r = c :: t → ∃ t', textOf r' = c :: t') → Tight wd width (ls ++ [r'])
  | [], _, _, _, _ => trivial
  | [a], _, _, h, hr => by
    obtain ⟨⟨c, t, h1, h2⟩, _⟩ := h
    obtain ⟨t', h3⟩ := hr c t h1
    exact ⟨⟨c, t', h3, h2⟩, trivial⟩
  | a :: b :: ls, _, _, h, hr => ⟨h.1, Tight.ext (b :: ls) h.2 hr⟩

theorem Tight.snoc : ∀ (ls : List (List (Span St))) {r r' : List (Span St)}, Tight wd width (ls ++ [r]) →
    (∃ c t, textOf r' = c :: t ∧ width < columns wd (textOf r) + wd c) → Tight wd width (ls ++ [r] ++ [r'])
  | [], _, _, _, h => ⟨h, trivial⟩
  | [a], _, _, h, hr => ⟨h.1, hr, trivial⟩
  | a :: b :: ls, _, _, h, hr => ⟨h.1, Tight.snoc (b :: ls) h.2 hr⟩

/-- What holds while a slice is cut. -/
structure Cut (wd : Char → Nat) (width : Nat) (rows : List (List (Span St))) (last : List (Span St)) (w : Nat) : Prop where
  wide : w = columns wd (textOf last)
  tight : Tight wd width (rows ++ [last])

theorem Cut.slice (st : St) : ∀ (cs cur : List Char) (a : Acc St), Cut wd width a.rows (a.spans ++ [(cur, st)]) a.w →
    Cut wd width (cutSlice wd width st cs cur a).rows (cutSlice wd width st cs cur a).spans (cutSlice wd width st cs cur a).w
  | [], _, _, h => h
  | c :: cs, cur, a, h => by
    unfold cutSlice
    by_cases hw : a.w + wd c > width
    · simp only [hw, if_true]
      refine Cut.slice st cs [c] _ ⟨?_, ?_⟩
      · simp [textOf, columns]
      · exact h.tight.snoc a.rows ⟨c, [], by simp [textOf], h.wide ▸ hw⟩
    · simp only [hw, if_false]
      refine Cut.slice st cs _ _ ⟨?_, ?_⟩
      · show a.w + wd c = _
        rw [h.wide, textOf_append, textOf_append, textOf_one, textOf_one, columns_append, columns_append, columns_append]
        simp [columns, Nat.add_assoc]
      · refine h.tight.ext a.rows fun d t e => ?_
        rw [textOf_append, textOf_one] at e ⊢
        rw [← List.append_assoc, e]
        exact ⟨t ++ [c], rfl⟩

theorem Cut.slices : ∀ (l : List (Span St)) (a : Acc St), Cut wd width a.rows a.spans a.w →
    Cut wd width (cutSlices wd width l a).rows (cutSlices wd width l a).spans (cutSlices wd width l a).w
  | [], _, h => h
  | (t, st) :: l, a, h => by
    refine Cut.slices l _ (Cut.slice st t [] a ⟨?_, ?_⟩)
    · rw [textOf_append, textOf_one, List.append_nil]; exact h.wide
    · exact h.tight.ext a.rows fun d t e => ⟨t, by rw [textOf_append, textOf_one, List.append_nil, e]⟩

theorem rowsOf_tight (line : List (Span St)) : Tight wd width (rowsOf wd width line) :=
  (Cut.slices line ⟨[], [], 0⟩ ⟨rfl, trivial⟩).tight

theorem slice_fits (st : St) : ∀ (cs cur : List Char) (a : Acc St), (∀ c ∈ cs, wd c ≤ width) → (∀ r ∈ a.rows, columns wd (textOf r) ≤ width) →
    a.w ≤ width → a.w = columns wd (textOf (a.spans ++ [(cur, st)])) →
    (∀ r ∈ (cutSlice wd width st cs cur a).rows, columns wd (textOf r) ≤ width) ∧ (cutSlice wd width st cs cur a).w ≤ width ∧
      (cutSlice wd width st cs cur a).w = columns wd (textOf (cutSlice wd width st cs cur a).spans)
  | [], _, _, _, hr, hw, he => ⟨hr, hw, he⟩
  | c :: cs, cur, a, hc, hr, hw, he => by
    unfold cutSlice
    by_cases h : a.w + wd c > width
    · simp only [h, if_true]
      refine slice_fits st cs [c] _ (fun d hd => hc d (List.mem_cons_of_mem _ hd)) (fun r hm => ?_) (hc c List.mem_cons_self) (by simp [textOf, columns])
      rcases List.mem_append.1 hm with hm | hm
      · exact hr r hm
      · rw [List.mem_singleton.1 hm, ← he]; exact hw
    · simp only [h, if_false]
      refine slice_fits st cs _ _ (fun d hd => hc d (List.mem_cons_of_mem _ hd)) hr (Nat.le_of_not_gt h) ?_
      show a.w + wd c = _
      rw [he, textOf_append, textOf_append, textOf_one, textOf_one, columns_append, columns_append, columns_append]
      simp [columns, Nat.add_assoc]

theorem slices_fit : ∀ (l : List (Span St)) (a : Acc St), (∀ c ∈ textOf l, wd c ≤ width) → (∀ r ∈ a.rows, columns wd (textOf r) ≤ width) →
    a.w ≤ width → a.w = columns wd (textOf a.spans) →
    (∀ r ∈ (cutSlices wd width l a).rows, columns wd (textOf r) ≤ width) ∧ columns wd (textOf (cutSlices wd width l a).spans) ≤ width
  | [], _, _, hr, hw, he => ⟨hr, he ▸ hw⟩
  | (t, st) :: l, a, hc, hr, hw, he => by
    have e : textOf ((t, st) :: l) = t ++ textOf l := rfl
    rw [e] at hc
    obtain ⟨h1, h2, h3⟩ := slice_fits st t [] a (fun c h => hc c (List.mem_append_left _ h)) hr hw (by rw [textOf_append, textOf_one, List.append_nil]; exact he)
    exact slices_fit l _ (fun c h => hc c (List.mem_append_right _ h)) h1 h2 h3

theorem rowsOf_fit (line : List (Span St)) (h : ∀ c ∈ textOf line, wd c ≤ width) : ∀ r ∈ rowsOf wd width line, columns wd (textOf r) ≤ width := by
  obtain ⟨h1, h2⟩ := slices_fit line ⟨[], [], 0⟩ h (fun r hr => (by cases hr)) (Nat.zero_le _) rfl
  intro r hr
  rcases List.mem_append.1 hr with hr | hr
  · exact h1 r hr
  · rw [List.mem_singleton.1 hr]; exact h2

/-- **C94**: whatever the width, the rows on the screen are those of the lines of the text, one line after the other; the rows of a line
show its characters in order, with their styles, none left out and none twice (a tab as four spaces); no line is without a row;
and a line break at the end of the text is shown as an empty row. -/
theorem wrapping_keeps_the_text (wd : Char → Nat) (width : Nat) (look : St → Lk) (plain : Lk) (lines : List (List (Span St))) (ends : Bool) :
    ∃ blocks : List (List (List (Span Lk))), convert wd width look plain lines ends = blocks.flatten ++ (if ends then [[([], plain)]] else []) ∧
      blocks.length = lines.length ∧ ∀ (i : Nat) line block, lines[i]? = some line → blocks[i]? = some block →
        block ≠ [] ∧ glyphs block.flatten = (glyphs line).flatMap (shownAs look) := by
  refine ⟨lines.map fun l => (rowsOf wd width l).map (·.map (cnvSpan look)), ?_, by simp, fun i line block hl hb => ?_⟩
  · unfold convert
    rw [foldl_eq]
    simp only [List.nil_append, List.map_flatten, List.map_map]
    rfl
  · rw [List.getElem?_map, hl] at hb
    cases Option.some.inj hb
    constructor
    · unfold rowsOf cutLine
      simp
    · rw [← List.map_flatten, glyphs_cnv, rowsOf_glyphs]

theorem cnv_plain (look : St → Lk) {r : List (Span St)} (h : '\t' ∉ textOf r) : textOf (r.map (cnvSpan look)) = textOf r := by
  induction r with
  | nil => rfl
  | cons s r ih =>
    have e : textOf (s :: r) = s.1 ++ textOf r := rfl
    have e' : textOf ((s :: r).map (cnvSpan look)) = spaces s.1 ++ textOf (r.map (cnvSpan look)) := rfl
    rw [e] at h
    rw [e, e', ih fun hm => h (List.mem_append_right _ hm)]
    congr 1
    have : ∀ t : List Char, '\t' ∉ t → spaces t = t := by
      intro t
      induction t with
      | nil => intro _; rfl
      | cons c t ih =>
        intro h
        rw [List.mem_cons, not_or] at h
        show (if c = '\t' then _ else [c]) ++ spaces t = _
        rw [if_neg fun hc => h.1 hc.symm, ih h.2]
        rfl
    exact this _ fun hm => h (List.mem_append_left _ hm)

theorem Tight.cnv (look : St → Lk) : ∀ {rows : List (List (Span St))}, (∀ r ∈ rows, '\t' ∉ textOf r) → Tight wd width rows →
    Tight wd width (rows.map (·.map (cnvSpan look)))
  | [], _, _ => trivial
  | [_], _, _ => trivial
  | r :: r' :: rs, h, ht => by
    refine ⟨?_, Tight.cnv look (rows := r' :: rs) (fun x hx => h x (List.mem_cons_of_mem _ hx)) ht.2⟩
    rw [cnv_plain look (h r List.mem_cons_self), cnv_plain look (h r' (List.mem_cons_of_mem _ List.mem_cons_self))]
    exact ht.1

theorem textOf_glyphs (r : List (Span St)) : textOf r = (glyphs r).map (·.1) := by
  unfold textOf glyphs
  rw [List.map_flatMap]
  congr 1
  funext s
  simp [Function.comp_def]

theorem row_tabs {line : List (Span St)} (h : '\t' ∉ textOf line) : ∀ r ∈ rowsOf wd width line, '\t' ∉ textOf r := by
  intro r hr hm
  apply h
  rw [textOf_glyphs, ← rowsOf_glyphs (wd := wd) (width := width), ← textOf_glyphs]
  obtain ⟨s, hs, hc⟩ := List.mem_flatMap.1 hm
  exact List.mem_flatMap.2 ⟨s, List.mem_flatten.2 ⟨r, hr, hs⟩, hc⟩

/-- **C94**, for lines without tabs, of characters that fit: no row is wider than the width, and a row ends only where the next
character does not fit. -/
theorem rows_fit_and_are_full_partial (wd : Char → Nat) (width : Nat) (look : St → Lk) (plain : Lk) (line : List (Span St))
    (ht : '\t' ∉ textOf line) (hc : ∀ c ∈ textOf line, wd c ≤ width) :
    (∀ r ∈ convert wd width look plain [line] false, columns wd (textOf r) ≤ width) ∧ Tight wd width (convert wd width look plain [line] false) := by
  have e : convert wd width look plain [line] false = (rowsOf wd width line).map (·.map (cnvSpan look)) := by
    unfold convert
    rw [foldl_eq]
    simp
  rw [e]
  refine ⟨fun r hr => ?_, (rowsOf_tight line).cnv look (row_tabs ht)⟩
  obtain ⟨r', hr', rfl⟩ := List.mem_map.1 hr
  rw [cnv_plain look (row_tabs ht r' hr')]
  exact rowsOf_fit line hc r' hr'

/-- The columns of ASCII characters: none for a control character. -/
def asciiWidth (c : Char) : Nat := if c.toNat < 32 then 0 else 1

/-- For C94: two colours, three rows. -/
example : convert asciiWidth 4 id 0 [[("Hello, ".toList, 1), ("world".toList, 2)]] true =
    [[("Hell".toList, 1)], [("o, ".toList, 1), ("w".toList, 2)], [("orld".toList, 2)], [([], 0)]] ∧
    '\t' ∉ textOf [("Hello, ".toList, 1), ("world".toList, 2)] ∧ ∀ c ∈ textOf [("Hello, ".toList, 1), ("world".toList, 2)], asciiWidth c ≤ 4 := by decide +kernel

/-- A tab counts for no column when a line is cut, and is then shown as four (`interface/mod.rs:882`, `:954`): a row of six columns on a
screen of four, whose end is not shown. -/
theorem tabs_do_not_fit : convert asciiWidth 4 id 0 [[("a\tb".toList, 1)]] false = [[("a    b".toList, 1)]] ∧
    columns asciiWidth "a    b".toList = 6 := by decide +kernel

end Verif.Wrap
