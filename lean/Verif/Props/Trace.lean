import Verif.Lemmas.Trace

/-!
# C63: error messages show the offending text and mark it

The text is split by the statements themselves: `A` are whole lines before, `B` is empty or starts with
the line feed after, and the span of the error is `mid`, from byte `blen (A ++ pre)` on.
-/

namespace Verif.Trace

/-- Nothing follows, or a line feed does. -/
def After (B : Text) : Prop := B = [] ∨ ∃ B', B = '\n' :: B'

/-- A line as it is shown: without the carriage return of its line ending. -/
def shownLine (L B : Text) : Text := if B = [] then L else stripCr L

theorem linesGo_block {L B : Text} (hL : '\n' ∉ L) (hne : L ≠ []) (hB : After B) (o : Nat) :
    ∃ rest, linesGo o [] (L ++ B) = (o, shownLine L B) :: rest ∧ ∀ l ∈ rest, o + blen L < l.1 := by
  rcases hB with rfl | ⟨B', rfl⟩
  · refine ⟨[], ?_, by simp⟩
    rw [List.append_nil, linesGo_last hL _ _ (by simpa using hne)]
    simp [shownLine]
  · refine ⟨_, linesGo_line hL B' o [], ?_⟩
    · intro l hl
      have := (linesGo_mem hl).1
      simp only [List.nil_append] at this; omega

theorem shownLine_append {x y B : Text} (hy : y ≠ []) : shownLine (x ++ y) B = x ++ shownLine y B := by
  unfold shownLine; split
  · rfl
  · exact stripCr_append hy

/-- The part up to a character that is no carriage return is in the shown line. -/
theorem shownLine_keeps {x post B : Text} (hx : x.getLast? ≠ some '\r') :
    ∃ y, shownLine (x ++ post) B = x ++ y ∧ post = y ++ (post.drop y.length) := by
  rcases post with _ | ⟨c, post⟩
  · refine ⟨[], ?_, rfl⟩
    rw [List.append_nil]
    unfold shownLine; split
    · simp
    · rw [stripCr_none hx]
  · refine ⟨shownLine (c :: post) B, shownLine_append (by simp), ?_⟩
    unfold shownLine; split
    · simp
    · unfold stripCr; split
      · rename_i h
        have hne : c :: post ≠ [] := by simp
        have e := List.dropLast_concat_getLast hne
        have : (c :: post).dropLast = (c :: post).take post.length := by
          rw [List.dropLast_eq_take]; simp
        rw [this]
        have hl : ((c :: post).take post.length).length = post.length := by simp
        rw [hl, List.take_append_drop]
      · simp

/-- **C63, one line**: when the span lies in one line, exactly that line is shown, and the marked
columns are those of the span: after the width of what precedes it, as wide as the span. A tab counts
for four columns, any other character for one. -/
theorem line_marked (ws : Char → Bool) {A pre mid post B : Text} (hA : Whole A) (hB : After B)
    (hpre : '\n' ∉ pre) (hmid : '\n' ∉ mid) (hpost : '\n' ∉ post) (hne : mid ≠ [])
    (hcr : mid.getLast? ≠ some '\r') :
    traceCodeLines ws (A ++ (pre ++ mid ++ post) ++ B) (blen (A ++ pre)) (blen (A ++ pre) + blen mid)
      = some [⟨shownLine (pre ++ mid ++ post) B, width pre, width pre + width mid⟩] := by
  have hL : '\n' ∉ pre ++ mid ++ post := by simp [hpre, hmid, hpost]
  have hLne : pre ++ mid ++ post ≠ [] := by simp [hne]
  obtain ⟨rest, hr, hrest⟩ := linesGo_block hL hLne hB (0 + blen A)
  have hmp := blen_pos hne
  unfold traceCodeLines lines
  rw [List.append_assoc, linesGo_whole hA, hr]
  rw [rows_append_none]
  · have hlast : (pre ++ mid).getLast? ≠ some '\r' := by
      rw [List.getLast?_append]
      obtain ⟨c, hc⟩ : ∃ c, mid.getLast? = some c := ⟨_, List.getLast?_eq_some_getLast hne⟩
      rw [hc] at hcr ⊢; exact hcr
    obtain ⟨y, hy, _⟩ := shownLine_keeps (x := pre ++ mid) (post := post) (B := B) hlast
    have hlen : blen pre + blen mid ≤ blen (shownLine (pre ++ mid ++ post) B) := by
      rw [hy, blen_append, blen_append]; omega
    have e1 : slice (A ++ (pre ++ mid ++ post ++ B)) (blen A) (blen A + blen pre) = some pre := by
      have := slice_mid A pre (mid ++ post ++ B)
      simpa [List.append_assoc] using this
    have e2 : slice (A ++ (pre ++ mid ++ post ++ B)) (blen A) (blen A + blen pre + blen mid)
        = some (pre ++ mid) := by
      have := slice_mid A (pre ++ mid) (post ++ B)
      simpa [List.append_assoc, blen_append, Nat.add_assoc] using this
    simp only [rows]
    rw [if_neg, rows_outside]
    · simp only [row, rowStart, rowEnd, Nat.zero_add, blen_append]
      rw [if_pos (by omega), e1]
      simp only [Option.map_some, Option.bind_some]
      rw [if_pos (by omega), e2]
      simp [width_append]
    · intro l hl
      have := hrest l hl
      simp only [blen_append] at this
      simp only [outside, blen_append, Bool.or_eq_true, decide_eq_true_eq]; omega
    · simp only [outside, blen_append, Bool.or_eq_true, decide_eq_true_eq, Nat.zero_add]; omega
  · intro l hl
    have := (linesGo_whole_lt hA hl).2
    simp only [outside, blen_append, Bool.or_eq_true, decide_eq_true_eq]; omega

/-- **C63, several lines**: when the span goes over several lines, exactly the lines it touches are
shown. The first is marked from the start of the span, the last up to its end, and the others from the
first to the last character that is not white space. -/
theorem lines_marked (ws : Char → Bool) {A pre m1 M m2 post B : Text} (hA : Whole A) (hB : After B)
    (hM : Whole M) (hpre : '\n' ∉ pre) (h1 : '\n' ∉ m1) (h2 : '\n' ∉ m2) (hpost : '\n' ∉ post)
    (hne1 : stripCr m1 ≠ []) (hne2 : m2 ≠ []) (hcr : m2.getLast? ≠ some '\r') :
    traceCodeLines ws (A ++ (pre ++ (m1 ++ '\n' :: (M ++ m2)) ++ post) ++ B) (blen (A ++ pre))
        (blen (A ++ pre) + blen (m1 ++ '\n' :: (M ++ m2)))
      = some (⟨pre ++ stripCr m1, width pre, width (trimEnd ws (pre ++ stripCr m1))⟩ ::
          (lines M).map (fun l => ⟨l.2, width (l.2.takeWhile ws), width (trimEnd ws l.2)⟩) ++
          [⟨shownLine (m2 ++ post) B, width ((shownLine (m2 ++ post) B).takeWhile ws), width m2⟩]) := by
  have hm1 : m1 ≠ [] := by rintro rfl; exact hne1 rfl
  have hL2 : '\n' ∉ m2 ++ post := by simp [h2, hpost]
  have hm2 := blen_pos hne2
  have hs1 := blen_pos hne1
  have hs1' := stripCr_le m1
  have hnl : Char.utf8Size '\n' = 1 := by decide
  have hlo : ∀ o, (linesGo o [] M).map Prod.snd = (lines M).map Prod.snd := by
    intro o
    have aux : ∀ (X : Text) o o' acc,
        (linesGo o acc X).map Prod.snd = (linesGo o' acc X).map Prod.snd := by
      intro X
      induction X with
      | nil => intro o o' acc; simp only [linesGo]; split <;> rfl
      | cons c X ih =>
        intro o o' acc
        simp only [linesGo]
        split
        · simp only [List.map_cons]; rw [ih]
        · exact ih _ _ _
    exact aux M o 0 []
  obtain ⟨rest, hr, hrest⟩ := linesGo_block hL2 (by simp [hne2]) hB
    (0 + blen A + blen (pre ++ m1) + 1 + blen M)
  have hcode : A ++ (pre ++ (m1 ++ '\n' :: (M ++ m2)) ++ post) ++ B
      = A ++ ((pre ++ m1) ++ '\n' :: (M ++ (m2 ++ post ++ B))) := by simp [List.append_assoc]
  unfold traceCodeLines lines
  have hl := linesGo_line (L := pre ++ m1) (by simp [hpre, h1]) (M ++ (m2 ++ post ++ B)) (0 + blen A) []
  rw [List.nil_append] at hl
  rw [hcode, linesGo_whole hA, hl, linesGo_whole hM, hr]
  obtain ⟨y, hy, _⟩ := shownLine_keeps (x := m2) (post := post) (B := B) hcr
  rw [rows_append_none]
  · rw [stripCr_append hm1]
    generalize hcd : A ++ ((pre ++ m1) ++ '\n' :: (M ++ (m2 ++ post ++ B))) = code
    have e1 : slice code (blen A) (blen A + blen pre) = some pre := by
      have := slice_mid A pre (m1 ++ '\n' :: (M ++ (m2 ++ post ++ B)))
      rw [← hcd]; simpa [List.append_assoc] using this
    have e2 : slice code (blen A + blen pre + blen m1 + 1 + blen M)
        (blen A + blen pre + blen m1 + 1 + blen M + blen m2) = some m2 := by
      have := slice_mid (A ++ (pre ++ m1) ++ '\n' :: M) m2 (post ++ B)
      rw [← hcd]
      simpa [List.append_assoc, blen_append, blen, hnl, Nat.add_assoc, Nat.add_comm 1] using this
    simp only [rows, List.cons_append]
    rw [if_neg]
    · have r1 : row ws code (blen (A ++ pre)) (blen (A ++ pre) + blen (m1 ++ '\n' :: (M ++ m2)))
          (0 + blen A, pre ++ stripCr m1)
          = some ⟨pre ++ stripCr m1, width pre, width (trimEnd ws (pre ++ stripCr m1))⟩ := by
        simp only [row, rowStart, rowEnd, blen_append, blen, hnl, Nat.zero_add]
        rw [if_pos (by omega), e1]
        simp only [Option.map_some, Option.bind_some]
        rw [if_neg (by omega), if_neg (by omega)]
        rfl
      rw [r1, Option.bind_some, rows_append]
      rw [rows_all (g := fun l => ⟨l.2, width (l.2.takeWhile ws), width (trimEnd ws l.2)⟩)]
      · simp only [Option.bind_some, rows]
        rw [if_neg]
        · have r2 : row ws code (blen (A ++ pre)) (blen (A ++ pre) + blen (m1 ++ '\n' :: (M ++ m2)))
              (0 + blen A + blen (pre ++ m1) + 1 + blen M, shownLine (m2 ++ post) B)
              = some ⟨shownLine (m2 ++ post) B, width ((shownLine (m2 ++ post) B).takeWhile ws),
                  width m2⟩ := by
            have hlen : blen m2 ≤ blen (shownLine (m2 ++ post) B) := by
              rw [hy, blen_append]; omega
            simp only [row, rowStart, rowEnd, blen_append, blen, hnl, Nat.zero_add]
            rw [if_neg (by omega)]
            simp only [Option.bind_some]
            rw [if_pos (by omega)]
            have ea : blen A + blen pre + (blen m1 + (1 + (blen M + blen m2)))
                = blen A + blen pre + blen m1 + 1 + blen M + blen m2 := by omega
            have eb : blen A + (blen pre + blen m1) + 1 + blen M
                = blen A + blen pre + blen m1 + 1 + blen M := by omega
            rw [ea, eb, e2]; rfl
          rw [r2, rows_outside]
          · have := hlo (0 + blen A + blen (pre ++ m1) + 1)
            have hmap : ∀ (xs ys : List (Nat × Text)), xs.map Prod.snd = ys.map Prod.snd →
                xs.map (fun l => (⟨l.2, width (l.2.takeWhile ws), width (trimEnd ws l.2)⟩ : Row))
                = ys.map (fun l => ⟨l.2, width (l.2.takeWhile ws), width (trimEnd ws l.2)⟩) := by
              intro xs ys h
              have := congrArg
                (List.map fun t => (⟨t, width (t.takeWhile ws), width (trimEnd ws t)⟩ : Row)) h
              simpa [List.map_map, Function.comp_def] using this
            have hmm := hmap _ _ this
            simp only [Option.bind_some, Option.map_some]
            rw [hmm]
            rfl
          · intro l hl
            have := hrest l hl
            simp only [outside, blen_append, blen, hnl, Bool.or_eq_true, decide_eq_true_eq] at this ⊢
            omega
        · simp only [outside, blen_append, blen, hnl, Bool.or_eq_true, decide_eq_true_eq]; omega
      · intro l hl
        have := linesGo_whole_lt hM hl
        rw [blen_append] at this
        refine ⟨?_, ?_⟩
        · simp only [outside, blen_append, blen, hnl, Bool.or_eq_false_iff, decide_eq_false_iff_not]
          omega
        · simp only [row, rowStart, rowEnd, blen_append, blen, hnl]
          rw [if_neg (by omega)]
          simp only [Option.bind_some]
          rw [if_neg (by omega), if_neg (by omega)]
          rfl
    · simp only [outside, blen_append, blen, hnl, Bool.or_eq_true, decide_eq_true_eq]; omega
  · intro l hl
    have := (linesGo_whole_lt hA hl).2
    simp only [outside, blen_append, Bool.or_eq_true, decide_eq_true_eq]; omega

/-- **C63, end of input**: an error at the end of a text is marked in the column after the last line. -/
theorem end_marked (ws : Char → Bool) {A L : Text} (hA : Whole A) (hL : '\n' ∉ L) (hne : L ≠ []) :
    traceCodeLines ws (A ++ L) (blen (A ++ L)) (blen (A ++ L) + 1)
      = some [⟨L, width L, width L + 1⟩] := by
  unfold traceCodeLines lines
  rw [linesGo_whole hA, linesGo_last hL _ _ (by simpa using hne), rows_append_none]
  · have e1 : slice (A ++ L) (blen A) (blen A + blen L) = some L := by
      have := slice_mid A L []
      simpa using this
    simp only [rows, List.nil_append]
    rw [if_neg]
    · simp only [row, rowStart, rowEnd, Nat.zero_add, blen_append]
      rw [if_pos (by omega), e1]
      simp only [Option.map_some, Option.bind_some]
      rw [if_neg (by omega)]
      simp
    · simp only [outside, blen_append, Bool.or_eq_true, decide_eq_true_eq, Nat.zero_add]; omega
  · intro l hl
    have := (linesGo_whole_lt hA hl).2
    simp only [outside, blen_append, Bool.or_eq_true, decide_eq_true_eq]; omega

/-- Nothing is shown for an error after the last line feed. -/
theorem end_after_line (ws : Char → Bool) {A : Text} (hA : Whole A) :
    traceCodeLines ws A (blen A) (blen A + 1) = some [] := by
  unfold traceCodeLines lines
  refine rows_outside ?_
  intro l hl
  have := (linesGo_whole_lt hA hl).2
  simp only [outside, Bool.or_eq_true, decide_eq_true_eq]; omega

/-! ### What is written -/

/-- The heading: the location and the column. -/
def heading (num : Nat → Text) (loc : Text) (col : Nat) : Text :=
  ['-', '-', '>', ' '] ++ loc ++ [':'] ++ num col ++ ['\n']

/-- **C63, written text**: for a span in one line, the message is the heading, the line, and below it as
many blanks as the line is wide before the span followed by as many `^` as the span is wide. A note follows
after a blank. -/
theorem printed_partial (ws : Char → Bool) (num : Nat → Text) {A pre mid post B : Text} (loc : Text)
    (desc : Option Text) (hA : Whole A) (hB : After B) (hpre : '\n' ∉ pre) (hmid : '\n' ∉ mid)
    (hpost : '\n' ∉ post) (hne : mid ≠ []) (hcr : mid.getLast? ≠ some '\r')
    (hw : width pre ≤ 10000) :
    print ws num ⟨loc, A ++ (pre ++ mid ++ post) ++ B, desc, blen (A ++ pre), blen mid⟩ = some (
      heading num loc (width pre) ++
      [' ', '|', ' '] ++ shownLine (pre ++ mid ++ post) B ++ ['\n'] ++
      [' ', '|', ' '] ++ List.replicate (width pre) ' ' ++ List.replicate (width mid) '^' ++
        (desc.map (' ' :: ·)).getD [] ++ ['\n']) := by
  have hm := blen_pos hne
  have hwm := width_pos hne
  unfold print shown srcLines
  dsimp only
  rw [if_pos hm, line_marked ws hA hB hpre hmid hpost hne hcr]
  simp only [Option.map_some, bounds, List.foldl_cons, List.foldl_nil, List.head?_cons,
    Option.getD_some, List.map_cons, List.map_nil]
  have e1 : min 10000 (width pre) = width pre := Nat.min_eq_right hw
  have e2 : max 0 (width pre + width mid) = width pre + width mid := Nat.max_eq_right (Nat.zero_le _)
  rw [e1, e2, markOf]
  dsimp only
  rw [if_pos (by omega), Nat.add_sub_cancel_left]
  cases desc <;> simp [render, markText, barLine, heading, descText]

/-- Without tabs, the `^` are below the characters of the span. -/
theorem width_eq_length {s : Text} (h : '\t' ∉ s) : width s = s.length := by
  induction s with
  | nil => rfl
  | cons c s ih =>
    have hc : c ≠ '\t' := fun e => h (by simp [e])
    simp only [width, List.length_cons]
    rw [if_neg hc, ih fun hm => h (List.mem_cons_of_mem _ hm)]; omega

/-- A tab is four columns wide, any other character one. -/
theorem width_tabs (s : Text) : width s = s.length + 3 * s.count '\t' := by
  induction s with
  | nil => rfl
  | cons c s ih =>
    simp only [width, List.length_cons, List.count_cons, beq_iff_eq]
    split <;> omega

/-- **C63, fails beyond column 10000**: whatever the span, the marks start at column 10000 at the
latest, so a span further right is marked together with all that is between. -/
theorem far_column (ws : Char → Bool) {A pre mid post B : Text} (loc : Text) (desc : Option Text)
    (hA : Whole A) (hB : After B) (hpre : '\n' ∉ pre) (hmid : '\n' ∉ mid)
    (hpost : '\n' ∉ post) (hne : mid ≠ []) (hcr : mid.getLast? ≠ some '\r')
    (hw : 10000 < width pre) :
    (shown ws ⟨loc, A ++ (pre ++ mid ++ post) ++ B, desc, blen (A ++ pre), blen mid⟩).map Shown.mark
      = some (some (10000, width pre - 10000 + width mid)) := by
  have hm := blen_pos hne
  have hwm := width_pos hne
  unfold shown srcLines
  dsimp only
  rw [if_pos hm, line_marked ws hA hB hpre hmid hpost hne hcr]
  simp only [Option.map_some, bounds, List.foldl_cons, List.foldl_nil]
  have e1 : min 10000 (width pre) = 10000 := Nat.min_eq_left (by omega)
  have e2 : max 0 (width pre + width mid) = width pre + width mid := Nat.max_eq_right (Nat.zero_le _)
  rw [e1, e2, markOf]
  dsimp only
  have e3 : width pre + width mid - 10000 = width pre - 10000 + width mid := by omega
  rw [if_pos (by omega), e3]

/-! ### Printing never fails -/

theorem Boundary.zero (s : Text) : Boundary s 0 := ⟨[], s, rfl, rfl⟩

theorem linesGo_boundary {code : Text} : ∀ {X : Text} {o acc p}, p ∈ linesGo o acc X →
    (∃ x, code = x ++ (acc ++ X) ∧ blen x = o) → Boundary code p.1 := by
  intro X
  induction X with
  | nil =>
    intro o acc p h ⟨x, hx, ho⟩
    simp only [linesGo] at h
    split at h
    · cases h
    · simp only [List.mem_singleton] at h; subst h; exact ⟨x, _, hx, ho⟩
  | cons c X ih =>
    intro o acc p h ⟨x, hx, ho⟩
    simp only [linesGo] at h
    split at h
    · rename_i hc
      rcases List.mem_cons.1 h with h | h
      · subst h; exact ⟨x, _, hx, ho⟩
      · refine ih h ⟨x ++ acc ++ ['\n'], ?_, ?_⟩
        · rw [hx, hc]; simp
        · rw [blen_append, blen_append, blen_nl, ho]
    · exact ih h ⟨x, by rw [hx]; simp, ho⟩

theorem row_some (ws : Char → Bool) {code : Text} {start stop : Nat} {l : Nat × Text}
    (hl : Boundary code l.1) (hle : l.1 + blen l.2 ≤ blen code) (hs : Boundary code start)
    (he : Boundary code stop ∨ blen code < stop) (hin : outside start stop l = false) :
    ∃ r, row ws code start stop l = some r := by
  simp only [outside, Bool.or_eq_false_iff, decide_eq_false_iff_not] at hin
  obtain ⟨s, hs'⟩ : ∃ s, rowStart ws code l.1 l.2 start = some s := by
    unfold rowStart
    split
    · rename_i h
      obtain ⟨t, ht⟩ := slice_some hl hs h
      exact ⟨width t, by rw [ht]; rfl⟩
    · exact ⟨_, rfl⟩
  obtain ⟨e, he'⟩ : ∃ e, rowEnd ws code l.1 l.2 start stop s = some e := by
    unfold rowEnd
    split
    · rename_i h
      rcases he with he | he
      · obtain ⟨t, ht⟩ := slice_some hl he (by omega)
        exact ⟨width t, by rw [ht]; rfl⟩
      · omega
    · split
      · exact ⟨_, rfl⟩
      · exact ⟨_, rfl⟩
  exact ⟨⟨l.2, s, e⟩, by unfold row; rw [hs', Option.bind_some, he']; rfl⟩

/-- **C63, no failure**: an error can be printed whenever its span starts between two characters and ends
between two characters or beyond the end of the text. -/
theorem print_some (ws : Char → Bool) (num : Nat → Text) (t : Trace) (hs : Boundary t.source t.start)
    (he : Boundary t.source (t.start + t.len) ∨ blen t.source < t.start + t.len) :
    ∃ out, print ws num t = some out := by
  obtain ⟨rs, hr⟩ : ∃ rs, srcLines ws t = some rs := by
    unfold srcLines
    split
    · unfold traceCodeLines
      have hall : ∀ l ∈ lines t.source, Boundary t.source l.1 ∧ l.1 + blen l.2 ≤ blen t.source := by
        intro l hl
        refine ⟨linesGo_boundary (code := t.source) hl ⟨[], by simp, rfl⟩, ?_⟩
        have := (linesGo_mem hl).2
        simpa [blen] using this
      generalize lines t.source = ls at hall
      induction ls with
      | nil => exact ⟨[], rfl⟩
      | cons l ls ih =>
        obtain ⟨rs, hr⟩ := ih fun l hl => hall l (List.mem_cons_of_mem _ hl)
        simp only [rows]
        split
        · exact ⟨rs, hr⟩
        · rename_i hout
          obtain ⟨r, hr'⟩ := row_some ws (hall l (by simp)).1 (hall l (by simp)).2 hs he
            (Bool.eq_false_iff.2 hout)
          exact ⟨r :: rs, by rw [hr', hr]; rfl⟩
    · exact ⟨_, rfl⟩
  exact ⟨_, by unfold print shown; rw [hr]; rfl⟩

/-- A parse error at a piece of the text, or at its end, can be printed. -/
theorem parse_error_prints (ws : Char → Bool) (num : Nat → Text) (loc : Text) (desc : Option Text)
    {x s y : Text} (h : s ≠ [] ∨ y = []) :
    ∃ out, print ws num ⟨loc, x ++ (s ++ y), desc,
      (errorSpan (x ++ (s ++ y)) (blen x) (blen s)).1,
      (errorSpan (x ++ (s ++ y)) (blen x) (blen s)).2⟩ = some out := by
  have hin : Boundary (x ++ (s ++ y)) (blen x + blen s) :=
    ⟨x ++ s, y, by simp, blen_append x s⟩
  unfold errorSpan
  split
  · rename_i hz
    have hs : s = [] := blen_zero hz.1
    have hy : y = [] := h.resolve_left fun hn => hn hs
    subst hs hy
    exact print_some ws num _ ⟨x, [], by simp, rfl⟩ (.inr (by simp))
  · exact print_some ws num _ ⟨x, s ++ y, rfl, rfl⟩ (.inl hin)

/-! ### Concrete cases -/

/-- The white space of the examples. -/
def blank (c : Char) : Bool := c = ' ' || c = '\t' || c = '\n' || c = '\r'

/-- `in \té | foo` on the second line: the span is `é`, after a tab. -/
example : Whole ['a', '\n'] ∧ After ['\n', 'b'] ∧
    traceCodeLines blank (['a', '\n'] ++ (['i', ' ', '\t'] ++ ['é'] ++ [' ', '|', '\r']) ++ ['\n', 'b'])
      5 7 = some [⟨['i', ' ', '\t', 'é', ' ', '|'], 6, 7⟩] :=
  ⟨.inr ⟨['a'], rfl⟩, .inr ⟨['b'], rfl⟩,
    line_marked blank (A := ['a', '\n']) (pre := ['i', ' ', '\t']) (mid := ['é'])
      (post := [' ', '|', '\r']) (B := ['\n', 'b']) (.inr ⟨['a'], rfl⟩) (.inr ⟨['b'], rfl⟩)
      (by decide) (by decide) (by decide) (by decide) (by decide)⟩

/-- The last example of `trace_code_lines_test`, `err.rs:884-887`. -/
example : traceCodeLines blank
    (['H', 'e', 'l', 'l', 'o', '\n', 'W', 'o', 'r', 'l', 'd', '\n', 'L', 'o', 'o', 'k', ' ', 'h'])
      2 16 = some [⟨['H', 'e', 'l', 'l', 'o'], 2, 5⟩, ⟨['W', 'o', 'r', 'l', 'd'], 0, 5⟩,
        ⟨['L', 'o', 'o', 'k', ' ', 'h'], 0, 4⟩] :=
  lines_marked blank (A := []) (pre := ['H', 'e']) (m1 := ['l', 'l', 'o'])
    (M := ['W', 'o', 'r', 'l', 'd', '\n']) (m2 := ['L', 'o', 'o', 'k']) (post := [' ', 'h']) (B := [])
    (.inl rfl) (.inl rfl) (.inr ⟨['W', 'o', 'r', 'l', 'd'], rfl⟩) (by decide) (by decide) (by decide)
    (by decide) (by decide) (by decide) (by decide)

/-- `trace_code_single_mark`, `err.rs:891-894`. -/
example : traceCodeLines blank ['i', 'n', ' ', '|', ' '] 5 6
    = some [⟨['i', 'n', ' ', '|', ' '], 5, 6⟩] :=
  end_marked blank (A := []) (L := ['i', 'n', ' ', '|', ' ']) (.inl rfl) (by decide) (by decide)

/-- `printing_error_traces_basic`, `err.rs:897-914`. -/
example : print blank (fun n => (toString n).toList) ⟨['s'], ['H', 'e', 'l', 'l', 'o'], none, 3, 2⟩
    = some (['-', '-', '>', ' ', 's', ':', '3', '\n', ' ', '|', ' ', 'H', 'e', 'l', 'l', 'o', '\n',
        ' ', '|', ' ', ' ', ' ', ' ', '^', '^', '\n']) := by decide

/-- **C63, fails**: a span of no bytes in front of a character of two bytes would be widened by one byte
and end inside that character, which panics. No error of the parser has such a span: its spans are empty
only at the end of the text. -/
theorem empty_span_panics (num : Nat → Text) (desc : Option Text) :
    print blank num ⟨[], ['é'], desc, (errorSpan ['é'] 0 0).1, (errorSpan ['é'] 0 0).2⟩ = none := by
  have h : traceCodeLines blank ['é'] 0 1 = none := by decide
  simp only [print, shown, srcLines, errorSpan]
  rw [if_pos (by decide), if_pos (by decide)]
  dsimp only
  rw [h]; rfl

/-- **C63, fails**: an error on the line feed of a Windows line ending shows no line at all. -/
theorem line_feed_hidden : traceCodeLines blank ['a', '\r', '\n', 'b'] 2 3 = some [] := by decide

/-- A span after 10001 characters: two marks, the first below the character before. -/
example (desc : Option Text) :
    ∃ pre : Text, width pre = 10001 ∧
    (shown blank ⟨[], [] ++ (pre ++ ['b'] ++ []) ++ [], desc, blen ([] ++ pre), blen ['b']⟩).map
      Shown.mark = some (some (10000, 2)) := by
  have hr : ∀ n, width (List.replicate n 'a') = n ∧ '\n' ∉ List.replicate n 'a' := by
    intro n
    induction n with
    | zero => exact ⟨rfl, by simp⟩
    | succ n ih =>
      rw [List.replicate_succ]
      refine ⟨?_, ?_⟩
      · simp only [width, ih.1]; rw [if_neg (by decide)]; omega
      · intro h
        rcases List.mem_cons.1 h with h | h
        · exact absurd h (by decide)
        · exact ih.2 h
  generalize hp : List.replicate 10001 'a' = pre
  have hw := hp ▸ hr 10001
  refine ⟨pre, hw.1, ?_⟩
  have := far_column blank (A := []) (pre := pre) (mid := ['b']) (post := [])
    (B := []) [] desc (.inl rfl) (.inl rfl) hw.2 (by decide) (by decide) (by decide) (by decide)
    (by rw [hw.1]; decide)
  rw [this, hw.1]; rfl

end Verif.Trace
