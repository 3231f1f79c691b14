import Verif.Spec.LsText
import Verif.Props.Trace
import Verif.Props.LsDoc

/-!
# C64: the server's copy of a document is the client's text
# C65: completions and hovers look at the definition around the cursor
# C66: completions for the path being typed
-/

namespace Verif.LsText
open Verif.Trace

/-! ### Points in a text -/

theorem units_pos (c : Char) : 0 < u16 c := by unfold u16; split <;> omega

theorem linechGo_prefix (L R : Text) : ∀ u b, linechGo (u + units L) u b (L ++ R) = b + blen L := by
  induction L with
  | nil =>
    intro u b
    cases R with
    | nil => simp [linechGo, blen]
    | cons c R => simp [linechGo, units, blen]
  | cons c L ih =>
    intro u b
    have := units_pos c
    simp only [List.cons_append, linechGo, units, blen]
    rw [if_neg (by omega), ← Nat.add_assoc, ih]; omega

theorem linech_prefix (L R : Text) : linechToIdx (L ++ R) (units L) = blen L := by
  have := linechGo_prefix L R 0 0
  simpa [linechToIdx] using this

theorem linech_past {L : Text} {ch : Nat} (h : units L ≤ ch) : linechToIdx L ch = blen L := by
  have aux : ∀ (L : Text) u b, u + units L ≤ ch → linechGo ch u b L = b + blen L := by
    intro L
    induction L with
    | nil => intro u b _; simp [linechGo, blen]
    | cons c L ih =>
      intro u b h
      have := units_pos c
      simp only [units] at h
      simp only [linechGo, blen]
      rw [if_neg (by omega), ih _ _ (by omega)]; omega
  have := aux L 0 0 (by omega)
  simpa [linechToIdx] using this

theorem lastLine_split (x : Text) :
    ∃ A, x = A ++ lastLine x ∧ Whole A ∧ '\n' ∉ lastLine x ∧ A.count '\n' = x.count '\n' := by
  have hno : '\n' ∉ lastLine x := by
    unfold lastLine
    intro h
    have := List.mem_reverse.1 h
    have aux : ∀ l : Text, '\n' ∉ l.takeWhile (· ≠ '\n') := by
      intro l
      induction l with
      | nil => simp
      | cons c l ih =>
        rw [List.takeWhile_cons]
        split
        · rename_i hc
          intro hm
          rcases List.mem_cons.1 hm with e | hm
          · rw [← e] at hc; simp at hc
          · exact ih hm
        · simp
    exact aux _ this
  refine ⟨(x.reverse.dropWhile (· ≠ '\n')).reverse, ?_, ?_, hno, ?_⟩
  · unfold lastLine
    rw [← List.reverse_append, List.takeWhile_append_dropWhile, List.reverse_reverse]
  · cases hd : x.reverse.dropWhile (· ≠ '\n') with
    | nil => left; rfl
    | cons c l =>
      right
      have hc : c = '\n' := by
        have := List.head?_dropWhile_not (p := fun c : Char => decide (c ≠ '\n')) x.reverse
        rw [hd] at this
        simpa using this
      exact ⟨l.reverse, by simp [hc]⟩
  · have e : x = (x.reverse.dropWhile (· ≠ '\n')).reverse ++ lastLine x := by
      unfold lastLine
      rw [← List.reverse_append, List.takeWhile_append_dropWhile, List.reverse_reverse]
    have hc := congrArg (List.count '\n') e
    rw [List.count_append, List.count_eq_zero.2 hno] at hc
    omega

theorem rest_split (y : Text) : ∃ R B, y = R ++ B ∧ '\n' ∉ R ∧ After B := by
  induction y with
  | nil => exact ⟨[], [], rfl, by simp, .inl rfl⟩
  | cons c y ih =>
    by_cases hc : c = '\n'
    · exact ⟨[], c :: y, rfl, by simp, .inr ⟨y, by rw [hc]⟩⟩
    · obtain ⟨R, B, hy, hR, hB⟩ := ih
      refine ⟨c :: R, B, by rw [hy]; rfl, ?_, hB⟩
      intro hm
      rcases List.mem_cons.1 hm with e | hm
      · exact hc e.symm
      · exact hR hm

theorem linesGo_count {A : Text} : ∀ o acc, (linesGo o acc (A ++ ['\n'])).length = A.count '\n' + 1 := by
  induction A with
  | nil => intro o acc; simp [linesGo]
  | cons c A ih =>
    intro o acc
    simp only [List.cons_append, linesGo]
    split
    · rename_i hc
      rw [List.length_cons, ih, hc, List.count_cons_self]
    · rename_i hc
      rw [ih, List.count_cons_of_ne hc]

theorem lines_whole_length {A : Text} (h : Whole A) (o : Nat) :
    (linesGo o [] A).length = A.count '\n' := by
  rcases h with rfl | ⟨A', rfl⟩
  · simp [linesGo]
  · rw [linesGo_count, List.count_append]; simp

/-- The line around a point: present unless the text ends right there after a line feed. -/
theorem line_at {A L B : Text} (hA : Whole A) (hL : '\n' ∉ L) (hB : After B) :
    (lines (A ++ (L ++ B)))[A.count '\n']? =
      if L ++ B = [] then none else some (blen A, shownLine L B) := by
  unfold lines
  rw [linesGo_whole hA, List.getElem?_append_right (by rw [lines_whole_length hA]; omega),
    lines_whole_length hA, Nat.sub_self, Nat.zero_add]
  by_cases hne : L = []
  · subst hne
    rcases hB with rfl | ⟨B', rfl⟩
    · simp [linesGo]
    · simp [linesGo, shownLine, stripCr]
  · obtain ⟨rest, hr, _⟩ := linesGo_block hL hne hB (blen A)
    rw [hr, if_neg (by simp [hne])]; rfl

theorem getLast?_suffix {A L : Text} {c : Char} (h : L.getLast? = some c) :
    (A ++ L).getLast? = some c := by
  rw [List.getLast?_append, h]; rfl

/-- **C64, positions**: the position between `x` and `y` is the byte after `x`. -/
theorem pos_exact {x y : Text} {p : Pos} (h : At x y p) : posToIdx (x ++ y) p = blen x := by
  obtain ⟨A, hx, hA, hL, hcount⟩ := lastLine_split x
  generalize hLx : lastLine x = L at hx hL
  obtain ⟨R, B, hy, hR, hB⟩ := rest_split y
  have hch := h.ch
  rw [hLx] at hch
  have hT : x ++ y = A ++ ((L ++ R) ++ B) := by rw [hx, hy]; simp [List.append_assoc]
  have hLR : '\n' ∉ L ++ R := by simp [hL, hR]
  have hline := line_at hA hLR hB
  rw [← hT, hcount, ← h.line] at hline
  have hbx : blen x = blen A + blen L := by rw [hx, blen_append]
  unfold posToIdx
  by_cases hnil : L ++ R ++ B = []
  · rw [if_pos hnil] at hline
    rw [hline]
    dsimp only
    rw [hT, hnil, List.append_nil, hbx]
    have : L = [] := by
      rw [List.append_assoc] at hnil; exact (List.append_eq_nil_iff.1 hnil).1
    rw [this]; simp [blen]
  · rw [if_neg hnil] at hline
    rw [hline]
    dsimp only
    have hkeep : ∃ R', shownLine (L ++ R) B = L ++ R' := by
      by_cases hRn : R = []
      · refine ⟨[], ?_⟩
        rw [hRn, List.append_nil]
        unfold shownLine
        split
        · rfl
        · rename_i hBne
          refine stripCr_none ?_
          intro hl
          refine h.eol ⟨?_, ?_⟩
          · rw [hx]; exact getLast?_suffix hl
          · rcases hB with rfl | ⟨B', rfl⟩
            · exact absurd rfl hBne
            · rw [hy, hRn]; rfl
      · exact ⟨_, shownLine_append hRn⟩
    obtain ⟨R', hR'⟩ := hkeep
    rw [hR', hch, linech_prefix, hbx]

/-- **C64, past the end of a line**: a position further right than its line is the end of the line. -/
theorem pos_past_line {x y : Text} {p : Pos} (hy : y = [] ∨ (∃ z, y = '\n' :: z) ∨ ∃ z, y = '\r' :: '\n' :: z)
    (hline : p.line = x.count '\n') (hch : units (lastLine x) ≤ p.ch) (heol : Splits x y) :
    posToIdx (x ++ y) p = blen x := by
  obtain ⟨A, hx, hA, hL, hcount⟩ := lastLine_split x
  generalize hLx : lastLine x = L at hx hL hch
  have hbx : blen x = blen A + blen L := by rw [hx, blen_append]
  have key : ∀ R B, y = R ++ B → '\n' ∉ R → After B →
      ((L ++ R) ++ B ≠ [] → shownLine (L ++ R) B = L) → posToIdx (x ++ y) p = blen x := by
    intro R B hyR hR hB hsh
    have hT : x ++ y = A ++ ((L ++ R) ++ B) := by rw [hx, hyR]; simp [List.append_assoc]
    have hl := line_at hA (by simp [hL, hR] : '\n' ∉ L ++ R) hB
    rw [← hT, hcount, ← hline] at hl
    unfold posToIdx
    by_cases hnil : L ++ R ++ B = []
    · rw [if_pos hnil] at hl
      rw [hl]; dsimp only
      rw [hT, hnil, List.append_nil, hbx]
      have : L = [] := by
        rw [List.append_assoc] at hnil; exact (List.append_eq_nil_iff.1 hnil).1
      rw [this]; simp [blen]
    · rw [if_neg hnil] at hl
      rw [hl]; dsimp only
      rw [hsh hnil, linech_past hch, hbx]
  rcases hy with rfl | ⟨z, rfl⟩ | ⟨z, rfl⟩
  · exact key [] [] rfl (by simp) (.inl rfl) (fun _ => by simp [shownLine])
  · refine key [] ('\n' :: z) rfl (by simp) (.inr ⟨z, rfl⟩) (fun _ => ?_)
    rw [List.append_nil]
    unfold shownLine
    rw [if_neg (by simp)]
    refine stripCr_none fun hl => heol ⟨?_, rfl⟩
    rw [hx]; exact getLast?_suffix hl
  · refine key ['\r'] ('\n' :: z) rfl (by decide) (.inr ⟨z, rfl⟩) (fun _ => ?_)
    unfold shownLine
    rw [if_neg (by simp), stripCr_append (by simp)]
    simp [stripCr]

theorem lines_length_le (X : Text) : ∀ o acc, (linesGo o acc X).length ≤ X.count '\n' + 1 := by
  induction X with
  | nil => intro o acc; simp only [linesGo]; split <;> simp
  | cons c X ih =>
    intro o acc
    simp only [linesGo]
    split
    · rename_i hc
      have := ih (o + blen acc + 1) []
      rw [List.length_cons, hc, List.count_cons_self]; omega
    · rename_i hc
      rw [List.count_cons_of_ne hc]; exact ih _ _

/-- A position below the last line is the end of the text. -/
theorem pos_past_text {s : Text} {p : Pos} (h : s.count '\n' < p.line) : posToIdx s p = blen s := by
  unfold posToIdx
  have hl : (lines s)[p.line]? = none := by
    apply List.getElem?_eq_none
    have := lines_length_le s 0 []
    unfold lines; omega
  rw [hl]

/-- Every point that is not inside a line ending has a position. -/
theorem has_position {x y : Text} (h : Splits x y) :
    At x y ⟨x.count '\n', units (lastLine x)⟩ := ⟨rfl, rfl, h⟩

/-! ### Edits -/

theorem replaceRange_mid (x mid z new : Text) :
    replaceRange (x ++ (mid ++ z)) (blen x) (blen (x ++ mid)) new = some (x ++ (new ++ z)) := by
  unfold replaceRange
  rw [if_pos (by rw [blen_append]; omega), takeBytes_append, ← List.append_assoc, dropBytes_append]
  rfl

theorem replaceRange_all (s new : Text) : replaceRange s 0 (blen s) new = some new := by
  have := replaceRange_mid [] s [] new
  simpa [blen] using this

/-- **C64, edits**: the edits a client made turn the server's copy into the client's text. -/
theorem edits_applied {s t : Text} {es : List Edit} (h : Typed s es t) :
    applyChanges s es = some t := by
  induction h with
  | done t => rfl
  | replace x mid z new p q es t hp hq _ ih =>
    have h1 := pos_exact hp
    have h2 := pos_exact hq
    rw [List.append_assoc] at h2
    simp only [applyChanges, applyEdit]
    rw [h1, h2, replaceRange_mid]; exact ih
  | all s new es t _ ih =>
    simp only [applyChanges, applyEdit]
    rw [replaceRange_all]; exact ih

theorem sent_fold {s t : Text} {bs : List (List Edit)} (h : Sent s bs t) :
    bs.foldl (fun t b => t.bind fun t => applyChanges t b) (some s) = some t := by
  induction h with
  | done t => rfl
  | batch s es t bs u h1 _ ih =>
    simp only [List.foldl_cons, Option.bind_some]
    rw [edits_applied h1]; exact ih

open Verif.LsDoc in
/-- **C64**: whatever the order in which the batches of edits arrive, once all are there the server's
copy of the document is the client's text. A panic while applying would be `none`. -/
theorem copy_is_text {t0 t : Text} {v : Int} {es ds : List (LsDoc.Change (List Edit))}
    (hsent : Sent t0 (es.map (·.changes)) t)
    (hes : es.map (·.version) = (List.range es.length).map (fun i : Nat => v + 1 + (i : Int)))
    (hperm : ds.Perm es) :
    ((Doc.new (some t0) v).receive (fun t b => t.bind fun t => applyChanges t b) ds).text
      = some t := by
  rw [edits_converge _ _ _ _ _ hes hperm]
  have := sent_fold hsent
  rw [List.foldl_map] at this
  exact this

/-- **C64, fails inside a surrogate pair**: a position between the two units of a character is taken for
the end of the line, and a range that starts there panics. -/
theorem split_pair : posToIdx ['𝄞', 'a'] ⟨0, 1⟩ = 5 ∧
    applyChanges ['𝄞', 'a'] [⟨some (⟨0, 1⟩, ⟨0, 2⟩), []⟩] = none := by decide

/-! ### The definition around the cursor -/

theorem joinLines_append (a b : List Text) : joinLines (a ++ b) = joinLines a ++ joinLines b := by
  simp [joinLines]

theorem blen_join (ls : List Text) (n : Nat) :
    ls.foldl (fun x y => x + blen y + 1) n = n + blen (joinLines ls) := by
  induction ls generalizing n with
  | nil => simp [joinLines, blen]
  | cons l ls ih =>
    rw [List.foldl_cons, ih]
    simp only [joinLines, List.map_cons, List.flatten_cons, blen_append, blen_nl]; omega

theorem lines_join {ls : List Text} (h : ∀ l ∈ ls, '\n' ∉ l) (o : Nat) :
    (linesGo o [] (joinLines ls)).map Prod.snd = ls.map stripCr := by
  induction ls generalizing o with
  | nil => simp [joinLines, linesGo]
  | cons l ls ih =>
    have e : joinLines (l :: ls) = l ++ '\n' :: joinLines ls := by simp [joinLines]
    rw [e, linesGo_line (h l (by simp)), List.map_cons, List.map_cons, List.nil_append,
      ih fun l hl => h l (List.mem_cons_of_mem _ hl)]

theorem lines_no_nl {X : Text} : ∀ {o acc}, '\n' ∉ acc → ∀ p ∈ linesGo o acc X, '\n' ∉ p.2 := by
  induction X with
  | nil =>
    intro o acc ha p hp
    simp only [linesGo] at hp
    split at hp
    · cases hp
    · simp only [List.mem_singleton] at hp; subst hp; exact ha
  | cons c X ih =>
    intro o acc ha p hp
    simp only [linesGo] at hp
    split at hp
    · rcases List.mem_cons.1 hp with hp | hp
      · subst hp
        dsimp only
        unfold stripCr
        split
        · exact fun hm => ha (List.dropLast_subset _ hm)
        · exact ha
      · exact ih (by simp) p hp
    · rename_i hc
      exact ih (by simp [ha, Ne.symm hc]) p hp

theorem takeWhile_stop {α} {p : α → Bool} {a : List α} {b : List α} (ha : ∀ x ∈ a, p x = true)
    (hb : ∀ x ∈ b.head?, p x = false) : (a ++ b).takeWhile p = a := by
  induction a with
  | nil =>
    cases b with
    | nil => rfl
    | cons x b => simp [hb x (by simp)]
  | cons x a ih =>
    rw [List.cons_append, List.takeWhile_cons, if_pos (ha x (by simp)),
      ih fun y hy => ha y (List.mem_cons_of_mem _ hy)]

theorem dropWhile_stop {α} {p : α → Bool} {a : List α} {b : List α} (ha : ∀ x ∈ a, p x = true)
    (hb : ∀ x ∈ b.head?, p x = false) : (a ++ b).dropWhile p = b := by
  induction a with
  | nil =>
    cases b with
    | nil => rfl
    | cons x b => simp [hb x (by simp)]
  | cons x a ih =>
    rw [List.cons_append, List.dropWhile_cons, if_pos (ha x (by simp)),
      ih fun y hy => ha y (List.mem_cons_of_mem _ hy)]

theorem takeWhile_zip {p : Text → Bool} (ls : List Text) (n : Nat) :
    (ls.zipIdx n).takeWhile (fun l => p l.1) = (ls.takeWhile p).zipIdx n := by
  induction ls generalizing n with
  | nil => rfl
  | cons l ls ih =>
    simp only [List.zipIdx_cons, List.takeWhile_cons]
    cases p l
    · rfl
    · simp [ih]

/-- The lines of a text, split around the cursor: `before` ends with a blank line, `comments` are the
comment lines on top of the definition, `body` are its lines before the one with the cursor. -/
structure Around (ws : Char → Bool) (s : Text) (before comments body : List Text) (cur : Text)
    (after : List Text) : Prop where
  lines : (lines s).map Prod.snd = before ++ (comments ++ (body ++ cur :: after))
  gap : before = [] ∨ ∃ b l, before = b ++ [l] ∧ isBlank ws l = true
  comment : ∀ l ∈ comments, l.head? = some '#'
  solid : ∀ l ∈ comments ++ body, isBlank ws l = false
  first : ∀ l ∈ body.head?, l.head? ≠ some '#'
  noCr : ∀ l ∈ body ++ [cur], l.getLast? ≠ some '\r'

theorem preLines_around {ws s before comments body cur after}
    (h : Around ws s before comments body cur after) :
    preLines ws (((lines s).map Prod.snd).zipIdx) (before.length + comments.length + body.length)
      = body.zipIdx (before.length + comments.length) := by
  unfold preLines
  rw [h.lines]
  have e : (before ++ (comments ++ (body ++ cur :: after))).zipIdx
      = (before ++ (comments ++ body)).zipIdx ++
        (cur :: after).zipIdx (before.length + comments.length + body.length) := by
    rw [← List.append_assoc comments, ← List.append_assoc before, List.zipIdx_append]
    simp [Nat.add_assoc]
  have hlen : ((before ++ (comments ++ body)).zipIdx).length
      = before.length + comments.length + body.length := by simp [Nat.add_assoc]
  rw [e, List.take_append_of_le_length (by rw [hlen]; omega), List.take_of_length_le (by rw [hlen]; omega)]
  rw [List.zipIdx_append, List.reverse_append]
  have hz : ∀ (ls : List Text) n, ∀ x ∈ ls.zipIdx n, x.1 ∈ ls := by
    intro ls n x hx
    obtain ⟨t, i⟩ := x
    exact List.fst_mem_of_mem_zipIdx hx
  rw [takeWhile_stop]
  · rw [List.reverse_reverse, List.zipIdx_append]
    rw [dropWhile_stop]
    · simp
    · intro x hx
      have := h.comment _ (hz _ _ x hx)
      simp [this]
    · intro x hx
      cases body with
      | nil => simp at hx
      | cons l body =>
        simp only [List.zipIdx_cons, List.head?_cons, Option.mem_def, Option.some.injEq] at hx
        have := h.first l (by simp)
        rw [← hx]
        simpa using this
  · intro x hx
    have := h.solid _ (hz _ _ x (List.mem_reverse.1 hx))
    simp [this]
  · intro x hx
    rcases h.gap with rfl | ⟨b, l, rfl, hl⟩
    · simp at hx
    · rw [List.zipIdx_append, List.reverse_append] at hx
      simp at hx
      rw [← hx]; simp [hl]

/-- **C65, hover and completion**: the text looked at is the definition around the cursor without its
leading comment lines, up to the next blank line, and the cursor is the byte between `x` and `y`. -/
theorem cursor_in_definition_partial {ws s before comments body after} {x y : Text}
    (h : Around ws s before comments body (x ++ y) after) :
    cursorIn ws s ⟨before.length + comments.length + body.length, units x⟩ =
      some (joinLines (body ++ (x ++ y) :: after.takeWhile fun l => !isBlank ws l),
        blen (joinLines body ++ x)) := by
  have hpre := preLines_around h
  generalize hn : before.length + comments.length + body.length = n at hpre
  have hpost : postLines ws (((lines s).map Prod.snd).zipIdx) n
      = ((x ++ y) :: after.takeWhile fun l => !isBlank ws l).zipIdx n := by
    unfold postLines
    have e : ((lines s).map Prod.snd).zipIdx
        = (before ++ (comments ++ body)).zipIdx ++ ((x ++ y) :: after).zipIdx n := by
      rw [h.lines, ← List.append_assoc comments, ← List.append_assoc before, List.zipIdx_append]
      simp [← hn, Nat.add_assoc]
    have hlen : ((before ++ (comments ++ body)).zipIdx).length = n := by simp [← hn, Nat.add_assoc]
    rw [e, List.drop_append_of_le_length (by rw [hlen]; omega), List.drop_of_length_le (by rw [hlen]; omega),
      List.nil_append, List.zipIdx_cons]
    simp only
    rw [List.zipIdx_cons, ← takeWhile_zip (p := fun l => !isBlank ws l)]
  have hall : preLines ws (((lines s).map Prod.snd).zipIdx) n
      ++ postLines ws (((lines s).map Prod.snd).zipIdx) n
      = (body ++ (x ++ y) :: after.takeWhile fun l => !isBlank ws l).zipIdx
        (before.length + comments.length) := by
    rw [hpre, hpost, List.zipIdx_append, hn]
  have hget : getDefText ws s n = (before.length + comments.length,
      joinLines (body ++ (x ++ y) :: after.takeWhile fun l => !isBlank ws l)) := by
    unfold getDefText
    dsimp only
    rw [hall]
    refine Prod.ext ?_ ?_
    · cases body <;> simp [List.zipIdx_cons]
    · simp only [List.zipIdx_map_fst]
  unfold cursorIn
  dsimp only
  rw [hget]
  dsimp only
  have hnl : ∀ l ∈ body ++ (x ++ y) :: after.takeWhile (fun l => !isBlank ws l), '\n' ∉ l := by
    intro l hl
    have hm : l ∈ (lines s).map Prod.snd := by
      rw [h.lines]
      rcases List.mem_append.1 hl with hl | hl
      · simp [hl]
      · rcases List.mem_cons.1 hl with hl | hl
        · simp [hl]
        · have := List.takeWhile_subset _ hl; simp [this]
    obtain ⟨p, hp, rfl⟩ := List.mem_map.1 hm
    exact lines_no_nl (by simp) p hp
  have hsub : n - (before.length + comments.length) = body.length := by omega
  unfold lines
  rw [lines_join hnl, hsub, List.map_append, List.map_cons]
  have hb : body.map stripCr = body := by
    have : ∀ l ∈ body, stripCr l = l := fun l hl => stripCr_none (h.noCr l (by simp [hl]))
    calc body.map stripCr = body.map id := List.map_congr_left this
      _ = body := List.map_id _
  have hc : stripCr (x ++ y) = x ++ y := stripCr_none (h.noCr _ (by simp))
  rw [hb, hc, List.getElem?_append_right (Nat.le_refl _), Nat.sub_self, List.getElem?_cons_zero,
    Option.map_some, linech_prefix, List.take_left, blen_join, blen_append, Nat.add_comm]

/-- **C65, completion**: completions are looked up for the definition up to the cursor. -/
theorem completion_text_partial {ws s before comments body after} {x y : Text}
    (h : Around ws s before comments body (x ++ y) after) :
    completionInput ws s ⟨before.length + comments.length + body.length, units x⟩
      = .done (joinLines body ++ x) := by
  unfold completionInput
  rw [cursor_in_definition_partial h]
  dsimp only
  have e : joinLines (body ++ (x ++ y) :: after.takeWhile fun l => !isBlank ws l)
      = (joinLines body ++ x) ++ (y ++ '\n' :: joinLines (after.takeWhile fun l => !isBlank ws l)) := by
    rw [joinLines_append]; simp [joinLines]
  rw [e, takeBytes_append]

/-! ### The path being typed -/

theorem isQuote_iff (c : Char) : isQuote c = true ↔ Quote c := by
  unfold isQuote Quote; simp [or_comm]

theorem quoteGo_closed {s : Text} (h : Closed s) (t : Text) : quoteGo none (s ++ t) = quoteGo none t := by
  induction h with
  | nil => rfl
  | plain c s hc _ ih =>
    simp only [List.cons_append, quoteGo]
    rw [if_neg (fun h => hc ((isQuote_iff c).1 h))]; exact ih
  | quoted q b s hq hb _ ih =>
    have aux : ∀ (b : Text) (r : Text), q ∉ b → quoteGo (some (q, r)) (b ++ q :: (s ++ t))
        = quoteGo none (s ++ t) := by
      intro b
      induction b with
      | nil => intro r _; simp [quoteGo]
      | cons c b ihb =>
        intro r hb
        have hc : q ≠ c := fun e => hb (by simp [e])
        simp only [List.cons_append, quoteGo]
        rw [if_neg hc, ihb r fun hm => hb (List.mem_cons_of_mem _ hm)]
    simp only [List.cons_append, quoteGo, List.append_assoc]
    rw [if_pos ((isQuote_iff q).2 hq), aux b _ hb, ih]

theorem quoteGo_open {q : Char} {b r : Text} (hb : q ∉ b) : quoteGo (some (q, r)) b = some (q, r) := by
  induction b with
  | nil => rfl
  | cons c b ih =>
    have hc : q ≠ c := fun e => hb (by simp [e])
    simp only [quoteGo]
    rw [if_neg hc, ih fun hm => hb (List.mem_cons_of_mem _ hm)]

/-- **C66, in quotes**: with an open quote, the path being typed is all from that quote on. -/
theorem path_in_quotes {s b : Text} {q : Char} (hs : Closed s) (hq : Quote q) (hb : q ∉ b) :
    pathComponent (s ++ q :: b) = q :: b := by
  unfold pathComponent
  rw [quoteGo_closed hs]
  simp only [quoteGo]
  rw [if_pos ((isQuote_iff q).2 hq), quoteGo_open hb]

/-- **C66, bare**: otherwise it is what follows the last space. -/
theorem path_bare {s w : Text} (h : Closed (s ++ ' ' :: w)) (hw : ' ' ∉ w) :
    pathComponent (s ++ ' ' :: w) = w := by
  unfold pathComponent
  have := quoteGo_closed h []
  rw [List.append_nil] at this
  rw [this]
  simp only [quoteGo, lastWord]
  rw [List.reverse_append, List.reverse_cons, List.append_assoc, takeWhile_stop]
  · simp
  · intro x hx
    have : x ∈ w := List.mem_reverse.1 hx
    have hne : x ≠ ' ' := fun e => hw (e ▸ this)
    simp [hne]
  · intro x hx
    simp at hx
    simp [← hx]

/-- **C66, one word**: if there is no space, it is all of the input. -/
theorem path_word {w : Text} (h : Closed w) (hw : ' ' ∉ w) : pathComponent w = w := by
  unfold pathComponent
  have := quoteGo_closed h []
  rw [List.append_nil] at this
  rw [this]
  simp only [quoteGo, lastWord]
  have e := takeWhile_stop (p := fun c : Char => decide (c ≠ ' ')) (a := w.reverse) (b := []) (by
    intro x hx
    have : x ∈ w := List.mem_reverse.1 hx
    have hne : x ≠ ' ' := fun e => hw (e ▸ this)
    simp [hne]) (by simp)
  rw [List.append_nil] at e
  rw [e, List.reverse_reverse]

/-- Every input is in one of these cases. -/
theorem closed_or_open (s : Text) : Closed s ∨
    ∃ a q b, s = a ++ q :: b ∧ Closed a ∧ Quote q ∧ q ∉ b := by
  generalize hn : s.length = n
  induction n using Nat.strongRecOn generalizing s with
  | _ n ih =>
    cases s with
    | nil => exact .inl .nil
    | cons c s =>
      by_cases hc : Quote c
      rotate_left
      ·
        rcases ih s.length (by simp at hn; omega) s rfl with h | ⟨a, q, b, hs, ha, hq, hb⟩
        · exact .inl (.plain c s hc h)
        · exact .inr ⟨c :: a, q, b, by rw [hs]; rfl, .plain c a hc ha, hq, hb⟩
      ·
        by_cases hm : c ∈ s
        · obtain ⟨b, t, hb, hst⟩ : ∃ b t, c ∉ b ∧ s = b ++ c :: t := by
            clear ih hn
            induction s with
            | nil => cases hm
            | cons d s ihs =>
              by_cases hd : d = c
              · exact ⟨[], s, by simp, by rw [hd]; rfl⟩
              · have hms : c ∈ s := by
                  rcases List.mem_cons.1 hm with e | e
                  · exact absurd e.symm hd
                  · exact e
                obtain ⟨b, t, hb, hst⟩ := ihs hms
                exact ⟨d :: b, t, by simp [Ne.symm hd, hb], by rw [hst]; rfl⟩
          rcases ih t.length (by simp [hst] at hn; omega) t rfl with h | ⟨a, q, b', ht, ha, hq, hb'⟩
          · exact .inl (by rw [hst]; exact .quoted c b t hc hb h)
          · refine .inr ⟨c :: (b ++ c :: a), q, b', ?_, .quoted c b a hc hb ha, hq, hb'⟩
            rw [hst, ht]; simp
        · exact .inr ⟨[], c, s, rfl, .nil, hc, hm⟩

/-! ### Asking for completions -/

theorem opIdent_name {k : Classes} (hk : Laws k) {c : Char} {s r : Text} (hc : k.alpha c = true)
    (hs : ∀ d ∈ s, k.alnum d = true) (hr : ∀ d ∈ r.head?, (k.alnum d || d == '-' || d == '_') = false) :
    opIdent k (c :: s ++ r) = some r := by
  simp only [List.cons_append, opIdent]
  rw [if_pos hc]
  have e := dropWhile_stop (p := fun c => k.alnum c || c == '-' || c == '_') (a := c :: s) (b := r) (by
    intro d hd
    rcases List.mem_cons.1 hd with e | hd
    · rw [e]; simp [hk.alnum c hc]
    · simp [hs d hd]) hr
  rw [List.cons_append] at e
  rw [e, if_neg]
  intro h
  have := congrArg List.length h
  simp at this; omega

/-- **C66, fails**: asking for completions right after a command name and a `/` panics, whatever the
name. -/
theorem slash_panics {k : Classes} (hk : Laws k) (later : Text → Reply (List Items)) {c : Char}
    {s : Text} (hc : k.alpha c = true) (hs : ∀ d ∈ s, k.alnum d = true) :
    get k later (c :: s ++ ['/']) = .panic := by
  have hsym : ∀ d ∈ ['\\', '+', '-', '*', '×', '/', '÷', '=', '>', '<', '.', '!'], c ≠ d := by
    intro d hd e
    have := hk.symbols d hd
    rw [← e, hc] at this; cases this
  have hop : isSpecOp (c :: s ++ ['/']) = false := by
    have h := hsym
    simp only [List.mem_cons, List.not_mem_nil, or_false, forall_eq_or_imp, forall_eq] at h
    obtain ⟨d, t, ht⟩ : ∃ d t, s ++ ['/'] = d :: t := by cases s <;> simp
    rw [List.cons_append, ht]
    simp [isSpecOp, h]
  unfold get
  rw [if_neg (by rw [hop]; decide)]
  have hne : c ≠ '/' := hsym '/' (by simp)
  have hid := opIdent_name hk hc hs (r := ['/']) (by simp [hk.slash])
  have hpath : path k (c :: s ++ ['/']) = .error .path := by
    unfold path
    have hi : unroot (c :: s ++ ['/']) = c :: s ++ ['/'] := by
      rw [List.cons_append]; unfold unroot; split
      · rename_i h; injection h with h1 _; exact absurd h1 hne
      · rfl
    rw [hi]
    obtain ⟨n, hn⟩ : ∃ n, (c :: s ++ ['/']).length = n + 1 := ⟨(s ++ ['/']).length, rfl⟩
    rw [hn]
    have hname : opName k (n + 1) (c :: s ++ ['/']) = some ['/'] := by
      unfold opName; rw [hid]; rfl
    rw [hname]
    have htail : pathTail k (n + 1) ['/'] = ['/'] := by
      simp only [pathTail]
      have : opName k n [] = none := rfl
      rw [this]
    dsimp only
    rw [htail]; rfl
  rw [hpath]; rfl

/-! ### Concrete cases -/

/-- The point before the `b` in `a\r\n𝄞b`: line 1, two units in, and byte 7. -/
example : At ['a', '\r', '\n', '𝄞'] ['b'] ⟨1, 2⟩ ∧
    posToIdx (['a', '\r', '\n', '𝄞'] ++ ['b']) ⟨1, 2⟩ = 7 :=
  ⟨⟨by decide, by decide, by decide⟩, pos_exact (x := ['a', '\r', '\n', '𝄞']) (y := ['b'])
    ⟨by decide, by decide, by decide⟩⟩

/-- Two edits over a line ending and a wide character. -/
example : applyChanges ['é', '\r', '\n', 'b']
    [⟨some (⟨0, 1⟩, ⟨1, 0⟩), ['x']⟩, ⟨some (⟨0, 3⟩, ⟨0, 3⟩), ['!']⟩] = some ['é', 'x', 'b', '!'] :=
  edits_applied (.replace ['é'] ['\r', '\n'] ['b'] ['x'] _ _ _ _ ⟨by decide, by decide, by decide⟩
    ⟨by decide, by decide, by decide⟩
    (.replace ['é', 'x', 'b'] [] [] ['!'] _ _ _ _ ⟨by decide, by decide, by decide⟩
      ⟨by decide, by decide, by decide⟩ (.done _)))

open Verif.LsDoc in
/-- The same two edits, sent in two messages which arrive in the wrong order. -/
example : ((Doc.new (some ['é', '\r', '\n', 'b']) 4).receive (fun t b => t.bind fun t => applyChanges t b)
    [⟨6, [⟨some (⟨0, 3⟩, ⟨0, 3⟩), ['!']⟩]⟩, ⟨5, [⟨some (⟨0, 1⟩, ⟨1, 0⟩), ['x']⟩]⟩]).text
      = some ['é', 'x', 'b', '!'] :=
  copy_is_text
    (es := [⟨5, [⟨some (⟨0, 1⟩, ⟨1, 0⟩), ['x']⟩]⟩, ⟨6, [⟨some (⟨0, 3⟩, ⟨0, 3⟩), ['!']⟩]⟩])
    (.batch _ _ _ _ _
      (.replace ['é'] ['\r', '\n'] ['b'] ['x'] _ _ _ _ ⟨by decide, by decide, by decide⟩
        ⟨by decide, by decide, by decide⟩ (.done _))
      (.batch _ _ _ _ _
        (.replace ['é', 'x', 'b'] [] [] ['!'] _ _ _ _ ⟨by decide, by decide, by decide⟩
          ⟨by decide, by decide, by decide⟩ (.done _)) (.done _)))
    rfl (List.Perm.swap _ _ _)

/-- `x`, a blank line, a comment, `d {` and, with the cursor after the first unit, `éb`. -/
def sampleText : Text :=
  ['x', '\r', '\n', ' ', '\n', '#', 'c', '\n', 'd', '{', '\r', '\n', 'é', 'b', '\n', '}', '\n', '\n', 'z']

theorem sample_around : Around blank sampleText [['x'], [' ']] [['#', 'c']] [['d', '{']]
    (['é'] ++ ['b']) [['}'], [], ['z']] :=
  ⟨by decide, .inr ⟨[['x']], [' '], rfl, by decide⟩, by decide, by decide, by decide, by decide⟩

example : cursorIn blank sampleText ⟨4, 1⟩ = some (['d', '{', '\n', 'é', 'b', '\n', '}', '\n'], 5) :=
  cursor_in_definition_partial sample_around

example : completionInput blank sampleText ⟨4, 1⟩ = .done ['d', '{', '\n', 'é'] :=
  completion_text_partial sample_around

/-- **C65, fails on the last line**: nothing is offered on the empty line after the last line feed,
although the definition is still open there. -/
theorem last_line_nothing : completionInput blank ['d', '{', '\n'] ⟨1, 0⟩ = .nothing ∧
    completionInput blank ['d', '{', '\n', ' '] ⟨1, 0⟩ = .done ['d', '{', '\n'] := by decide

/-- **C65, fails with stray carriage returns**: a line that ends with one more carriage return than its
line ending shifts the cursor. -/
theorem stray_return : completionInput blank ['a', '\r', '\r', '\n', 'b', 'c'] ⟨1, 2⟩
    = .done ['a', '\r', '\n', 'b'] := by decide

/-- `in "foo bar" foo/b` and `in "foo b`. -/
example : pathComponent (['i', ' ', '"', 'f', ' ', '"', ' ', 'f', '/', 'b']) = ['f', '/', 'b'] ∧
    pathComponent ['i', ' ', '"', 'f', ' ', 'b'] = ['"', 'f', ' ', 'b'] :=
  ⟨path_bare (s := ['i', ' ', '"', 'f', ' ', '"']) (w := ['f', '/', 'b'])
    (.plain _ _ (by decide) (.plain _ _ (by decide) (.quoted '"' ['f', ' '] _ (by decide) (by decide)
      (.plain _ _ (by decide) (.plain _ _ (by decide) (.plain _ _ (by decide) (.plain _ _ (by decide) .nil)))))))
    (by decide),
   path_in_quotes (s := ['i', ' ']) (q := '"') (b := ['f', ' ', 'b'])
    (.plain _ _ (by decide) (.plain _ _ (by decide) .nil)) (by decide) (by decide)⟩

/-- ASCII classes. -/
def ascii : Classes := ⟨Char.isAlpha, Char.isAlphanum⟩

theorem ascii_laws : Laws ascii :=
  ⟨fun c h => by simp only [ascii] at h ⊢; simp [Char.isAlphanum, h], by decide, by decide⟩

example : get ascii (fun _ => .nothing) ['f', 'o', 'o', '/'] = .panic :=
  slash_panics ascii_laws _ (c := 'f') (s := ['o', 'o']) (by decide) (by decide)

end Verif.LsText
