import Verif.Lemmas.File
namespace Verif.File

theorem lineOf_skip (p w z : List Char) (h : '\n' ∉ w) :
    lineOf (p ++ w ++ z) (p.length + w.length) = lineOf (p ++ w ++ z) p.length := by
  have h1 : (p ++ w ++ z).take (p.length + w.length) = p ++ w := by
    rw [← List.length_append, List.take_left]
  have h2 : (p ++ w ++ z).take p.length = p := by
    rw [List.append_assoc, List.take_left]
  rw [lineOf, lineOf, h1, h2, List.count_append, List.count_eq_zero.2 h]

theorem between_eq (p m z : List Char) : between (p ++ m ++ z) p.length (p.length + m.length) = m := by
  have : p.length + m.length - p.length = m.length := by omega
  rw [between, List.append_assoc, List.drop_left, this, List.take_left]

/-- The slice of a block: where it lies in the text, and that its lines are the block's lines. -/
theorem block_slice (text : List Char) (s : Sl) (p0 : List Char) (ht : text = p0 ++ s.str)
    (ho : s.off = p0.length) (a r b : List Sl) (hl : s.lines = a ++ r ++ b) (hr : r ≠ [])
    (hn : ∀ l ∈ r, ¬ Blank l) :
    ∃ p m z, text = p ++ m ++ z ∧ s.sub (ext r).1 (ext r).2 = ⟨p.length, m⟩ ∧ Tiled p.length m r ∧
      ∀ l, r.getLast? = some l → l.off + l.str.length = p.length + m.length := by
  have h := tiled_lines s
  rw [hl, List.append_assoc] at h
  obtain ⟨x, y1, hs, h1, _⟩ := tiled_split a h
  obtain ⟨m0, y2, rfl, _, h2⟩ := tiled_split r h1
  cases r with
  | nil => exact absurd rfl hr
  | cons r0 r =>
    have hlast : (r0 :: r).getLast? = some ((r0 :: r).getLast (by simp)) := List.getLast?_eq_some_getLast _
    have hmem : (r0 :: r).getLast (by simp) ∈ r0 :: r := List.getLast_mem _
    obtain ⟨u, e, rfl, h3, h4, _⟩ := tiled_cut (r0 :: r) h2 hlast (by
      intro he; apply hn _ hmem; intro c hc; rw [he] at hc; cases hc)
    have h5 := (tiled_inv h4).1
    generalize hL : (r0 :: r).getLast (by simp) = rl at *
    refine ⟨p0 ++ x, u ++ rl.str, e ++ y2, by rw [ht, hs]; simp, ?_, ?_, ?_⟩
    · simp only [ext, List.head?_cons, Option.map_some, Option.getD_some, hlast, Sl.sub, Sl.stop, h5, h3, ho]
      rw [hs]
      have e1 : p0.length + x.length - p0.length = x.length := by omega
      have e2 : p0.length + x.length + u.length + rl.str.length - (p0.length + x.length) =
          (u ++ rl.str).length := by simp; omega
      rw [e1, e2, List.drop_left]
      have : u ++ rl.str ++ e ++ y2 = (u ++ rl.str) ++ (e ++ y2) := by simp
      rw [this, List.take_left]
      simp
    · simpa [ho] using h4
    · intro l hl'
      rw [hlast, Option.some.injEq] at hl'
      subst hl'
      rw [h3, ho]; simp; omega

theorem docLine_eq {l : Sl} (h : Comment l) : docLine l = commentText l ++ ['\n'] := by
  have hash : isWs '#' = false := by decide
  obtain ⟨w, r, h1, h2⟩ := h
  have h3 : trimStart l.str = '#' :: r := by
    rw [h1, trimStart_ws _ _ h2]; simp [trimStart, hash]
  have h4 : ∃ r', trim l.str = '#' :: r' ∧ trim r' = trim r := by
    rw [trim, h3]
    unfold trimEnd
    simp only [List.reverse_cons]
    rw [List.dropWhile_append]
    split
    · rename_i he
      refine ⟨[], by simp [hash], ?_⟩
      rw [List.isEmpty_iff, dropWhile_nil] at he
      have hb : (trim r).isEmpty = true := (trim_blank r).2 (by simpa using he)
      rw [List.isEmpty_iff] at hb
      rw [hb]; rfl
    · refine ⟨trimEnd r, by simp [trimEnd], ?_⟩
      obtain ⟨v, hv, hw⟩ : ∃ v, r = trimEnd r ++ v ∧ ∀ c ∈ v, isWs c = true := by
        refine ⟨(r.reverse.takeWhile isWs).reverse, ?_, ?_⟩
        · rw [trimEnd, ← List.reverse_append, List.takeWhile_append_dropWhile, List.reverse_reverse]
        · intro c hc; exact mem_takeWhile isWs _ c (by simpa using hc)
      have hte : ∀ (t v : List Char), (∀ c ∈ v, isWs c = true) → trimEnd (t ++ v) = trimEnd t := by
        intro t v hv
        unfold trimEnd
        rw [List.reverse_append]
        have := trimStart_ws v.reverse t.reverse (by simpa using hv)
        unfold trimStart at this
        rw [this]
      generalize trimEnd r = t at *
      subst hv
      unfold trim
      by_cases hb : ∀ c ∈ t, isWs c = true
      · have h5 : trimStart t = [] := (dropWhile_nil isWs t).2 hb
        have h6 : trimStart (t ++ v) = [] := (dropWhile_nil isWs _).2 (by
          intro c hc
          rcases List.mem_append.1 hc with hc | hc
          · exact hb c hc
          · exact hw c hc)
        rw [h5, h6]
      · obtain ⟨w', c', r', h7, h8, h9⟩ := ws_prefix t hb
        have h10 : trimStart t = c' :: r' := by
          rw [h7, trimStart_ws _ _ h8]; simp [trimStart, h9]
        have h11 : trimStart (t ++ v) = (c' :: r') ++ v := by
          rw [h7, List.append_assoc, trimStart_ws _ _ h8]; simp [trimStart, h9]
        rw [h10, h11, hte _ _ hw]
  obtain ⟨r', h5, h6⟩ := h4
  simp [docLine, h5, commentText, h3, h6]

theorem intercalate_nl (xs : List (List Char)) :
    ((xs.map (· ++ ['\n'])).flatten).dropLast = List.intercalate ['\n'] xs := by
  induction xs with
  | nil => rfl
  | cons x xs ih =>
    cases xs with
    | nil => simp [List.intercalate]
    | cons y ys =>
      have hne : ((List.map (· ++ ['\n']) (y :: ys)).flatten) ≠ [] := by simp
      rw [List.map_cons, List.flatten_cons, List.dropLast_append_of_ne_nil hne, ih]
      simp [List.intercalate]

/-- What the parser makes of one block. -/
theorem block_item (text : List Char) (p m z : List Char) (r : List Sl) (ht : text = p ++ m ++ z)
    (hr : r ≠ []) (hn : ∀ l ∈ r, ¬ Blank l) (htile : Tiled p.length m r)
    (hend : ∀ l, r.getLast? = some l → l.off + l.str.length = p.length + m.length) :
    ItemOf text r (docComment ⟨p.length, m⟩).2.trim.str
      (lineOf text (docComment ⟨p.length, m⟩).2.trim.off) ∧
    DocOf r (docComment ⟨p.length, m⟩).1 := by
  have hlines : (⟨p.length, m⟩ : Sl).lines = r := tiled_unique htile
  obtain ⟨cs, q, h1, h2, h3, h4⟩ := docLoop_spec r [] p.length
  have hdoc : docComment ⟨p.length, m⟩ = (((cs.map docLine).flatten).dropLast,
      (⟨p.length, m⟩ : Sl).sub ((cs.getLast?.map (·.stop)).getD p.length) (p.length + m.length)) := by
    simp only [docComment, hlines, h4, Sl.stop, List.nil_append]
  rw [hdoc]
  refine ⟨⟨cs, q, h1, h2, ?_⟩, cs, q, h1, h2, h3, ?_⟩
  · subst h1
    cases q with
    | nil =>
      simp only [List.append_nil] at *
      cases cs with
      | nil => exact absurd rfl hr
      | cons c0 cs =>
        have hlast : (c0 :: cs).getLast? = some ((c0 :: cs).getLast (by simp)) :=
          List.getLast?_eq_some_getLast _
        have hmem : (c0 :: cs).getLast (by simp) ∈ c0 :: cs := List.getLast_mem _
        generalize (c0 :: cs).getLast (by simp) = cl at *
        obtain ⟨u, e, hm, h5, h6, h7⟩ := tiled_cut (c0 :: cs) htile hlast (by
          intro he; apply hn _ hmem; intro c hc; rw [he] at hc; cases hc)
        have h8 := hend cl hlast
        have he : e = [] := by
          have : e.length = 0 := by
            rw [hm, h5] at h8; simp only [List.length_append] at h8; omega
          exact List.length_eq_zero_iff.1 this
        subst he
        have hsub : (⟨p.length, m⟩ : Sl).sub (p.length + m.length) (p.length + m.length) =
            ⟨p.length + m.length, []⟩ := by simp [Sl.sub]
        have h9 : cl.stop = p.length + m.length := h8
        simp only [hlast, Option.map_some, Option.getD_some, h9, hsub]
        have htr : (⟨p.length + m.length, []⟩ : Sl).trim = ⟨p.length + m.length, []⟩ := by
          simp [Sl.trim, trimStart]
        rw [htr]
        refine ⟨rfl, cl, rfl, ?_⟩
        have hnl := tiled_no_nl htile cl hmem
        have := lineOf_skip (p ++ u) cl.str z hnl
        have ht' : text = p ++ u ++ cl.str ++ z := by rw [ht, hm]; simp
        rw [ht', h5, show p.length + u.length = (p ++ u).length by simp, ← this, hm]
        congr 1
        simp; omega
    | cons l ls =>
      have hnc : ¬ Comment l := h3 l rfl
      have hnb : ¬ Blank l := hn l (by simp)
      obtain ⟨x, y, rfl, h5, h6⟩ := tiled_split cs htile
      obtain ⟨h7, h8, e1, rest, hy, _, _⟩ := tiled_inv h5
      -- the line ending between the comments and the code
      obtain ⟨v, e, hx, ht2, hews⟩ : ∃ v e, x = v ++ e ∧
          (cs.getLast?.map (·.stop)).getD p.length = p.length + v.length ∧
          (∀ c ∈ e, isWs c = true) := by
        cases cs with
        | nil =>
          have := tiled_nil_inv h6
          exact ⟨[], [], by simpa using this, by simp, by simp⟩
        | cons c0 cs =>
          have hlast : (c0 :: cs).getLast? = some ((c0 :: cs).getLast (by simp)) :=
            List.getLast?_eq_some_getLast _
          have hmem : (c0 :: cs).getLast (by simp) ∈ c0 :: cs := List.getLast_mem _
          generalize (c0 :: cs).getLast (by simp) = cl at *
          obtain ⟨u, e, hm, h9, h10, h11⟩ := tiled_cut (c0 :: cs) h6 hlast (by
            intro he; apply not_blank_of_comment (h2 _ hmem); intro c hc; rw [he] at hc; cases hc)
          refine ⟨u ++ cl.str, e, hm, ?_, ?_⟩
          · simp [hlast, Sl.stop, h9]; omega
          · rcases h11 with rfl | rfl | rfl <;> simp [isWs]
      obtain ⟨w, c, r', hl1, hw, hc⟩ := ws_prefix l.str hnb
      have hc0 : (⟨p.length, x ++ y⟩ : Sl).sub (p.length + v.length) (p.length + (x ++ y).length) =
          ⟨p.length + v.length, e ++ y⟩ := by
        simp only [Sl.sub, hx, Sl.mk.injEq, true_and]
        have e1 : p.length + v.length - p.length = v.length := by omega
        have e2 : p.length + (v ++ e ++ y).length - (p.length + v.length) = (e ++ y).length := by
          simp; omega
        rw [e1, e2, List.append_assoc, List.drop_left, List.take_length]
      rw [ht2, hc0]
      have hey : e ++ y = (e ++ w) ++ c :: (r' ++ (e1 ++ rest)) := by rw [hy, hl1]; simp
      have hews' : ∀ d ∈ e ++ w, isWs d = true := by
        intro d hd
        rcases List.mem_append.1 hd with hd | hd
        · exact hews d hd
        · exact hw d hd
      have htk : ((e ++ y).takeWhile isWs) = e ++ w := by
        rw [hey, List.takeWhile_append_of_pos hews']
        simp [hc]
      have hne : (trimStart (e ++ y)).isEmpty = false := by
        rw [hey, trimStart_ws _ _ hews']; simp [trimStart, hc]
      have htrim : (⟨p.length + v.length, e ++ y⟩ : Sl).trim =
          ⟨p.length + v.length + (e ++ w).length, trim y⟩ := by
        simp only [Sl.trim, hne, htk, Bool.false_eq_true, if_false, trim_ws e y hews]
      rw [htrim]
      have hlast : (l :: ls).getLast? = some ((l :: ls).getLast (by simp)) :=
        List.getLast?_eq_some_getLast _
      have hlast' : (cs ++ l :: ls).getLast? = some ((l :: ls).getLast (by simp)) := by
        rw [List.getLast?_append, hlast]; rfl
      have hstop := hend _ hlast'
      have hoff : l.off = (p ++ x).length := by rw [h7]; simp
      refine ⟨hnc, ⟨_, hlast, ?_⟩, ?_⟩
      · simp only
        congr 1
        rw [hstop, hoff]
        have hb := between_eq (p ++ x) y z
        rw [show text = p ++ x ++ y ++ z by rw [ht]; simp]
        rw [show p.length + (x ++ y).length = (p ++ x).length + y.length by simp; omega, hb]
      · simp only
        have hnw : '\n' ∉ w := fun h => h8 (by rw [hl1]; simp [h])
        have := lineOf_skip (p ++ x) w (c :: (r' ++ (e1 ++ rest)) ++ z) hnw
        have ht' : text = p ++ x ++ w ++ (c :: (r' ++ (e1 ++ rest)) ++ z) := by
          rw [ht, hy, hl1]; simp
        rw [ht', hoff, ← this]
        congr 1
        rw [hx]; simp; omega
  · have : cs.map docLine = (cs.map commentText).map (· ++ ['\n']) := by
      rw [List.map_map]
      exact List.map_congr_left fun c hc => docLine_eq (h2 c hc)
    simp only [this, intercalate_nl]

end Verif.File
