import Verif.Lemmas.FileDir
namespace Verif.File
open Verif.Nom

theorem docComment_spec (p x : List Char) :
    ∃ c y ls q, x = c ++ y ∧ (docComment ⟨p.length, x⟩).2 = ⟨p.length + c.length, y⟩ ∧
      Tiled p.length c ls ∧ (∀ l ∈ ls, Comment l) ∧
      (docComment ⟨p.length, x⟩).1 = List.intercalate ['\n'] (ls.map commentText) ∧
      Tiled p.length x (ls ++ q) ∧ (∀ l, q.head? = some l → ¬ Comment l) := by
  obtain ⟨cs, q, hl, hc, hq, hd⟩ := docLoop_spec (Sl.mk p.length x).lines [] p.length
  have ht : Tiled p.length x (cs ++ q) := by rw [← hl]; exact tiled_lines ⟨p.length, x⟩
  have hdoc : (docComment ⟨p.length, x⟩).1 = List.intercalate ['\n'] (cs.map commentText) := by
    have : cs.map docLine = (cs.map commentText).map (· ++ ['\n']) := by
      rw [List.map_map]
      apply List.map_congr_left
      intro l hl
      exact docLine_eq (hc l hl)
    simp only [docComment, hd, List.nil_append, this]
    exact intercalate_nl _
  have hrest : (docComment ⟨p.length, x⟩).2 =
      (Sl.mk p.length x).sub ((cs.getLast?.map (·.stop)).getD p.length) (p.length + x.length) := by
    simp [docComment, hd, Sl.stop]
  cases hlast : cs.getLast? with
  | none =>
    have : cs = [] := by simpa using hlast
    subst this
    refine ⟨[], x, [], q, rfl, ?_, .nil _, by simp, hdoc, ht, hq⟩
    rw [hrest]; simp [Sl.sub]
  | some l =>
    have hmem : l ∈ cs := List.mem_of_getLast? hlast
    have hne : l.str ≠ [] := by
      obtain ⟨w, r, h1, _⟩ := hc l hmem
      rw [h1]; simp
    obtain ⟨a, y, rfl, _, ha⟩ := tiled_split cs ht
    obtain ⟨u, e, rfl, hoff, hcut, _⟩ := tiled_cut cs ha hlast hne
    refine ⟨u ++ l.str, e ++ y, cs, q, by simp, ?_, hcut, hc, hdoc, ht, hq⟩
    rw [hrest, hlast]
    have e1 : ((some l).map (·.stop)).getD p.length = p.length + (u ++ l.str).length := by
      simp [Sl.stop, hoff]; omega
    rw [e1]
    unfold Sl.sub
    simp only
    congr 1
    have e2 : p.length + (u ++ l.str).length - p.length = (u ++ l.str).length := by omega
    rw [e2]
    have e3 : u ++ l.str ++ e ++ y = (u ++ l.str) ++ (e ++ y) := by simp
    rw [e3, List.drop_left]
    apply List.take_of_length_le
    simp; omega

theorem file_layout (k : Classes) (head : List Char → Bool) (text : List Char) (f : File)
    (h : file k head text = .ok f) :
    ∃ doc body p, Layout k text doc f.directives body ∧ directiveLine k body = .err ∧
      text = p ++ body ∧
      itemLoop head text (splitItems ⟨p.length, body⟩)
        (f.directives.isEmpty && !("\n\n".toList.isPrefixOf body)) (optDoc doc)
        ⟨none, f.directives, [], [], []⟩ = .ok f := by
  unfold file at h
  simp only at h
  obtain ⟨c, y, ls, q, h1, h2, h3, h4, h5, h6, h7⟩ := docComment_spec (text.takeWhile isWs) (trimStart text)
  rw [h2] at h
  simp only at h
  split at h
  · cases h
  · rename_i ds rest hds
    have hf : f.directives = ds := by
      obtain ⟨items, _, _, _, _, h, _⟩ := itemLoop_ok _ _ _ _ _ _ _ h
      simpa using h
    obtain ⟨u, es, hy, he, hdl⟩ := directives_ok k _ _ _ _ _ hds
    simp only [List.nil_append] at he
    subst he
    have hstop := directives_stop k _ _ _ _ _ (by omega) hds
    have htext : text = text.takeWhile isWs ++ c ++ u ++ rest := by
      calc text = text.takeWhile isWs ++ trimStart text := by simp [trimStart]
        _ = _ := by rw [h1, hy]; simp
    have hlen : text.length - rest.length = (text.takeWhile isWs ++ c ++ u).length := by
      have := congrArg List.length htext
      simp only [List.length_append] at this ⊢
      omega
    refine ⟨(docComment ⟨(text.takeWhile isWs).length, trimStart text⟩).1, rest,
      text.takeWhile isWs ++ c ++ u, ⟨_, c, u, ls, q, htext, Nom.mem_takeWhile _ _, h3, h4, h5, ?_, h7, ?_⟩,
      hstop, htext, ?_⟩
    · have : c ++ u ++ rest = trimStart text := by rw [h1, hy]; simp
      rw [this]; exact h6
    · rw [hf]; exact hdl
    · rw [hf, ← hlen]; exact h

theorem slTrim_spec (s : Sl) : ∃ a b, s.str = a ++ s.trim.str ++ b ∧ s.trim.off = s.off + a.length := by
  unfold Sl.trim
  split
  · exact ⟨[], s.str, by simp, by simp⟩
  · refine ⟨s.str.takeWhile isWs, ((trimStart s.str).reverse.takeWhile isWs).reverse, ?_, by simp⟩
    calc s.str = s.str.takeWhile isWs ++ trimStart s.str := by simp [trimStart]
      _ = s.str.takeWhile isWs ++ (trimEnd (trimStart s.str) ++
            ((trimStart s.str).reverse.takeWhile isWs).reverse) := by
          congr 1
          rw [trimEnd, ← List.reverse_append, List.takeWhile_append_dropWhile, List.reverse_reverse]
      _ = _ := by simp [File.trim]

/-- The code of a block is a part of the text, at the position whose line is reported. -/
theorem code_place (text p m z : List Char) (ht : text = p ++ m ++ z) :
    ∃ a b, text = a ++ (docComment ⟨p.length, m⟩).2.trim.str ++ b ∧
      (docComment ⟨p.length, m⟩).2.trim.off = a.length := by
  obtain ⟨c, y, _, _, rfl, h2, _⟩ := docComment_spec p m
  rw [h2]
  obtain ⟨a, b, h3, h4⟩ := slTrim_spec ⟨p.length + c.length, y⟩
  generalize (Sl.mk (p.length + c.length) y).trim = t at h3 h4
  simp only at h3 h4
  refine ⟨p ++ c ++ a, b ++ z, ?_, by rw [h4]; simp [Nat.add_assoc]⟩
  rw [ht, h3]
  simp

theorem file_items (k : Classes) (head : List Char → Bool) (text : List Char) (f : File)
    (h : file k head text = .ok f) :
    ∃ doc body p lines blocks items, Layout k text doc f.directives body ∧ directiveLine k body = .err ∧
      text = p ++ body ∧ Tiled p.length body lines ∧ Blocks lines blocks ∧
      Each (fun b (x : Kind × Item) => ItemOf text b x.2.code x.2.line ∧ x.1 = kind x.2.code ∧
        x.2.line < 65536 ∧
        ∃ pre post, text = pre ++ x.2.code ++ post ∧ x.2.line = lineOf text pre.length) blocks items ∧
      f.types = ofKind .type_ items ∧ f.impls = ofKind .impl items ∧ f.exprs = ofKind .expr items ∧
      let moved := f.directives.isEmpty && !("\n\n".toList.isPrefixOf body)
      (moved = false → f.doc = optDoc doc ∧
        Each (fun b x => ∃ d, DocOf b d ∧ x.2.doc = optDoc d) blocks items) ∧
      (moved = true → match blocks, items with
        | _ :: bs, x :: xs => f.doc = none ∧ x.2.doc = optDoc doc ∧
            Each (fun b x => ∃ d, DocOf b d ∧ x.2.doc = optDoc d) bs xs
        | _, _ => f.doc = optDoc doc) := by
  obtain ⟨doc, body, p, h1, h2, h3, h4⟩ := file_layout k head text f h
  obtain ⟨items, e1, e2, e3, e4, _, e6, e7⟩ := itemLoop_ok _ _ _ _ _ _ _ h4
  obtain ⟨blocks, hb, hsplit⟩ := splitItems_spec ⟨p.length, body⟩
  rw [hsplit] at e1 e6 e7
  have hm := blocks_mem hb
  have slice : ∀ b ∈ blocks, ∃ p' m z, text = p' ++ m ++ z ∧
      (Sl.mk p.length body).sub (ext b).1 (ext b).2 = ⟨p'.length, m⟩ ∧
      ItemOf text b (docComment ⟨p'.length, m⟩).2.trim.str
        (lineOf text (docComment ⟨p'.length, m⟩).2.trim.off) ∧
      DocOf b (docComment ⟨p'.length, m⟩).1 := by
    intro b hb'
    obtain ⟨hne, hnb, u, v, huv⟩ := hm b hb'
    obtain ⟨p', m, z, ht, hs, htile, hend⟩ := block_slice text ⟨p.length, body⟩ p h3 rfl u b v huv hne hnb
    have := block_item text p' m z b ht hne hnb htile hend
    exact ⟨p', m, z, ht, hs, this.1, this.2⟩
  have docs : ∀ b ∈ blocks, ∀ (x : Kind × Item),
      x.2.doc = optDoc (docComment ((Sl.mk p.length body).sub (ext b).1 (ext b).2)).1 →
      ∃ d, DocOf b d ∧ x.2.doc = optDoc d := by
    intro b hb' x hx
    obtain ⟨p', m, z, ht, hs, _, hd⟩ := slice b hb'
    rw [hs] at hx
    exact ⟨_, hd, hx⟩
  refine ⟨doc, body, p, (Sl.mk p.length body).lines, blocks, items, h1, h2, h3, tiled_lines ⟨p.length, body⟩, hb, ?_,
    by simpa using e2, by simpa using e3, by simpa using e4, ?_, ?_⟩
  · refine Each.map_left _ e1 ?_
    intro b hb' x hx
    obtain ⟨p', m, z, ht, hs, hi, _⟩ := slice b hb'
    rw [hs] at hx
    obtain ⟨r1, r2, r3, r4⟩ := hx
    refine ⟨by rw [r2, r3]; exact hi, by rw [r1, r2], r4, ?_⟩
    obtain ⟨a, b', g1, g2⟩ := code_place text p' m z ht
    exact ⟨a, b', by rw [r2]; exact g1, by rw [r3, g2]⟩
  · intro hmv
    obtain ⟨g1, g2⟩ := e6 hmv
    exact ⟨g1, Each.map_left _ g2 docs⟩
  · intro hmv
    have := e7 hmv
    cases blocks with
    | nil => cases items <;> simpa using this
    | cons b bs =>
      cases items with
      | nil => simpa using this
      | cons x xs =>
        simp only [List.map_cons] at this
        exact ⟨this.1, this.2.1, Each.map_left _ this.2.2 fun b hb' => docs b (by simp [hb'])⟩

end Verif.File
