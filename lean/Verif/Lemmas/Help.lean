import Verif.Spec.Help
import Verif.Lemmas.Trace
/-! Lemmas about help. -/
namespace Verif.Help
open Verif

/-! ### The lines -/

/-- Lines, each ended. -/
def asLines (ls : List Text) : Text := ls.flatMap asLine

theorem asLines_append (a b : List Text) : asLines (a ++ b) = asLines a ++ asLines b := List.flatMap_append

theorem asLines_cons (a : Text) (b : List Text) : asLines (a :: b) = a ++ '\n' :: asLines b := by
  simp [asLines, asLine]

theorem asLines_nil : asLines [] = [] := rfl

theorem splitNl_lines (s : Text) : s ++ ['\n'] = asLines (splitNl s) := by
  induction s with
  | nil => rfl
  | cons c s ih =>
    unfold splitNl
    by_cases h : c = '\n'
    · rw [if_pos h, asLines_cons, ← ih, h]; rfl
    · rw [if_neg h]
      cases hs : splitNl s with
      | nil => rw [hs] at ih; simp [asLines] at ih
      | cons l ls =>
        rw [hs, asLines_cons] at ih
        dsimp only
        rw [asLines_cons, List.cons_append, ih]; rfl

theorem splitNl_free (s : Text) : ∀ l ∈ splitNl s, '\n' ∉ l ∧ ∀ c ∈ l, c ∈ s := by
  induction s with
  | nil => intro l hl; simp [splitNl] at hl; subst hl; simp
  | cons c s ih =>
    intro l hl
    unfold splitNl at hl
    by_cases h : c = '\n'
    · rw [if_pos h] at hl
      rcases List.mem_cons.1 hl with e | hl
      · subst e; simp
      · exact ⟨(ih l hl).1, fun x hx => List.mem_cons_of_mem _ ((ih l hl).2 x hx)⟩
    · rw [if_neg h] at hl
      cases hs : splitNl s with
      | nil =>
        rw [hs] at hl
        simp at hl
        subst hl
        exact ⟨by simpa using fun e => h e.symm, by simp⟩
      | cons a as =>
        rw [hs] at hl ih
        rcases List.mem_cons.1 hl with e | hl
        · subst e
          have := ih a (List.mem_cons_self ..)
          refine ⟨?_, ?_⟩
          · intro hm
            rcases List.mem_cons.1 hm with e | hm
            · exact h e.symm
            · exact this.1 hm
          · intro x hx
            rcases List.mem_cons.1 hx with e | hx
            · rw [e]; exact List.mem_cons_self ..
            · exact List.mem_cons_of_mem _ (this.2 x hx)
        · have := ih l (List.mem_cons_of_mem _ hl)
          exact ⟨this.1, fun x hx => List.mem_cons_of_mem _ (this.2 x hx)⟩

/-- Help never calls `write` for a break, so it does not panic. -/
theorem usage_some (cmd : Text) (ns : Bool) (ps : List Param) : ∃ u, usage cmd ns ps = some u := by
  induction ps with
  | nil => exact ⟨[], rfl⟩
  | cons p ps ih =>
    obtain ⟨u, hu⟩ := ih
    unfold usage
    rw [hu]
    cases p <;> exact ⟨_, rfl⟩

theorem usage_lines {cmd : Text} {ns : Bool} : ∀ {ps : List Param} {u : Text}, usage cmd ns ps = some u → ∀ line : Text,
    line ++ u ++ ['\n'] = asLines (usageLines cmd (if ns then [] else [' ']) line ps)
  | [], u, h, line => by
    cases h
    simp [usageLines, asLines_cons, asLines_nil]
  | p :: ps, u, h, line => by
    obtain ⟨r, hr⟩ := usage_some cmd ns ps
    unfold usage at h
    rw [hr] at h
    cases p with
    | brk =>
      simp only [Param.isBreak, if_true, Option.bind_some, Option.map_some, Option.some.injEq] at h
      rw [← h, usageLines, asLines_cons, ← usage_lines hr]
      simp
    | required p =>
      simp [Param.isBreak, Param.write] at h
      rw [← h, usageLines, ← usage_lines hr]
      · simp [Param.shown]
      · intro e; cases e
    | optional p =>
      simp [Param.isBreak, Param.write] at h
      rw [← h, usageLines, ← usage_lines hr]
      · simp [Param.shown]
      · intro e; cases e
    | custom p =>
      simp [Param.isBreak, Param.write] at h
      rw [← h, usageLines, ← usage_lines hr]
      · simp [Param.shown]
      · intro e; cases e

theorem flag_lines (fs : List (Text × Text)) : fs.flatMap (fun f => ['\n', ' ', '-', '-'] ++ (f.1 ++ ([':', ' '] ++ f.2))) ++ ['\n'] = '\n' :: asLines (fs.map flagText) := by
  induction fs with
  | nil => rfl
  | cons f fs ih =>
    rw [List.flatMap_cons, List.append_assoc, ih, List.map_cons, asLines_cons]
    simp [flagText]

theorem flagsText_lines (x : Text) (fs : List (Text × Text)) : x ++ flagsText fs ++ ['\n'] = asLines (x :: flagLines fs) := by
  unfold flagsText flagLines
  by_cases h : fs = []
  · rw [if_pos h, if_pos h]; simp [asLines_cons, asLines_nil]
  · rw [if_neg h, if_neg h, List.append_assoc, List.append_assoc, flag_lines]
    simp [asLines_cons]

theorem example_lines : ∀ {es : List (Text × Text)}, es ≠ [] →
    es.flatMap (fun e => ['\n', ' '] ++ (e.1 ++ (['\n', ' ', '=', '>', ' '] ++ (e.2 ++ ['\n'])))) = '\n' :: asLines (between (es.map exampleText))
  | [], h => absurd rfl h
  | [e], _ => by simp [between, exampleText, asLines_cons, asLines_nil]
  | e :: e' :: es, _ => by
    rw [List.flatMap_cons, example_lines (es := e' :: es) (by simp)]
    simp only [List.map_cons, between]
    rw [asLines_append, asLines_cons]
    simp [exampleText, asLines_cons, asLines_nil]

theorem examplesText_lines {es : List (Text × Text)} (h : es ≠ []) : examplesText es = '\n' :: asLines (exampleLines es) := by
  unfold examplesText exampleLines
  rw [if_neg h, if_neg h, example_lines h]
  simp [asLines_cons]

/-- The last line of the usage and flags is not empty. -/
theorem usage_last (cmd sep : Text) : ∀ (ps : List Param) (line : Text), line ≠ [] → ∃ a l, usageLines cmd sep line ps = a ++ [l] ∧ l ≠ []
  | [], line, h => ⟨[], line, rfl, h⟩
  | .brk :: ps, line, h => by
    obtain ⟨a, l, e, hl⟩ := usage_last cmd sep ps ([' ', '=', '>', ' '] ++ cmd ++ sep) (by simp)
    exact ⟨line :: a, l, by rw [usageLines, e]; rfl, hl⟩
  | .required p :: ps, line, h => by
    rw [usageLines]
    · exact usage_last cmd sep ps _ (by simp [h])
    · intro e; cases e
  | .optional p :: ps, line, h => by
    rw [usageLines]
    · exact usage_last cmd sep ps _ (by simp [h])
    · intro e; cases e
  | .custom p :: ps, line, h => by
    rw [usageLines]
    · exact usage_last cmd sep ps _ (by simp [h])
    · intro e; cases e

/-! ### Texts within lines -/

theorem Word.append {a b : Text} (ha : Word a) (hb : Word b) : Word (a ++ b) := by
  refine ⟨?_, ?_, ?_⟩ <;> intro h <;> rcases List.mem_append.1 h with h | h
  · exact ha.1 h
  · exact hb.1 h
  · exact ha.2.1 h
  · exact hb.2.1 h
  · exact ha.2.2 h
  · exact hb.2.2 h

theorem word_nil : Word [] := by decide

theorem param_word {m : Message} (h : m.Clean) : ∀ {ps : List Param}, (∀ p ∈ ps, Word p.shown) → ∀ {line : Text}, Word line →
    ∀ l ∈ usageLines m.cmd (if m.noSpace then [] else [' ']) line ps, Word l := by
  have hsep : Word (if m.noSpace then [] else [' ']) := by split <;> decide
  generalize (if m.noSpace then [] else [' '] : Text) = sep at hsep
  intro ps
  induction ps with
  | nil => intro _ line hw l hl; simp [usageLines] at hl; rw [hl]; exact hw
  | cons p ps ih =>
    intro hp line hw l hl
    have hps : ∀ q ∈ ps, Word q.shown := fun q hq => hp q (List.mem_cons_of_mem _ hq)
    have hp0 := hp p (List.mem_cons_self ..)
    by_cases hb : p = .brk
    · subst hb
      rw [usageLines] at hl
      rcases List.mem_cons.1 hl with e | hl
      · rw [e]; exact hw
      · exact ih hps (Word.append (Word.append (by decide) h.cmd) hsep) l hl
    · rw [usageLines] at hl
      · exact ih hps (Word.append (Word.append hw hsep) hp0) l hl
      · exact hb

theorem between_mem {x : Text} : ∀ {gs : List (List Text)}, x ∈ between gs → x = [] ∨ ∃ g ∈ gs, x ∈ g
  | [], h => by cases h
  | [g], h => .inr ⟨g, List.mem_cons_self .., h⟩
  | g :: g' :: gs, h => by
    rw [between] at h
    · rcases List.mem_append.1 h with h | h
      · exact .inr ⟨g, List.mem_cons_self .., h⟩
      · rcases List.mem_cons.1 h with h | h
        · exact .inl h
        · rcases between_mem h with h | ⟨a, ha, hx⟩
          · exact .inl h
          · exact .inr ⟨a, List.mem_cons_of_mem _ ha, hx⟩
    · intro e; cases e

theorem flagLines_word {m : Message} (h : m.Clean) : ∀ l ∈ flagLines m.flags, Word l := by
  intro l hl
  unfold flagLines at hl
  split at hl
  · cases hl
  · rcases List.mem_cons.1 hl with e | hl
    · rw [e]; exact word_nil
    · rcases List.mem_cons.1 hl with e | hl
      · rw [e]; decide
      · obtain ⟨f, hf, rfl⟩ := List.mem_map.1 hl
        exact Word.append (Word.append (Word.append (by decide) (h.flags f hf).1) (by decide)) (h.flags f hf).2

theorem exampleLines_word {m : Message} (h : m.Clean) : ∀ l ∈ exampleLines m.examples, Word l := by
  intro l hl
  unfold exampleLines at hl
  split at hl
  · cases hl
  · rcases List.mem_cons.1 hl with e | hl
    · rw [e]; exact word_nil
    · rcases List.mem_cons.1 hl with e | hl
      · rw [e]; decide
      · rcases between_mem hl with e | ⟨g, hg, hl⟩
        · rw [e]; exact word_nil
        · obtain ⟨x, hx, rfl⟩ := List.mem_map.1 hg
          rcases List.mem_cons.1 hl with e | hl
          · rw [e]; exact Word.append (by decide) (h.examples x hx).1
          · rw [List.mem_singleton.1 hl]; exact Word.append (by decide) (h.examples x hx).2

theorem section_word {ty : Option Text} {m : Message} (ht : Word (tyText ty)) (h : m.Clean) : ∀ l ∈ sectionLines ty m, Word l := by
  intro l hl
  unfold sectionLines at hl
  rcases List.mem_cons.1 hl with e | hl
  · rw [e]; exact Word.append (Word.append (by decide) ht) (by decide)
  · rcases List.mem_append.1 hl with hl | hl
    · have := splitNl_free _ l hl
      exact ⟨this.1, fun hr => h.desc.1 (this.2 _ hr), fun hr => h.desc.2 (this.2 _ hr)⟩
    · rcases List.mem_cons.1 hl with e | hl
      · rw [e]; exact word_nil
      · rcases List.mem_cons.1 hl with e | hl
        · rw [e]; decide
        · rcases List.mem_append.1 hl with hl | hl
          · exact param_word h h.params (Word.append (by decide) h.cmd) l hl
          · rcases List.mem_append.1 hl with hl | hl
            · exact flagLines_word h l hl
            · exact exampleLines_word h l hl

/-! ### The source of one message -/

/-- The text with its last line ended. -/
def ended (s : Text) : Text := if s.getLast? = some '\n' then s else s ++ ['\n']

theorem asLines_last {ls : List Text} (h : ls ≠ []) : (asLines ls).getLast? = some '\n' := by
  obtain ⟨a, l, rfl⟩ : ∃ a l, ls = a ++ [l] := ⟨ls.dropLast, ls.getLast h, (List.dropLast_concat_getLast h).symm⟩
  rw [asLines_append, asLines_cons, asLines_nil]
  simp

theorem ended_lines {s : Text} {a : List Text} {l : Text} (h : s ++ ['\n'] = asLines (a ++ [l])) (hl : l ≠ []) (hw : '\n' ∉ l) :
    ended s = asLines (a ++ [l]) := by
  have e : s = asLines a ++ l := by
    rw [asLines_append, asLines_cons, asLines_nil] at h
    have : s ++ ['\n'] = (asLines a ++ l) ++ ['\n'] := by rw [h]; simp
    exact List.append_cancel_right this
  unfold ended
  rw [if_neg, h]
  rw [e]
  intro hn
  rw [List.getLast?_append] at hn
  cases hg : l.getLast? with
  | none => exact hl (List.getLast?_eq_none_iff.1 hg)
  | some c =>
    rw [hg] at hn
    simp at hn
    rw [hn] at hg
    exact hw (List.mem_of_getLast? hg)

theorem section_source {ty : Option Text} {m : Message} {s : Text} (ht : Word (tyText ty)) (h : m.Clean) (hs : source ty m = some s) :
    ended s = asLines (sectionLines ty m) := by
  unfold source at hs
  obtain ⟨u, hu⟩ := usage_some m.cmd m.noSpace m.params
  rw [hu] at hs
  simp only [Option.map_some, Option.some.injEq] at hs
  have e1 : ([' ', '=', '>', ' '] ++ m.cmd ++ u ++ flagsText m.flags) ++ ['\n'] =
      asLines (usageLines m.cmd (if m.noSpace then [] else [' ']) ([' ', '=', '>', ' '] ++ m.cmd) m.params ++ flagLines m.flags) := by
    have a := usage_lines hu ([' ', '=', '>', ' '] ++ m.cmd)
    have b := flagsText_lines ([' ', '=', '>', ' '] ++ m.cmd ++ u) m.flags
    rw [b, asLines_cons, asLines_append, ← a]
    simp
  have e2 : ['-', '-', '-', '-', ' ', 'I', 'n', 'p', 'u', 't', ' ', 'T', 'y', 'p', 'e', ':', ' '] ++ (tyText ty ++ ([' ', '-', '-', '-', '-', '\n'] ++ (m.desc ++ ['\n', '\n', 'U', 's', 'a', 'g', 'e', ':', '\n']))) =
      asLines ((['-', '-', '-', '-', ' ', 'I', 'n', 'p', 'u', 't', ' ', 'T', 'y', 'p', 'e', ':', ' '] ++ tyText ty ++ [' ', '-', '-', '-', '-']) :: (splitNl m.desc ++ [[], ['U', 's', 'a', 'g', 'e', ':']])) := by
    rw [asLines_cons, asLines_append, ← splitNl_lines]
    simp [asLines_cons, asLines_nil]
  by_cases he : m.examples = []
  · have e3 : s ++ ['\n'] = asLines (sectionLines ty m) := by
      rw [← hs, he]
      unfold sectionLines
      rw [he]
      simp only [exampleLines, examplesText, if_true, List.append_nil]
      rw [show (['-', '-', '-', '-', ' ', 'I', 'n', 'p', 'u', 't', ' ', 'T', 'y', 'p', 'e', ':', ' '] ++ tyText ty ++ [' ', '-', '-', '-', '-']) :: (splitNl m.desc ++ [] :: ['U', 's', 'a', 'g', 'e', ':'] ::
          (usageLines m.cmd (if m.noSpace then [] else [' ']) ([' ', '=', '>', ' '] ++ m.cmd) m.params ++ flagLines m.flags)) =
          ((['-', '-', '-', '-', ' ', 'I', 'n', 'p', 'u', 't', ' ', 'T', 'y', 'p', 'e', ':', ' '] ++ tyText ty ++ [' ', '-', '-', '-', '-']) :: (splitNl m.desc ++ [[], ['U', 's', 'a', 'g', 'e', ':']])) ++
          (usageLines m.cmd (if m.noSpace then [] else [' ']) ([' ', '=', '>', ' '] ++ m.cmd) m.params ++ flagLines m.flags) from by simp]
      rw [asLines_append, ← e2, ← e1]
      simp
    have e4 : ∃ a l, sectionLines ty m = a ++ [l] ∧ l ≠ [] := by
      unfold sectionLines
      rw [he]
      simp only [exampleLines, if_true, List.append_nil]
      obtain ⟨a, l, e, hl⟩ := usage_last m.cmd (if m.noSpace then [] else [' ']) m.params ([' ', '=', '>', ' '] ++ m.cmd) (by simp)
      by_cases hf : m.flags = []
      · rw [hf, e]
        exact ⟨(['-', '-', '-', '-', ' ', 'I', 'n', 'p', 'u', 't', ' ', 'T', 'y', 'p', 'e', ':', ' '] ++ tyText ty ++ [' ', '-', '-', '-', '-']) :: (splitNl m.desc ++ ([] :: ['U', 's', 'a', 'g', 'e', ':'] :: a)), l, by simp [flagLines], hl⟩
      · obtain ⟨fs, f, hfs⟩ : ∃ fs f, m.flags = fs ++ [f] := ⟨_, _, (List.dropLast_concat_getLast hf).symm⟩
        refine ⟨(['-', '-', '-', '-', ' ', 'I', 'n', 'p', 'u', 't', ' ', 'T', 'y', 'p', 'e', ':', ' '] ++ tyText ty ++ [' ', '-', '-', '-', '-']) :: (splitNl m.desc ++ ([] :: ['U', 's', 'a', 'g', 'e', ':'] ::
          (usageLines m.cmd (if m.noSpace then [] else [' ']) ([' ', '=', '>', ' '] ++ m.cmd) m.params ++ ([] :: ['F', 'l', 'a', 'g', 's', ':'] :: fs.map flagText)))),
          flagText f, ?_, by simp [flagText]⟩
        unfold flagLines
        rw [if_neg hf, hfs]
        simp
    obtain ⟨a, l, e5, hl⟩ := e4
    have hw := section_word ht h l (by rw [e5]; simp)
    rw [e5] at e3 ⊢
    exact ended_lines e3 hl hw.1
  · have e3 : s = asLines (sectionLines ty m) := by
      rw [← hs, examplesText_lines he]
      unfold sectionLines
      rw [show (['-', '-', '-', '-', ' ', 'I', 'n', 'p', 'u', 't', ' ', 'T', 'y', 'p', 'e', ':', ' '] ++ tyText ty ++ [' ', '-', '-', '-', '-']) :: (splitNl m.desc ++ [] :: ['U', 's', 'a', 'g', 'e', ':'] ::
          (usageLines m.cmd (if m.noSpace then [] else [' ']) ([' ', '=', '>', ' '] ++ m.cmd) m.params ++ (flagLines m.flags ++ exampleLines m.examples))) =
          ((['-', '-', '-', '-', ' ', 'I', 'n', 'p', 'u', 't', ' ', 'T', 'y', 'p', 'e', ':', ' '] ++ tyText ty ++ [' ', '-', '-', '-', '-']) :: (splitNl m.desc ++ [[], ['U', 's', 'a', 'g', 'e', ':']])) ++
          ((usageLines m.cmd (if m.noSpace then [] else [' ']) ([' ', '=', '>', ' '] ++ m.cmd) m.params ++ flagLines m.flags) ++ exampleLines m.examples) from by simp]
      rw [asLines_append, asLines_append, ← e2, ← e1]
      simp
    unfold ended
    rw [if_pos, e3]
    rw [e3]
    exact asLines_last (by simp [sectionLines])

theorem source_some (ty : Option Text) (m : Message) : ∃ s, source ty m = some s ∧ s ≠ [] := by
  obtain ⟨u, hu⟩ := usage_some m.cmd m.noSpace m.params
  unfold source
  rw [hu]
  exact ⟨_, rfl, by simp⟩

theorem sources_some : ∀ xs : List (Option Text × Message), ∃ ss, sources xs = some ss ∧ ∀ s ∈ ss, s ≠ []
  | [] => ⟨[], rfl, (fun _ h => by cases h)⟩
  | x :: xs => by
    obtain ⟨s, hs, hn⟩ := source_some x.1 x.2
    obtain ⟨ss, hss, hns⟩ := sources_some xs
    refine ⟨s :: ss, by rw [sources, hs, hss]; rfl, ?_⟩
    intro t ht
    rcases List.mem_cons.1 ht with e | ht
    · rw [e]; exact hn
    · exact hns t ht

theorem ended_joined {a b : Text} (hb : b ≠ []) : ended (joined a b) = ended a ++ '\n' :: ended b := by
  have e : joined a b = ended a ++ '\n' :: b := rfl
  rw [e]
  have hl : (ended a ++ '\n' :: b).getLast? = b.getLast? := by
    rw [List.getLast?_append]
    obtain ⟨c, hc⟩ : ∃ c, b.getLast? = some c := by
      cases hg : b.getLast? with
      | none => exact absurd (List.getLast?_eq_none_iff.1 hg) hb
      | some c => exact ⟨c, rfl⟩
    rw [List.getLast?_cons, hc]
    rfl
  generalize ended a = x at hl ⊢
  unfold ended
  rw [hl]
  split <;> simp

theorem ended_fold : ∀ (ss : List Text) (s : Text), (∀ t ∈ ss, t ≠ []) → ended (ss.foldl joined s) = ended s ++ ss.flatMap fun t => '\n' :: ended t
  | [], s, _ => by simp
  | t :: ss, s, h => by
    rw [List.foldl_cons, ended_fold ss _ (fun q hq => h q (List.mem_cons_of_mem _ hq)), ended_joined (h t (List.mem_cons_self ..))]
    simp

theorem between_lines : ∀ (g : List Text) (gs : List (List Text)), asLines (between (g :: gs)) = asLines g ++ gs.flatMap fun h => '\n' :: asLines h
  | g, [] => by simp [between]
  | g, h :: gs => by
    rw [between]
    · rw [asLines_append, asLines_cons, between_lines h gs]
      simp
    · intro e; cases e

theorem sources_lines : ∀ {xs : List (Option Text × Message)} {ss : List Text}, sources xs = some ss → (∀ x ∈ xs, Word (tyText x.1) ∧ x.2.Clean) →
    (ss.flatMap fun t => '\n' :: ended t) = (xs.map fun x => sectionLines x.1 x.2).flatMap fun h => '\n' :: asLines h
  | [], ss, h, _ => by cases h; rfl
  | x :: xs, ss, h, hc => by
    obtain ⟨s, hs, _⟩ := source_some x.1 x.2
    obtain ⟨ss', hss, _⟩ := sources_some xs
    rw [sources, hs, hss] at h
    cases h
    rw [List.flatMap_cons, List.map_cons, List.flatMap_cons, sources_lines hss (fun q hq => hc q (List.mem_cons_of_mem _ hq)),
      section_source (hc x (List.mem_cons_self ..)).1 (hc x (List.mem_cons_self ..)).2 hs]

/-! ### Lines of a text -/

theorem linesGo_end : ∀ (s : Text) (o : Nat) (acc : Text), '\r' ∉ acc → acc ++ s ≠ [] → (s.getLast? ≠ some '\n') → '\r' ∉ s →
    (Trace.linesGo o acc s).map (·.2) = (Trace.linesGo o acc (s ++ ['\n'])).map (·.2)
  | [], o, acc, ha, hn, _, _ => by
    have hn' : acc ≠ [] := by simpa using hn
    simp only [Trace.linesGo, List.nil_append, if_true, hn', if_false]
    rw [Trace.stripCr_none (fun h => ha (List.mem_of_getLast? h))]
  | c :: s, o, acc, ha, _, hl, hr => by
    rw [List.cons_append]
    unfold Trace.linesGo
    have hr' : '\r' ∉ s := fun h => hr (List.mem_cons_of_mem _ h)
    by_cases h : c = '\n'
    · rw [if_pos h, if_pos h, List.map_cons, List.map_cons]
      have hs : s ≠ [] := by
        intro e
        rw [e, h] at hl
        simp at hl
      rw [linesGo_end s _ [] (by simp) (by simpa using hs) ?_ hr']
      intro e
      apply hl
      rw [List.getLast?_cons, e]
      rfl
    · rw [if_neg h, if_neg h]
      refine linesGo_end s o (acc ++ [c]) ?_ (by simp) ?_ hr'
      · intro hm
        rcases List.mem_append.1 hm with hm | hm
        · exact ha hm
        · rw [List.mem_singleton] at hm
          exact hr (by rw [hm]; exact List.mem_cons_self ..)
      · intro e
        apply hl
        rw [List.getLast?_cons, e]
        rfl

/-- Within a line. -/
def Inline (l : Text) : Prop := '\n' ∉ l ∧ '\r' ∉ l

theorem lines_asLines : ∀ {ls : List Text}, (∀ l ∈ ls, Inline l) → ∀ o, (Trace.linesGo o [] (asLines ls)).map (·.2) = ls
  | [], _, _ => rfl
  | l :: ls, h, o => by
    have hl := h l (List.mem_cons_self ..)
    rw [asLines_cons, Trace.linesGo_line hl.1]
    rw [List.map_cons, lines_asLines (fun q hq => h q (List.mem_cons_of_mem _ hq))]
    rw [List.nil_append, Trace.stripCr_none]
    intro e
    exact hl.2 (List.mem_of_getLast? e)

theorem asLines_cr {ls : List Text} (h : ∀ l ∈ ls, Inline l) : '\r' ∉ asLines ls := by
  intro hm
  obtain ⟨l, hl, hm⟩ := List.mem_flatMap.1 hm
  rcases List.mem_append.1 hm with hm | hm
  · exact (h l hl).2 hm
  · simp at hm

theorem lines_ended {s : Text} {ls : List Text} (hs : s ≠ []) (e : ended s = asLines ls) (h : ∀ l ∈ ls, Inline l) : (Trace.lines s).map (·.2) = ls := by
  unfold ended at e
  unfold Trace.lines
  by_cases hl : s.getLast? = some '\n'
  · rw [if_pos hl] at e
    rw [e]
    exact lines_asLines h 0
  · rw [if_neg hl] at e
    have hr : '\r' ∉ s := fun hm => asLines_cr h (by rw [← e]; exact List.mem_append_left _ hm)
    rw [linesGo_end s 0 [] (by simp) (by simpa using hs) hl hr, e]
    exact lines_asLines h 0

/-! ### What a terminal shows -/

theorem plain_text : ∀ {s : Text}, '\x1b' ∉ s → ∀ r, plain (s ++ r) = s ++ plain r
  | [], _, _ => rfl
  | c :: s, h, r => by
    have hc : c ≠ '\x1b' := fun e => h (by rw [e]; exact List.mem_cons_self ..)
    have hs : '\x1b' ∉ s := fun e => h (List.mem_cons_of_mem _ e)
    show plainGo false (c :: (s ++ r)) = c :: (s ++ plain r)
    rw [plainGo, if_neg hc]
    exact congrArg (c :: ·) (plain_text hs r)

theorem plainGo_code : ∀ {c : Text}, 'm' ∉ c → ∀ r, plainGo true (c ++ 'm' :: r) = plain r
  | [], _, _ => by simp [plainGo, plain]
  | a :: c, h, r => by
    have ha : a ≠ 'm' := fun e => h (by rw [e]; exact List.mem_cons_self ..)
    rw [List.cons_append, plainGo, if_neg ha]
    exact plainGo_code (fun e => h (List.mem_cons_of_mem _ e)) r

theorem plain_esc {c : Text} (h : 'm' ∉ c) (r : Text) : plain (esc c ++ r) = plain r := by
  have : esc c ++ r = '\x1b' :: '[' :: (c ++ 'm' :: r) := by simp [esc]
  rw [this]
  show plainGo true ('[' :: (c ++ 'm' :: r)) = _
  rw [plainGo, if_neg (by decide)]
  exact plainGo_code h r

theorem plain_reset (r : Text) : plain (reset ++ r) = plain r := rfl

theorem plain_paint {c s : Text} (h : 'm' ∉ c) (hs : '\x1b' ∉ s) (r : Text) : plain (paint c s ++ r) = s ++ plain r := by
  unfold paint
  rw [List.append_assoc, plain_esc h, List.append_assoc, plain_text hs, plain_reset]

theorem plain_prefix (r : Text) : plain (linePrefix ++ r) = [' ', '|', ' '] ++ plain r := by
  unfold linePrefix
  rw [List.append_assoc, plain_paint (by decide) (by decide), plain_esc (by decide)]

theorem colour_m (c : Tags.NodeType) : 'm' ∉ colourOf c := by cases c <;> decide

theorem plain_pieces : ∀ {ps : List Tags.Piece}, '\x1b' ∉ Tags.shown ps → ∀ r, plain (ps.flatMap pieceText ++ r) = Tags.shown ps ++ plain r
  | [], _, _ => rfl
  | p :: ps, h, r => by
    have e : Tags.shown (p :: ps) = p.text ++ Tags.shown ps := by simp [Tags.shown]
    rw [e] at h ⊢
    have h1 : '\x1b' ∉ p.text := fun hm => h (List.mem_append_left _ hm)
    have h2 : '\x1b' ∉ Tags.shown ps := fun hm => h (List.mem_append_right _ hm)
    rw [List.flatMap_cons, List.append_assoc, List.append_assoc, ← plain_pieces h2 r]
    unfold pieceText
    cases p.colour with
    | none => exact plain_text h1 _
    | some c => exact plain_paint (colour_m c) h1 _

theorem code_text {k : Parse.Env} {allowed : Text → Bool} {code : Text} (he : '\x1b' ∉ code) (h : Highlighted k code) :
    ∃ t, codeText k allowed code = some t ∧ ∀ r, plain (t ++ r) = code ++ plain r := by
  unfold codeText
  cases hp : Tags.parse k code with
  | ok r x =>
    obtain ⟨ps, h1, h2⟩ := h
    simp only [h1, Option.map_some]
    exact ⟨_, rfl, fun r => by rw [plain_pieces (by rw [h2]; exact he), h2]⟩
  | err => exact ⟨_, rfl, fun r => by
      split
      · exact plain_text he r
      · exact plain_paint (by decide) he r⟩
  | fail => exact ⟨_, rfl, fun r => by
      split
      · exact plain_text he r
      · exact plain_paint (by decide) he r⟩

/-! ### Prefixes and suffixes -/

theorem strip_some : ∀ {p s r : Text}, stripPrefix p s = some r → s = p ++ r
  | [], s, r, h => by cases h; rfl
  | a :: p, [], r, h => by cases h
  | a :: p, c :: s, r, h => by
    unfold stripPrefix at h
    by_cases e : a = c
    · rw [if_pos e] at h
      rw [strip_some h, e]; rfl
    · rw [if_neg e] at h; cases h

theorem strip_append : ∀ (p r : Text), stripPrefix p (p ++ r) = some r
  | [], _ => rfl
  | a :: p, r => by
    rw [List.cons_append, stripPrefix, if_pos rfl]
    exact strip_append p r

theorem starts_iff {p s : Text} : starts p s = true ↔ p <+: s := by
  unfold starts
  constructor
  · intro h
    obtain ⟨r, hr⟩ := Option.isSome_iff_exists.1 h
    exact ⟨r, (strip_some hr).symm⟩
  · rintro ⟨r, rfl⟩
    rw [strip_append]; rfl

theorem starts_reset {p l : Text} (hp : '\x1b' ∉ p) : starts p (l ++ reset) = starts p l := by
  have : starts p (l ++ reset) = true ↔ starts p l = true := by
    rw [starts_iff, starts_iff]
    constructor
    · rintro ⟨r, hr⟩
      rcases List.append_eq_append_iff.1 hr with ⟨a, h1, _⟩ | ⟨a, h1, h2⟩
      · exact ⟨a, h1.symm⟩
      · cases a with
        | nil => exact ⟨[], by rw [h1]; simp⟩
        | cons c a =>
          have : c = '\x1b' := by
            have := congrArg List.head? h2
            simpa [reset] using this.symm
          exact absurd (by rw [h1, this]; simp) hp
    · rintro ⟨r, rfl⟩
      exact ⟨r ++ reset, by simp⟩
  cases h1 : starts p l <;> cases h2 : starts p (l ++ reset) <;> simp_all

theorem trim_end {l : Text} (h : '\x1b' ∉ l) : trimEnd reset (l ++ reset) = l := by
  unfold trimEnd
  have hlen : (l ++ reset).length = l.length + 3 + 1 := by simp [reset]
  rw [hlen, List.reverse_append, trimStart, strip_append]
  dsimp only
  rw [trimStart]
  cases hs : stripPrefix reset.reverse l.reverse with
  | none => simp
  | some r =>
    have := strip_some hs
    exact absurd (List.mem_reverse.1 (by rw [this]; simp [reset])) h

theorem stage_reset {st : Stage} {l : Text} : stageOf st (l ++ reset) = stageOf st l := by
  unfold stageOf
  rw [starts_reset (by decide), starts_reset (by decide), starts_reset (by decide), starts_reset (by decide)]

theorem reset_iff {l : Text} : l ++ reset = reset ↔ l = [] := by
  constructor
  · intro h
    have := congrArg List.length h
    simp at this
    exact this
  · rintro rfl; rfl

/-! ### Colouring lines -/

/-- The stage after a line. -/
def next (st : Stage) (l : Text) : Stage := if stageOf st l = .inputType ∧ l ≠ [] then .none else stageOf st l

/-- Colouring the line shows it as it is. -/
structure Tame (k : Parse.Env) (st : Stage) (l : Text) : Prop where
  flag : stageOf st l = .flags → [' ', '-', '-'] <+: l → ':' ∈ l
  code : stageOf st l = .examples → ∀ r, l = [' ', '=', '>', ' '] ++ r → ¬ [' ', '=', '>', ' '] <+: r ∧ Highlighted k r

/-- The same for lines. -/
inductive Tames (k : Parse.Env) : Stage → List Text → Prop
  | nil {st} : Tames k st []
  | cons {st l ls} : Tame k st l → Tames k (next st l) ls → Tames k st (l :: ls)

theorem split_colon : ∀ {s : Text}, ':' ∈ s → ∃ p, splitColon s = some p ∧ s = p.1 ++ ':' :: p.2
  | [], h => by cases h
  | c :: s, h => by
    unfold splitColon
    by_cases e : c = ':'
    · rw [if_pos e, e]; exact ⟨_, rfl, rfl⟩
    · rw [if_neg e]
      obtain ⟨p, h1, h2⟩ := split_colon (s := s) (by
        rcases List.mem_cons.1 h with h | h
        · exact absurd h.symm e
        · exact h)
      rw [h1]
      exact ⟨_, rfl, by rw [h2]; rfl⟩

theorem flag_line {s : Text} (he : '\x1b' ∉ s) (h : [' ', '-', '-'] <+: s → ':' ∈ s) :
    ∃ t, flagLine s = some t ∧ ∀ r, plain (t ++ r) = [' ', '|', ' '] ++ (s ++ plain r) := by
  unfold flagLine
  by_cases hs : starts [' ', '-', '-'] s = true
  · rw [if_pos hs]
    obtain ⟨p, h1, h2⟩ := split_colon (h (starts_iff.1 hs))
    rw [h1]
    refine ⟨_, rfl, fun r => ?_⟩
    rw [h2] at he
    have e1 : '\x1b' ∉ p.1 := fun hm => he (List.mem_append_left _ hm)
    have e2 : '\x1b' ∉ p.2 := fun hm => he (List.mem_append_right _ (List.mem_cons_of_mem _ hm))
    rw [List.append_assoc, plain_prefix, List.append_assoc, plain_paint (by decide) e1]
    have e3 : (':' :: paint ['3', '7'] p.2) ++ r = [':'] ++ (paint ['3', '7'] p.2 ++ r) := rfl
    rw [e3, plain_text (by decide), plain_paint (by decide) e2, h2]
    simp
  · rw [if_neg hs]
    exact ⟨_, rfl, fun r => by rw [List.append_assoc, plain_prefix, plain_paint (by decide) he]⟩

theorem trim_start {r : Text} (h : ¬ [' ', '=', '>', ' '] <+: r) : ∀ n, trimStart [' ', '=', '>', ' '] (n + 1) ([' ', '=', '>', ' '] ++ (r ++ reset)) = r ++ reset := by
  intro n
  rw [trimStart, strip_append]
  dsimp only
  cases n with
  | zero => rfl
  | succ n =>
    rw [trimStart]
    cases hs : stripPrefix [' ', '=', '>', ' '] (r ++ reset) with
    | none => rfl
    | some q =>
      have : starts [' ', '=', '>', ' '] (r ++ reset) = true := by unfold starts; rw [hs]; rfl
      rw [starts_reset (by decide)] at this
      exact absurd (starts_iff.1 this) h

theorem example_line {k : Parse.Env} {allowed : Text → Bool} {l : Text} (he : '\x1b' ∉ l)
    (h : ∀ r, l = [' ', '=', '>', ' '] ++ r → ¬ [' ', '=', '>', ' '] <+: r ∧ Highlighted k r) :
    ∃ t, exampleLine (codeText k allowed) (l ++ reset) = some t ∧ ∀ r, plain (t ++ r) = [' ', '|', ' '] ++ (l ++ plain r) := by
  unfold exampleLine
  rw [starts_reset (by decide), starts_reset (by decide)]
  by_cases h1 : starts ['E', 'x', 'a', 'm', 'p', 'l', 'e', 's', ':'] l = true
  · rw [if_pos h1]
    exact ⟨_, rfl, fun r => by rw [trim_end he, List.append_assoc, plain_prefix, plain_paint (by decide) he]⟩
  · rw [if_neg h1]
    by_cases h2 : starts [' ', '=', '>', ' '] l = true
    · rw [if_pos h2]
      obtain ⟨r, hr⟩ := starts_iff.1 h2
      obtain ⟨h3, h4⟩ := h r hr.symm
      rw [← hr] at he ⊢
      have e : ([' ', '=', '>', ' '] ++ r) ++ reset = [' ', '=', '>', ' '] ++ (r ++ reset) := List.append_assoc ..
      have el : ([' ', '=', '>', ' '] ++ (r ++ reset)).length = (r.length + 7) + 1 := by simp [reset]
      have er : '\x1b' ∉ r := fun hm => he (List.mem_append_right _ hm)
      rw [e, el, trim_start h3, trim_end er]
      obtain ⟨t, h5, h6⟩ := code_text (allowed := allowed) er h4
      rw [h5]
      refine ⟨_, rfl, fun q => ?_⟩
      rw [List.append_assoc, plain_prefix, List.append_assoc, plain_text (by decide), List.append_assoc, h6, plain_reset]
      simp
    · rw [if_neg h2]
      exact ⟨_, rfl, fun r => by rw [trim_end he, List.append_assoc, plain_prefix, plain_paint (by decide) he]⟩

theorem colour_line {k : Parse.Env} {allowed : Text → Bool} {st : Stage} {l : Text} (he : '\x1b' ∉ l) (h : Tame k st l) :
    ∃ t, colourLine (codeText k allowed) (stageOf st l) (l ++ reset) = some t ∧ ∀ r, plain (t ++ r) = [' ', '|', ' '] ++ (l ++ plain r) := by
  have hp : ∀ c : Text, 'm' ∉ c → ∀ r, plain ((linePrefix ++ paint c (trimEnd reset (l ++ reset))) ++ r) = [' ', '|', ' '] ++ (l ++ plain r) := by
    intro c hc r
    rw [trim_end he, List.append_assoc, plain_prefix, plain_paint hc he]
  unfold colourLine
  by_cases hn : l ++ reset = reset
  · rw [if_pos hn]
    exact ⟨_, rfl, hp _ (by decide)⟩
  · rw [if_neg hn]
    have h1 := h.flag
    have h2 := h.code
    generalize stageOf st l = q at h1 h2
    cases q with
    | none => exact ⟨_, rfl, hp _ (by decide)⟩
    | inputType => exact ⟨_, rfl, hp _ (by decide)⟩
    | usage => exact ⟨_, rfl, hp _ (by decide)⟩
    | flags =>
      dsimp only
      rw [trim_end he]
      exact flag_line he (h1 rfl)
    | examples => exact example_line he (h2 rfl)

/-- What the lines look like. -/
def barred (ls : List Text) : Text := ls.flatMap fun l => asLine ([' ', '|', ' '] ++ l)

theorem after_next {st : Stage} {l : Text} : stageAfter (stageOf st l) (l ++ reset) = next st l := by
  unfold stageAfter next
  by_cases h : l = []
  · rw [if_neg (by rintro ⟨_, h2⟩; exact h2 (reset_iff.2 h)), if_neg (by rintro ⟨_, h2⟩; exact h2 h)]
  · have : l ++ reset ≠ reset := fun e => h (reset_iff.1 e)
    simp [h, this]

theorem colour_lines {k : Parse.Env} {allowed : Text → Bool} : ∀ {ls : List Text} {st : Stage}, Tames k st ls → (∀ l ∈ ls, Word l) →
    ∃ t, colourLines (codeText k allowed) st (ls.map sourceLine) = some t ∧ plain t = barred ls
  | [], st, _, _ => ⟨[], rfl, rfl⟩
  | l :: ls, st, h, hw => by
    cases h with
    | cons h1 h2 =>
      obtain ⟨t, e1, e2⟩ := colour_line (allowed := allowed) (hw l (List.mem_cons_self ..)).2.2 h1
      obtain ⟨u, e3, e4⟩ := colour_lines (allowed := allowed) h2 (fun q hq => hw q (List.mem_cons_of_mem _ hq))
      rw [List.map_cons, colourLines]
      unfold sourceLine
      rw [strip_append]
      dsimp only
      rw [stage_reset, e1, after_next]
      unfold sourceLine at e3
      rw [e3]
      refine ⟨_, rfl, ?_⟩
      show plain ((t ++ ['\n']) ++ u) = _
      rw [List.append_assoc, e2, plain_text (by decide), e4]
      simp [barred, asLine]

/-! ### The lines of help are tame -/

/-- The stage after lines. -/
def stages (st : Stage) (ls : List Text) : Stage := ls.foldl next st

theorem Tames.append {k : Parse.Env} : ∀ {a b : List Text} {st : Stage}, Tames k st a → Tames k (stages st a) b → Tames k st (a ++ b)
  | [], _, _, _, h => h
  | _ :: _, _, _, .cons h1 h2, h => .cons h1 (Tames.append h2 h)

/-- Stages at which any line is shown as it is. -/
def Stage.Easy (st : Stage) : Prop := st ≠ .flags ∧ st ≠ .examples

theorem easy_line {k : Parse.Env} {st : Stage} {l : Text} (h : (stageOf st l).Easy) : Tame k st l :=
  ⟨fun e => absurd e h.1, fun e => absurd e h.2⟩

theorem easy_next {st : Stage} {l : Text} (h : (stageOf st l).Easy) : (next st l).Easy := by
  unfold next
  split
  · exact ⟨(by simp), (by simp)⟩
  · exact h

theorem easy_of {st : Stage} {l : Text} (h : st.Easy) (h1 : ¬ ['F', 'l', 'a', 'g', 's', ':'] <+: l) (h2 : ¬ ['E', 'x', 'a', 'm', 'p', 'l', 'e', 's', ':'] <+: l) : (stageOf st l).Easy := by
  unfold stageOf
  rw [if_neg (c := starts ['F', 'l', 'a', 'g', 's', ':'] l = true) (fun e => h1 (starts_iff.1 e)), if_neg (c := starts ['E', 'x', 'a', 'm', 'p', 'l', 'e', 's', ':'] l = true) (fun e => h2 (starts_iff.1 e))]
  split
  · exact ⟨(by simp), (by simp)⟩
  · split
    · exact ⟨(by simp), (by simp)⟩
    · exact h

theorem easy_lines {k : Parse.Env} : ∀ {ls : List Text} {st : Stage}, st.Easy → (∀ l ∈ ls, ¬ ['F', 'l', 'a', 'g', 's', ':'] <+: l ∧ ¬ ['E', 'x', 'a', 'm', 'p', 'l', 'e', 's', ':'] <+: l) →
    Tames k st ls ∧ (stages st ls).Easy
  | [], st, h, _ => ⟨.nil, h⟩
  | l :: ls, st, h, hl => by
    have e := easy_of h (hl l (List.mem_cons_self ..)).1 (hl l (List.mem_cons_self ..)).2
    have := easy_lines (k := k) (easy_next e) (fun q hq => hl q (List.mem_cons_of_mem _ hq))
    exact ⟨.cons (easy_line e) this.1, this.2⟩

theorem stage_space {st : Stage} (l : Text) : stageOf st (' ' :: l) = st := rfl

theorem next_space {st : Stage} (h : st ≠ .inputType) (l : Text) : next st (' ' :: l) = st := by
  unfold next
  rw [stage_space, if_neg (fun e => h e.1)]

theorem empty_tame {k : Parse.Env} {st : Stage} : Tame k st [] := ⟨fun _ h => by simp at h, fun _ r h => by simp at h⟩

theorem next_empty {st : Stage} : next st [] = st := by
  unfold next
  rw [if_neg (fun e => e.2 rfl)]
  rfl

theorem usage_starts (cmd sep : Text) : ∀ (ps : List Param) (line : Text), (∃ r, line = ' ' :: r) → ∀ l ∈ usageLines cmd sep line ps, ∃ r, l = ' ' :: r
  | [], line, h, l, hl => by
    simp [usageLines] at hl
    rw [hl]; exact h
  | p :: ps, line, h, l, hl => by
    by_cases hb : p = .brk
    · subst hb
      rw [usageLines] at hl
      rcases List.mem_cons.1 hl with e | hl
      · rw [e]; exact h
      · exact usage_starts cmd sep ps _ ⟨_, rfl⟩ l hl
    · rw [usageLines] at hl
      · refine usage_starts cmd sep ps _ ?_ l hl
        obtain ⟨r, rfl⟩ := h
        exact ⟨_, rfl⟩
      · exact hb

theorem not_prefix {c d : Char} {p l : Text} (h : c ≠ d) : ¬ (c :: p) <+: (d :: l) := by
  rintro ⟨r, hr⟩
  rw [List.cons_append] at hr
  injection hr with e
  exact h e

theorem flag_tames {k : Parse.Env} : ∀ (fs : List (Text × Text)), Tames k .flags (fs.map flagText) ∧ stages .flags (fs.map flagText) = .flags
  | [] => ⟨.nil, rfl⟩
  | f :: fs => by
    have h := flag_tames (k := k) fs
    have e : next .flags (flagText f) = .flags := next_space (by simp) _
    refine ⟨.cons ⟨?_, ?_⟩ ?_, ?_⟩
    · intro _ _; simp [flagText]
    · intro hs; cases (show Stage.flags = Stage.examples from hs)
    · rw [e]; exact h.1
    · rw [List.map_cons, stages, List.foldl_cons, e]; exact h.2

theorem flagLines_tames {k : Parse.Env} {st : Stage} (h : st.Easy) (fs : List (Text × Text)) :
    Tames k st (flagLines fs) ∧ (stages st (flagLines fs) ≠ .examples) := by
  unfold flagLines
  split
  · exact ⟨.nil, h.2⟩
  · have hf := flag_tames (k := k) fs
    have e : next st ['F', 'l', 'a', 'g', 's', ':'] = .flags := rfl
    refine ⟨.cons empty_tame (.cons ⟨?_, ?_⟩ ?_), ?_⟩
    · intro _ hp; exact absurd hp (not_prefix (by decide))
    · intro hs; cases (show Stage.flags = Stage.examples from hs)
    · rw [next_empty, e]; exact hf.1
    · rw [stages, List.foldl_cons, List.foldl_cons, next_empty, e]
      have := hf.2
      unfold stages at this
      rw [this]
      simp

theorem example_tames {k : Parse.Env} : ∀ {es : List (Text × Text)}, (∀ e ∈ es, ¬ ['=', '>', ' '] <+: e.1 ∧ ¬ [' ', '=', '>', ' '] <+: e.2 ∧ Highlighted k e.2) →
    Tames k .examples (between (es.map exampleText))
  | [], _ => .nil
  | [e], h => pair h
  | e :: e' :: es, h => by
    rw [List.map_cons, List.map_cons, between]
    · refine Tames.append (pair h) ?_
      have : stages .examples (exampleText e) = .examples := rfl
      rw [this]
      refine .cons empty_tame ?_
      rw [next_empty]
      exact example_tames (es := e' :: es) (fun q hq => h q (List.mem_cons_of_mem _ hq))
    · intro e; cases e
where
  pair {e : Text × Text} {es : List (Text × Text)} (h : ∀ x ∈ e :: es, ¬ ['=', '>', ' '] <+: x.1 ∧ ¬ [' ', '=', '>', ' '] <+: x.2 ∧ Highlighted k x.2) :
      Tames k .examples (exampleText e) := by
    obtain ⟨h1, h2, h3⟩ := h e (List.mem_cons_self ..)
    refine .cons ⟨?_, ?_⟩ (.cons ⟨?_, ?_⟩ .nil)
    · intro hs; cases (show Stage.examples = Stage.flags from hs)
    · intro _ r hr
      exfalso
      apply h1
      have : e.1 = ['=', '>', ' '] ++ r := by
        have := List.tail_eq_of_cons_eq (show (' ' :: e.1) = ' ' :: (['=', '>', ' '] ++ r) from hr)
        exact this
      exact ⟨r, this.symm⟩
    · intro hs; cases (show Stage.examples = Stage.flags from hs)
    · intro _ r hr
      have : e.2 = r := List.append_cancel_left hr
      rw [← this]
      exact ⟨h2, h3⟩

theorem exampleLines_tames {k : Parse.Env} {st : Stage} {es : List (Text × Text)}
    (h : ∀ e ∈ es, ¬ ['=', '>', ' '] <+: e.1 ∧ ¬ [' ', '=', '>', ' '] <+: e.2 ∧ Highlighted k e.2) : Tames k st (exampleLines es) := by
  unfold exampleLines
  split
  · exact .nil
  · have e : next st ['E', 'x', 'a', 'm', 'p', 'l', 'e', 's', ':'] = .examples := rfl
    refine .cons empty_tame (.cons ⟨?_, ?_⟩ ?_)
    · intro hs; cases (show Stage.examples = Stage.flags from hs)
    · intro _ r hr
      injection hr with h1
      exact absurd h1 (by decide)
    · rw [next_empty, e]; exact example_tames h

theorem section_tames {k : Parse.Env} {ty : Option Text} {m : Message} (h : m.Calm k) (st : Stage) : Tames k st (sectionLines ty m) := by
  unfold sectionLines
  have e1 : stageOf st (['-', '-', '-', '-', ' ', 'I', 'n', 'p', 'u', 't', ' ', 'T', 'y', 'p', 'e', ':', ' '] ++ tyText ty ++ [' ', '-', '-', '-', '-']) = .inputType := by
    unfold stageOf
    rw [if_pos]
    exact starts_iff.2 ⟨' ' :: (tyText ty ++ [' ', '-', '-', '-', '-']), by simp⟩
  have e2 : next st (['-', '-', '-', '-', ' ', 'I', 'n', 'p', 'u', 't', ' ', 'T', 'y', 'p', 'e', ':', ' '] ++ tyText ty ++ [' ', '-', '-', '-', '-']) = .none := by
    unfold next
    rw [e1, if_pos ⟨rfl, by simp⟩]
  refine .cons (easy_line (by rw [e1]; exact ⟨(by simp), (by simp)⟩)) ?_
  rw [e2]
  have hd := easy_lines (k := k) (st := .none) ⟨(by simp), (by simp)⟩ h.desc
  refine Tames.append hd.1 ?_
  generalize stages .none (splitNl m.desc) = s at hd
  refine .cons empty_tame ?_
  rw [next_empty]
  have e3 : stageOf s ['U', 's', 'a', 'g', 'e', ':'] = .usage := rfl
  have e4 : next s ['U', 's', 'a', 'g', 'e', ':'] = .usage := rfl
  refine .cons (easy_line (by rw [e3]; exact ⟨(by simp), (by simp)⟩)) ?_
  rw [e4]
  have hu := easy_lines (k := k) (st := .usage) (ls := usageLines m.cmd (if m.noSpace then [] else [' ']) ([' ', '=', '>', ' '] ++ m.cmd) m.params)
    ⟨(by simp), (by simp)⟩ (by
      intro l hl
      obtain ⟨r, rfl⟩ := usage_starts _ _ _ _ ⟨_, rfl⟩ l hl
      exact ⟨not_prefix (by decide), not_prefix (by decide)⟩)
  refine Tames.append hu.1 ?_
  refine Tames.append (flagLines_tames hu.2 m.flags).1 ?_
  exact exampleLines_tames h.examples

theorem between_tames {k : Parse.Env} : ∀ {gs : List (List Text)}, (∀ g ∈ gs, ∀ st, Tames k st g) → ∀ st, Tames k st (between gs)
  | [], _, _ => .nil
  | [g], h, st => h g (List.mem_cons_self ..) st
  | g :: g' :: gs, h, st => by
    rw [between]
    · refine Tames.append (h g (List.mem_cons_self ..) st) (.cons empty_tame ?_)
      exact between_tames (fun q hq => h q (List.mem_cons_of_mem _ hq)) _
    · intro e; cases e

end Verif.Help
