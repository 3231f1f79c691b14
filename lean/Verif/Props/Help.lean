import Verif.Lemmas.Help
import Verif.Lemmas.Defs
import Verif.Props.Tags
/-! # C82: help shows everything about a command -/
namespace Verif.Help
open Verif

/-- **C82**: help shows, for every implementation of the command, the type of the input, the whole description, the usage with all
parameters, all flags and all examples, in order, each on its lines. -/
theorem help_lines (x : Option Text × Message) (xs : List (Option Text × Message)) (h : ∀ y ∈ x :: xs, Word (tyText y.1) ∧ y.2.Clean) :
    ∃ sh, all (x :: xs) = some (some sh) ∧ sh.desc = ['`'] ++ x.2.cmd ++ ['`'] ∧
      (Trace.lines sh.source).map (·.2) = between ((x :: xs).map fun y => sectionLines y.1 y.2) := by
  obtain ⟨s, hs, hn⟩ := source_some x.1 x.2
  obtain ⟨ss, hss, hns⟩ := sources_some xs
  refine ⟨⟨'`' :: (x.2.cmd ++ ['`']), ss.foldl joined s⟩, by rw [all, hs, hss]; rfl, rfl, ?_⟩
  refine lines_ended ?_ ?_ ?_
  · have key : ∀ (ss : List Text) (s : Text), s ≠ [] → ss.foldl joined s ≠ [] := by
      intro ss
      induction ss with
      | nil => exact fun _ h => h
      | cons t ss ih => exact fun s _ => ih _ (by simp [joined])
    exact key ss s hn
  · rw [List.map_cons, between_lines, ended_fold ss s hns, section_source (h x (List.mem_cons_self ..)).1 (h x (List.mem_cons_self ..)).2 hs,
      sources_lines hss (fun q hq => h q (List.mem_cons_of_mem _ hq))]
  · intro l hl
    rcases between_mem hl with e | ⟨g, hg, hl⟩
    · rw [e]; exact ⟨(by simp), (by simp)⟩
    · obtain ⟨y, hy, rfl⟩ := List.mem_map.1 hg
      have := section_word (h y hy).1 (h y hy).2 l hl
      exact ⟨this.1, this.2.1⟩

/-- Building help never panics, whatever is in the messages. -/
theorem help_exists (x : Option Text × Message) (xs : List (Option Text × Message)) : ∃ sh, all (x :: xs) = some (some sh) := by
  obtain ⟨s, hs, _⟩ := source_some x.1 x.2
  obtain ⟨ss, hss, _⟩ := sources_some xs
  exact ⟨_, by rw [all, hs, hss]; rfl⟩

/-- **C82**: after any history of definitions, loads and clears, every command that is stored has help, in whatever order the
implementations come. -/
theorem stored_help (checked : Bool) (os : List Defs.Op) (d : Defs.Defs) (h : Defs.run checked Defs.base os = some d)
    (msg : Option Defs.Ty → Defs.Impl → Message) (n : String) (ks : Defs.Keys) (hk : AMap.get d.impls n = some ks)
    (xs : List (Option Text × Message)) (hp : xs.Perm (entries msg ks)) : ∃ sh, all xs = some (some sh) := by
  have hw := Defs.reach_wf Defs.base_wf (Defs.run_reach (fun _ => True) (fun _ => True) checked Defs.base os Defs.base d .refl
    (fun _ _ _ _ => trivial) (fun _ _ _ _ => trivial) h)
  have hne := (hw.keys n ks hk).2
  cases xs with
  | nil =>
    exfalso
    have he : entries msg ks = [] := List.nil_perm.1 hp
    unfold entries at he
    obtain ⟨h1, h2⟩ := List.append_eq_nil_iff.1 he
    have h3 : ks.tys = [] := List.map_eq_nil_iff.1 h1
    have h4 : ks.agnostic = none := by
      cases ha : ks.agnostic with
      | none => rfl
      | some i => rw [ha] at h2; simp at h2
    unfold Defs.Keys.isEmpty at hne
    rw [h3, h4] at hne
    cases hne
  | cons x xs => exact help_exists x xs

/-- Help shows one section for each implementation that is stored. -/
theorem stored_sections (msg : Option Defs.Ty → Defs.Impl → Message) (ks : Defs.Keys) (hc : ∀ t i, (msg t i).Clean)
    (hn : ∀ p ∈ ks.tys, Word (typeText p.1)) (x : Option Text × Message) (xs : List (Option Text × Message))
    (hp : (x :: xs).Perm (entries msg ks)) :
    ∃ sh gs, all (x :: xs) = some (some sh) ∧ (Trace.lines sh.source).map (·.2) = between gs ∧
      gs.Perm (ks.tys.map (fun p => sectionLines (some (typeText p.1)) (msg (some p.1) p.2)) ++
        ks.agnostic.toList.map fun i => sectionLines none (msg none i)) := by
  have hw : ∀ y ∈ x :: xs, Word (tyText y.1) ∧ y.2.Clean := by
    intro y hy
    have hm := hp.mem_iff.1 hy
    unfold entries at hm
    rcases List.mem_append.1 hm with hm | hm
    · obtain ⟨p, hp, rfl⟩ := List.mem_map.1 hm
      exact ⟨hn p hp, hc _ _⟩
    · obtain ⟨i, _, rfl⟩ := List.mem_map.1 hm
      exact ⟨(by decide : Word (tyText none)), hc _ _⟩
  obtain ⟨sh, h1, _, h2⟩ := help_lines x xs hw
  refine ⟨sh, _, h1, h2, ?_⟩
  have := hp.map fun y : Option Text × Message => sectionLines y.1 y.2
  unfold entries at this
  rw [List.map_append, List.map_map, List.map_map] at this
  exact this

/-! ### In the shell -/

theorem printed_lines {sh : Shown} (hd : Word sh.desc) {ls : List Text} (hl : (Trace.lines sh.source).map (·.2) = ls) (hw : ∀ l ∈ ls, Word l) :
    (Trace.lines (printed sh)).map (·.2) =
      (paint ['9', '3'] ['H', 'e', 'l', 'p'] ++ paint ['9', '7'] ([':', ' '] ++ sh.desc)) :: paint ['9', '5'] ['-', '-', '>', ' ', 's', 'h', 'e', 'l', 'l', ':', '0'] :: ls.map sourceLine := by
  have e : printed sh = asLines ((paint ['9', '3'] ['H', 'e', 'l', 'p'] ++ paint ['9', '7'] ([':', ' '] ++ sh.desc)) :: paint ['9', '5'] ['-', '-', '>', ' ', 's', 'h', 'e', 'l', 'l', ':', '0'] :: ls.map sourceLine) := by
    unfold printed
    rw [← hl]
    simp [asLines, asLine, List.flatMap_map]
  rw [e]
  refine lines_asLines ?_ 0
  have hin : ∀ {a b : Text}, Inline a → Inline b → Inline (a ++ b) := by
    intro a b ha hb
    refine ⟨?_, ?_⟩ <;> intro h <;> rcases List.mem_append.1 h with h | h
    · exact ha.1 h
    · exact hb.1 h
    · exact ha.2 h
    · exact hb.2 h
  intro l hm
  rcases List.mem_cons.1 hm with e | hm
  · rw [e]
    exact hin ⟨(by decide), (by decide)⟩ (hin (a := esc ['9', '7']) ⟨(by decide), (by decide)⟩
      (hin (hin ⟨(by decide), (by decide)⟩ ⟨hd.1, hd.2.1⟩) ⟨(by decide), (by decide)⟩))
  · rcases List.mem_cons.1 hm with e | hm
    · rw [e]; exact ⟨(by decide), (by decide)⟩
    · obtain ⟨q, hq, rfl⟩ := List.mem_map.1 hm
      exact hin ⟨(by decide), (by decide)⟩ (hin ⟨(hw q hq).1, (hw q hq).2.1⟩ ⟨(by decide), (by decide)⟩)

/-- What is printed, in black and white. -/
theorem printed_plain {sh : Shown} (hd : Word sh.desc) {ls : List Text} (hl : (Trace.lines sh.source).map (·.2) = ls) (hw : ∀ l ∈ ls, Word l) :
    plain (printed sh) = helpText sh.desc ls := by
  have key : ∀ (ps : List (Nat × Text)), (∀ l ∈ ps.map (·.2), Word l) →
      plain (ps.flatMap fun l => asLine (sourceLine l.2)) = (ps.map (·.2)).flatMap fun l => asLine ([' ', '|', ' '] ++ l) := by
    intro ps
    induction ps with
    | nil => intro _; rfl
    | cons p ps ih =>
      intro h
      rw [List.flatMap_cons, List.map_cons, List.flatMap_cons]
      unfold asLine sourceLine
      rw [List.append_assoc, List.append_assoc, plain_prefix, List.append_assoc, plain_text (h p.2 (List.mem_cons_self ..)).2.2, plain_reset,
        plain_text (by decide)]
      have := ih (fun l hl => h l (List.mem_cons_of_mem _ hl))
      unfold asLine sourceLine at this
      rw [this]
      simp
  have hd' : '\x1b' ∉ ([':', ' '] ++ sh.desc) := by
    intro hm
    rcases List.mem_append.1 hm with hm | hm
    · exact absurd hm (by decide)
    · exact hd.2.2 hm
  unfold printed helpText
  rw [asLine, List.append_assoc, List.append_assoc, plain_paint (by decide) (by decide), plain_paint (by decide) hd', plain_text (by decide), asLine,
    List.append_assoc (paint ['9', '5'] _), plain_paint (by decide) (by decide), plain_text (by decide), key _ (by rw [hl]; exact hw), hl]
  simp [asLine]

/-- **C82**, when no line of a description looks like a heading and the examples are highlighted as they are (C74): the shell shows the help
with colours, and without them it is the same text. -/
theorem help_in_shell_partial (k : Parse.Env) (allowed : Text → Bool) (x : Option Text × Message) (xs : List (Option Text × Message))
    (h : ∀ y ∈ x :: xs, Word (tyText y.1) ∧ y.2.Clean) (hc : ∀ y ∈ x :: xs, y.2.Calm k) :
    ∃ sh out, all (x :: xs) = some (some sh) ∧ highlight (codeText k allowed) (printed sh) = some out ∧ plain out = plain (printed sh) ∧
      plain out = helpText (['`'] ++ x.2.cmd ++ ['`']) (between ((x :: xs).map fun y => sectionLines y.1 y.2)) := by
  obtain ⟨sh, h1, h2, h3⟩ := help_lines x xs h
  have hd : Word sh.desc := by
    rw [h2]
    exact Word.append (Word.append (by decide) (h x (List.mem_cons_self ..)).2.cmd) (by decide)
  have hw : ∀ l ∈ between ((x :: xs).map fun y => sectionLines y.1 y.2), Word l := by
    intro l hl
    rcases between_mem hl with e | ⟨g, hg, hl⟩
    · rw [e]; exact word_nil
    · obtain ⟨y, hy, rfl⟩ := List.mem_map.1 hg
      exact section_word (h y hy).1 (h y hy).2 l hl
  have ht : Tames k .none (between ((x :: xs).map fun y => sectionLines y.1 y.2)) := by
    refine between_tames ?_ .none
    intro g hg st
    obtain ⟨y, hy, rfl⟩ := List.mem_map.1 hg
    exact section_tames (hc y hy) st
  obtain ⟨t, h4, h5⟩ := colour_lines (allowed := allowed) ht hw
  have e1 : highlight (codeText k allowed) (printed sh) =
      some (asLine (paint ['9', '3'] ['H', 'e', 'l', 'p'] ++ paint ['9', '7'] ([':', ' '] ++ sh.desc)) ++ (asLine (paint ['9', '5'] ['-', '-', '>', ' ', 's', 'h', 'e', 'l', 'l', ':', '0']) ++ t)) := by
    unfold highlight
    rw [printed_lines hd h3 hw, colourLines]
    have n1 : stripPrefix linePrefix (paint ['9', '3'] ['H', 'e', 'l', 'p'] ++ paint ['9', '7'] ([':', ' '] ++ sh.desc)) = none := rfl
    have n2 : stripPrefix linePrefix (paint ['9', '5'] ['-', '-', '>', ' ', 's', 'h', 'e', 'l', 'l', ':', '0']) = none := rfl
    rw [n1]
    dsimp only
    rw [colourLines, n2]
    dsimp only
    rw [h4]
    rfl
  have hd' : '\x1b' ∉ ([':', ' '] ++ sh.desc) := by
    intro hm
    rcases List.mem_append.1 hm with hm | hm
    · exact absurd hm (by decide)
    · exact hd.2.2 hm
  have e2 : plain (asLine (paint ['9', '3'] ['H', 'e', 'l', 'p'] ++ paint ['9', '7'] ([':', ' '] ++ sh.desc)) ++ (asLine (paint ['9', '5'] ['-', '-', '>', ' ', 's', 'h', 'e', 'l', 'l', ':', '0']) ++ t)) =
      helpText sh.desc (between ((x :: xs).map fun y => sectionLines y.1 y.2)) := by
    unfold helpText
    rw [asLine, List.append_assoc, List.append_assoc, plain_paint (by decide) (by decide), plain_paint (by decide) hd', plain_text (by decide),
      asLine, List.append_assoc (paint ['9', '5'] _), plain_paint (by decide) (by decide), plain_text (by decide), h5]
    simp [asLine, barred]
  refine ⟨sh, _, h1, e1, ?_, ?_⟩
  · rw [e2, printed_plain hd h3 hw]
  · rw [e2, h2]

/-! ### Asking for help -/

/-- The first command of a request has the flag `--help`. -/
def AsksHelp : Parse.Expr → Prop
  | .mk bs _ => ∃ i op o ts, bs.head? = some (.mk i op o ts) ∧ Parse.Term.flag ['h', 'e', 'l', 'p'] ∈ ts

theorem any_help (ts : List Parse.Term) : ts.any isHelp = true ↔ Parse.Term.flag ['h', 'e', 'l', 'p'] ∈ ts := by
  rw [List.any_eq_true]
  constructor
  · rintro ⟨t, ht, h⟩
    cases t with
    | flag f =>
      have : f = ['h', 'e', 'l', 'p'] := by simpa [isHelp] using h
      rw [this] at ht; exact ht
    | arg a => cases h
  · intro h
    exact ⟨_, h, by decide⟩

/-- **C82**: a request is compiled and evaluated if and only if its first command does not have the flag `--help`. -/
theorem help_instead {R : Type} (get : Text → Option (Option Shown)) (run : Parse.Expr → R) (e : Parse.Expr) :
    (∃ r, process get run e = some (.run r)) ↔ ¬ AsksHelp e := by
  cases e with
  | mk bs t =>
    cases bs with
    | nil => 
      refine ⟨?_, fun _ => ⟨_, rfl⟩⟩
      rintro _ ⟨_, _, _, _, h, _⟩
      cases h
    | cons b bs =>
      cases b with
      | mk i op o ts =>
        have ha : AsksHelp (.mk (.mk i op o ts :: bs) t) ↔ Parse.Term.flag ['h', 'e', 'l', 'p'] ∈ ts := by
          constructor
          · rintro ⟨i', op', o', ts', h, hm⟩
            simp only [List.head?_cons, Option.some.injEq] at h
            injection h with _ _ _ e4
            rw [e4]; exact hm
          · exact fun hm => ⟨i, op, o, ts, rfl, hm⟩
        rw [ha, ← any_help, process]
        constructor
        · rintro ⟨r, h⟩ hh
          rw [if_pos hh] at h
          obtain ⟨n, _, h⟩ := Option.bind_eq_some_iff.1 h
          obtain ⟨q, _, h⟩ := Option.map_eq_some_iff.1 h
          cases q <;> cases h
        · intro hh
          rw [if_neg hh]
          exact ⟨_, rfl⟩

/-- What is compiled and evaluated is the whole request. -/
theorem runs_whole {R : Type} (get : Text → Option (Option Shown)) (run : Parse.Expr → R) (e : Parse.Expr) (h : ¬ AsksHelp e) :
    process get run e = some (.run (run e)) := by
  obtain ⟨r, hr⟩ := (help_instead get run e).2 h
  cases e with
  | mk bs t =>
    cases bs with
    | nil => rfl
    | cons b bs =>
      cases b with
      | mk i op o ts =>
        rw [process] at hr ⊢
        by_cases hh : ts.any isHelp = true
        · exact absurd ⟨i, op, o, ts, rfl, (any_help ts).1 hh⟩ h
        · rw [if_neg hh]

/-- The help shown is that of the first command. -/
theorem help_of_first {R : Type} (get : Text → Option (Option Shown)) (run : Parse.Expr → R) {i o : Option Text} {n : Text} {ts : List Parse.Term}
    {bs : List Parse.Blk} {t : Option Text} (h : Parse.Term.flag ['h', 'e', 'l', 'p'] ∈ ts) {sh : Shown} (hg : get n = some (some sh)) :
    process get run (.mk (.mk i (.single n) o ts :: bs) t) = some (.help sh) := by
  rw [process, if_pos ((any_help ts).2 h)]
  show (get n).map _ = _
  rw [hg]
  rfl

/-- Asking for help of a command that is not stored says so, and that is the only case. -/
theorem help_unknown {R : Type} (msg : Option Defs.Ty → Defs.Impl → Message) (order : List (Option Text × Message) → List (Option Text × Message))
    (ho : ∀ xs, (order xs).Perm xs) (checked : Bool) (os : List Defs.Op) (d : Defs.Defs) (h : Defs.run checked Defs.base os = some d) (run : Parse.Expr → R)
    {i o : Option Text} {n : Text} {ts : List Parse.Term} {bs : List Parse.Blk} {t : Option Text} (hh : Parse.Term.flag ['h', 'e', 'l', 'p'] ∈ ts) :
    process (stored msg order d) run (.mk (.mk i (.single n) o ts :: bs) t) = some .unknown ↔ d.containsOp (Prog.str n) = false := by
  have e : process (stored msg order d) run (.mk (.mk i (.single n) o ts :: bs) t) = (stored msg order d n).map fun h => match h with
      | some h => .help h
      | none => .unknown := by
    rw [process, if_pos ((any_help ts).2 hh)]
    rfl
  rw [e, stored, Defs.Defs.containsOp]
  cases hk : AMap.get d.impls (Prog.str n) with
  | none =>
    have : AMap.has d.impls (Prog.str n) = false := by unfold AMap.has; rw [hk]; rfl
    rw [this]
    exact ⟨fun _ => rfl, fun _ => rfl⟩
  | some ks =>
    have : AMap.has d.impls (Prog.str n) = true := by unfold AMap.has; rw [hk]; rfl
    rw [this]
    obtain ⟨sh, hs⟩ := stored_help checked os d h msg _ ks hk _ (ho (entries msg ks))
    show (all (order (entries msg ks))).map _ = _ ↔ _
    rw [hs]
    constructor <;> intro hx <;> cases hx

/-- Without any definition: `nope` is not stored, `len` is. -/
example : Defs.run true Defs.base [] = some Defs.base ∧ Defs.base.containsOp "nope" = false ∧ Defs.base.containsOp "len" = true := ⟨rfl, by decide +kernel, by decide +kernel⟩

/-! ### What the help of definitions and types consists of -/

/-- A parameter or field with its type. -/
def withType (n : Text) : Option Text → Text
  | none => n
  | some t => n ++ [':'] ++ t

theorem usage_words (cmd : Text) (ps : List Text) (line : Text) :
    usageLines cmd [' '] line (ps.map .required) = [line ++ ps.flatMap fun p => [' '] ++ p] := by
  induction ps generalizing line with
  | nil => simp [usageLines]
  | cons p ps ih =>
    rw [List.map_cons, usageLines, ih]
    · simp [Param.shown]
    · intro e; cases e

/-- **C82**: the help of a definition shows where it is, its text, and its name with all its parameters and their types. -/
theorem definition_help (ty : Option Text) (loc src name : Text) (ps : List (Text × Option Text)) :
    sectionLines ty (userHelp loc src name ps) =
      (['-', '-', '-', '-', ' ', 'I', 'n', 'p', 'u', 't', ' ', 'T', 'y', 'p', 'e', ':', ' '] ++ tyText ty ++ [' ', '-', '-', '-', '-']) ::
      (splitNl (['u', 's', 'e', 'r', ' ', 'd', 'e', 'f', 'i', 'n', 'e', 'd', ' ', 'i', 'm', 'p', 'l', 'e', 'm', 'e', 'n', 't', 'a', 't', 'i', 'o', 'n', ' ', 'i', 'n', ' '] ++ loc ++ ['\n', '`'] ++ src ++ ['`']) ++
      [[], ['U', 's', 'a', 'g', 'e', ':'], [' ', '=', '>', ' '] ++ name ++ ps.flatMap fun p => [' '] ++ withType p.1 p.2]) := by
  have e : (userHelp loc src name ps).params = (ps.map fun p => withType p.1 p.2).map .required := by
    unfold userHelp
    dsimp only
    rw [List.map_map]
    refine List.map_congr_left fun p _ => ?_
    obtain ⟨a, b⟩ := p
    cases b <;> simp [withType]
  have hns : ¬ (userHelp loc src name ps).noSpace = true := fun h => by cases h
  unfold sectionLines
  rw [e, if_neg hns, usage_words]
  simp [userHelp, flagLines, exampleLines, List.flatMap_map]

/-- The help of a type with fields shows how to make one, with all its fields and their types. -/
theorem record_help (ty : Option Text) (name : Text) (fs : List (Text × Text)) :
    sectionLines ty (initHelp name (.product fs)) =
      (['-', '-', '-', '-', ' ', 'I', 'n', 'p', 'u', 't', ' ', 'T', 'y', 'p', 'e', ':', ' '] ++ tyText ty ++ [' ', '-', '-', '-', '-']) ::
      (splitNl (['i', 'n', 'i', 't', 'i', 'a', 'l', 'i', 's', 'e', ' ', 'a', ' ', '`'] ++ name ++ ['`']) ++
      [[], ['U', 's', 'a', 'g', 'e', ':'], [' ', '=', '>', ' '] ++ name ++ fs.flatMap fun f => [' '] ++ withType f.1 (some f.2)]) := by
  have e : (initHelp name (.product fs)).params = (fs.map fun f => withType f.1 (some f.2)).map .required := by
    unfold initHelp
    dsimp only
    rw [List.map_map]
    exact List.map_congr_left fun p _ => by simp [withType, fieldParam]
  have hns : ¬ (initHelp name (.product fs)).noSpace = true := fun h => by cases h
  unfold sectionLines
  rw [e, if_neg hns, usage_words]
  simp [initHelp, flagLines, exampleLines, List.flatMap_map]

theorem usage_run (cmd : Text) (fs : List (Text × Text)) (line : Text) (ps : List Param) :
    usageLines cmd [] line (fs.map fieldParam ++ ps) = usageLines cmd [] (line ++ fs.flatMap fun f => withType f.1 (some f.2)) ps := by
  induction fs generalizing line with
  | nil => simp
  | cons f fs ih =>
    rw [List.map_cons, List.cons_append, fieldParam, usageLines, ih]
    · simp [Param.shown, withType]
    · intro e; cases e

/-- What the line of a variant has behind the name of the type. -/
def variantText (v : Text × List (Text × Text)) : Text := [':', ':'] ++ v.1 ++ v.2.flatMap fun f => withType f.1 (some f.2)

theorem usage_variants (cmd : Text) (vs : List (Text × List (Text × Text))) (v : Text × List (Text × Text)) (line : Text) :
    usageLines cmd [] line (variantParams (v :: vs)) = (line ++ variantText v) :: vs.map fun v => [' ', '=', '>', ' '] ++ cmd ++ variantText v := by
  induction vs generalizing line v with
  | nil =>
    rw [variantParams, usageLines]
    · have := usage_run cmd v.2 (line ++ [] ++ Param.shown (.custom ([':', ':'] ++ v.1))) []
      rw [List.append_nil (v.2.map fieldParam)] at this
      rw [this]
      simp [usageLines, Param.shown, variantText]
    · intro e; cases e
  | cons w ws ih =>
    rw [variantParams, usageLines, usage_run, usageLines, ih]
    · simp [Param.shown, variantText]
    · intro e; cases e
    · intro e; cases e

/-- The help of a type with variants has one line for each, with its fields. -/
theorem variants_help (ty : Option Text) (name : Text) (vs : List (Text × List (Text × Text))) (hv : vs ≠ []) :
    sectionLines ty (initHelp name (.sum vs)) =
      (['-', '-', '-', '-', ' ', 'I', 'n', 'p', 'u', 't', ' ', 'T', 'y', 'p', 'e', ':', ' '] ++ tyText ty ++ [' ', '-', '-', '-', '-']) ::
      (splitNl (['i', 'n', 'i', 't', 'i', 'a', 'l', 'i', 's', 'e', ' ', 'a', ' ', '`'] ++ name ++ ['`']) ++ ([[], ['U', 's', 'a', 'g', 'e', ':']] ++
      vs.map fun v => [' ', '=', '>', ' '] ++ name ++ [':', ':'] ++ v.1 ++ v.2.flatMap fun f => withType f.1 (some f.2))) := by
  have hns : (initHelp name (.sum vs)).noSpace = true := rfl
  unfold sectionLines
  have e : (initHelp name (.sum vs)).params = variantParams vs := rfl
  rw [e, if_pos hns]
  cases vs with
  | nil => exact absurd rfl hv
  | cons v vs =>
    have e2 : (initHelp name (.sum (v :: vs))).cmd = name := rfl
    rw [e2, usage_variants]
    simp [initHelp, flagLines, exampleLines, variantText]

/-- Types of input are shown by different texts, unless a defined type is named like the text of another one. -/
theorem type_texts_differ_partial {t u : Defs.Ty} (h : typeText t = typeText u)
    (hn : ∀ n, t = .def_ n ∨ u = .def_ n → n ∉ ["Nil", "Bool", "Number", "String", "Table", "TableRow"]) : t = u := by
  have key : ∀ (n : String) (v : Defs.Ty), (∀ m, v ≠ .def_ m) → n ∉ ["Nil", "Bool", "Number", "String", "Table", "TableRow"] → n.toList ≠ typeText v := by
    intro n v hv hm e
    have e' : n = String.ofList (typeText v) := by rw [← e]; exact (String.ofList_toList).symm
    apply hm
    rw [e']
    cases v with
    | def_ m => exact absurd rfl (hv m)
    | _ => decide
  cases t with
  | def_ n =>
    cases u with
    | def_ m =>
      have : n = m := String.toList_inj.1 h
      rw [this]
    | _ => exact absurd h (key n _ (fun m e => by cases e) (hn n (.inl rfl)))
  | _ =>
    cases u with
    | def_ m => exact absurd h.symm (key m _ (fun m e => by cases e) (hn m (.inr rfl)))
    | _ => first | rfl | (exact absurd h (by decide))

/-! ### A case -/

/-- The help of a command with an optional parameter, two examples and a flag. -/
def sample : Message where
  cmd := ['l', 'a', 's', 't']
  desc := ['r', 'e', 't', 'r', 'i', 'e', 'v', 'e', ' ', 't', 'h', 'e', ' ', 'l', 'a', 's', 't', ' ', 'e', 'n', 't', 'r', 'y', ' ', 'o', 'f', ' ', 'a', ' ', 't', 'a', 'b', 'l', 'e', '\n', 'o', 'r', ' ', 'p', 'a', 'r', 't', ' ', 'o', 'f', ' ', 'i', 't']
  params := [.required ['f', 'i', 'e', 'l', 'd'], .optional ['n']]
  noSpace := false
  flags := [(['s', 'i', 'g'], ['k', 'e', 'e', 'p', ':', ' ', 's', 'i', 'g', 'n', 'i', 'f', 'i', 'c', 'a', 'n', 't'])]
  examples := [(['t', 'h', 'e', ' ', 'l', 'a', 's', 't', ' ', 'r', 'o', 'w'], ['l', 'a', 's', 't', ' ', '$', 'x']), (['a', ' ', 'p', 'a', 'r', 't'], ['l', 'a', 's', 't', ' ', '{'])]

/-- The help of a type with two variants. -/
def sampleInit : Message := initHelp ['F', 'o', 'o'] (.sum [(['O', 'k'], []), (['N', 'o'], [(['x'], ['N', 'u', 'm', 'b', 'e', 'r'])])])

theorem sample_clean : ∀ y ∈ [(some ['T', 'a', 'b', 'l', 'e'], sample), (none, sampleInit)], Word (tyText y.1) ∧ y.2.Clean := by
  intro y hy
  simp only [List.mem_cons, List.not_mem_nil, or_false] at hy
  rcases hy with rfl | rfl
  · exact ⟨by decide, by decide, by decide, by decide, by decide, by decide⟩
  · exact ⟨by decide, by decide, by decide, by decide, by decide, by decide⟩

theorem sample_lines : between ([(some ['T', 'a', 'b', 'l', 'e'], sample), (none, sampleInit)].map fun y : Option Text × Message => sectionLines y.1 y.2) =
    [['-', '-', '-', '-', ' ', 'I', 'n', 'p', 'u', 't', ' ', 'T', 'y', 'p', 'e', ':', ' ', 'T', 'a', 'b', 'l', 'e', ' ', '-', '-', '-', '-'], ['r', 'e', 't', 'r', 'i', 'e', 'v', 'e', ' ', 't', 'h', 'e', ' ', 'l', 'a', 's', 't', ' ', 'e', 'n', 't', 'r', 'y', ' ', 'o', 'f', ' ', 'a', ' ', 't', 'a', 'b', 'l', 'e'], ['o', 'r', ' ', 'p', 'a', 'r', 't', ' ', 'o', 'f', ' ', 'i', 't'], [], ['U', 's', 'a', 'g', 'e', ':'], [' ', '=', '>', ' ', 'l', 'a', 's', 't', ' ', 'f', 'i', 'e', 'l', 'd', ' ', '[', 'n', ']'], [], ['F', 'l', 'a', 'g', 's', ':'],
      [' ', '-', '-', 's', 'i', 'g', ':', ' ', 'k', 'e', 'e', 'p', ':', ' ', 's', 'i', 'g', 'n', 'i', 'f', 'i', 'c', 'a', 'n', 't'], [], ['E', 'x', 'a', 'm', 'p', 'l', 'e', 's', ':'], [' ', 't', 'h', 'e', ' ', 'l', 'a', 's', 't', ' ', 'r', 'o', 'w'], [' ', '=', '>', ' ', 'l', 'a', 's', 't', ' ', '$', 'x'], [], [' ', 'a', ' ', 'p', 'a', 'r', 't'], [' ', '=', '>', ' ', 'l', 'a', 's', 't', ' ', '{'], [],
      ['-', '-', '-', '-', ' ', 'I', 'n', 'p', 'u', 't', ' ', 'T', 'y', 'p', 'e', ':', ' ', '<', 'a', 'n', 'y', '>', ' ', '-', '-', '-', '-'], ['i', 'n', 'i', 't', 'i', 'a', 'l', 'i', 's', 'e', ' ', 'a', ' ', '`', 'F', 'o', 'o', '`'], [], ['U', 's', 'a', 'g', 'e', ':'], [' ', '=', '>', ' ', 'F', 'o', 'o', ':', ':', 'O', 'k'], [' ', '=', '>', ' ', 'F', 'o', 'o', ':', ':', 'N', 'o', 'x', ':', 'N', 'u', 'm', 'b', 'e', 'r']] := by decide +kernel

/-- The hypotheses of `help_in_shell_partial` are met. -/
example : (∀ y ∈ [(some ['T', 'a', 'b', 'l', 'e'], sample), (none, sampleInit)], Word (tyText y.1) ∧ y.2.Clean) ∧
    ∀ y ∈ [(some ['T', 'a', 'b', 'l', 'e'], sample), (none, sampleInit)], y.2.Calm Parse.plain := by
  refine ⟨sample_clean, ?_⟩
  intro y hy
  simp only [List.mem_cons, List.not_mem_nil, or_false] at hy
  rcases hy with rfl | rfl
  · refine ⟨by decide +kernel, ?_⟩
    intro e he
    have hs : sample.examples = [(['t', 'h', 'e', ' ', 'l', 'a', 's', 't', ' ', 'r', 'o', 'w'], ['l', 'a', 's', 't', ' ', '$', 'x']), (['a', ' ', 'p', 'a', 'r', 't'], ['l', 'a', 's', 't', ' ', '{'])] := rfl
    rw [hs] at he
    simp only [List.mem_cons, List.not_mem_nil, or_false] at he
    rcases he with rfl | rfl
    · refine ⟨by decide, by decide, ?_⟩
      have h : Tags.partsOf (Tags.parse Parse.plain ['l', 'a', 's', 't', ' ', '$', 'x']) = some ([⟨⟨0, 4⟩, .command⟩, ⟨⟨6, 7⟩, .var⟩], false) := by decide +kernel
      obtain ⟨r, x, h1, h2, h3⟩ := Tags.partsOf_some h
      obtain ⟨ps, _, h4, h5, _⟩ := Tags.highlight_whole_partial h1 h3 (by
        intro n hn ht
        rw [h2] at hn
        simp only [List.mem_cons, List.not_mem_nil, or_false] at hn
        rcases hn with rfl | rfl <;> cases ht)
      exact ⟨ps, h4, h5⟩
    · refine ⟨by decide, by decide, ?_⟩
      refine Tags.highlight_unparsed ?_
      intro r x h
      have hp : Tags.partsOf (Tags.parse Parse.plain ['l', 'a', 's', 't', ' ', '{']) = none := by decide +kernel
      rw [h] at hp
      cases hp
  · exact ⟨by decide +kernel, fun e he => by cases he⟩

/-! ### What is not true -/

/-- A definition with a text of three lines. -/
def strange : Text := ['d', 'e', 'f', ' ', 'f', ' ', '(', ')', ' ', '{', ' ', 'g', 'e', 't', ' ', '\'', 'a', '\n', 'F', 'l', 'a', 'g', 's', ':', ' ', 'b', '\n', ' ', '-', '-', 'c', '\'', ' ', '}']

/-- It is a definition. -/
theorem strange_parses : (match Parse.definitionImpl Parse.plain strange with
    | .ok r d => decide (r = []) && decide (d.name = ['f'])
    | _ => false) = true := by decide +kernel

/-- **C82** is false in the shell when a description looks like a heading: showing the help of this definition panics
(`lib.rs:613`, `split.next().unwrap()`). -/
theorem help_panics : ∃ sh, all [(none, userHelp ['s', 'h', 'e', 'l', 'l'] strange ['f'] [])] = some (some sh) ∧
    ∀ code, highlight code (printed sh) = none := by
  refine ⟨_, rfl, fun code => ?_⟩
  rfl

/-- A type can be named `Number`, and then the sections of help for it and for numbers have the same heading. -/
theorem number_twice : (∃ d, Defs.run true Defs.base [.shell (.type_ "Number" (.product []))] = some d ∧ Defs.tyOf d.types "Number" = some (.def_ "Number")) ∧
    typeText (.def_ "Number") = typeText .num := by
  refine ⟨?_, by decide⟩
  have h : ((Defs.run true Defs.base [.shell (.type_ "Number" (.product []))]).map fun d => Defs.tyOf d.types "Number") = some (some (.def_ "Number")) := by decide +kernel
  obtain ⟨d, h1, h2⟩ := Option.map_eq_some_iff.1 h
  exact ⟨d, h1, h2⟩

/-- The fields of a variant are shown without spaces (`impls/mod.rs:401-419`): the usage of the type is `Foo::Ax:Numbery:String`. -/
theorem variant_fields_run_together :
    [' ', '=', '>', ' ', 'F', 'o', 'o', ':', ':', 'A', 'x', ':', 'N', 'u', 'm', 'b', 'e', 'r', 'y', ':', 'S', 't', 'r', 'i', 'n', 'g'] ∈ sectionLines none (initHelp ['F', 'o', 'o'] (.sum [(['A'], [(['x'], ['N', 'u', 'm', 'b', 'e', 'r']), (['y'], ['S', 't', 'r', 'i', 'n', 'g'])])])) := by decide +kernel

end Verif.Help
