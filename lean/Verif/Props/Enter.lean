import Verif.Lemmas.Enter
import Verif.Props.Lang
/-! What entered lines and loaded files do to the definitions (C84). -/
namespace Verif.Enter
open Verif
variable {C : Parse.Env} {checked : Bool} {s0 s : Session} {es : List Event}

/-- **C84**: whatever is entered or loaded, the definitions are those some sequence of requests gives, each of which one of the texts asks
for. The names of types and variants in them are identifiers. -/
theorem lines_are_requests (L : Parse.Laws C) (hb : Begun C s0) (h : run C checked s0 es = some s) :
    Defs.Reach (fun r => r.Ident ∧ Said C es r) (fun b => b = false) checked Defs.base s.defs := (said_good L hb h).reach

/-- Every stored definition is the text of one, with the name and the input type it is stored for. -/
theorem texts_stored (L : Parse.Laws C) (hb : Begun C s0) (h : run C checked s0 es = some s) :
    Lang.Stored s.env s.defs ∧ ∀ src, ∃ known, s.env src = { C with known := known } :=
  ⟨(said_good L hb h).stored, (said_good L hb h).envs⟩

/-- A text is stored for one name, and for types of one name. -/
theorem text_has_one_place (L : Parse.Laws C) (hb : Begun C s0) (h : run C checked s0 es = some s) {n n' : String} {k k' : Option Defs.Ty} {l l' : Defs.Loc}
    {src : String} (h1 : s.defs.entry n k = some (.definition l src)) (h2 : s.defs.entry n' k' = some (.definition l' src)) :
    n = n' ∧ k.map Lang.tyName = k'.map Lang.tyName := by
  obtain ⟨r, df, h3, rfl, h4⟩ := (texts_stored L hb h).1 _ _ _ _ h1
  obtain ⟨r', df', h5, rfl, h6⟩ := (texts_stored L hb h).1 _ _ _ _ h2
  rw [h3] at h5
  cases h5
  exact ⟨rfl, by rw [h4, h6]⟩

/-! ### One line -/

theorem def_line {text : Str} (hd : defWord <+: text) :
    cdWord.isPrefixOf text = false ∧ runWord.isPrefixOf text = false ∧ recognise text = true := by
  obtain ⟨t, rfl⟩ := hd
  exact ⟨rfl, rfl, rfl⟩

theorem ty_line {text : Str} (hd : tyWord <+: text) :
    cdWord.isPrefixOf text = false ∧ runWord.isPrefixOf text = false ∧ recognise text = true ∧ defWord.isPrefixOf text = false := by
  obtain ⟨t, rfl⟩ := hd
  exact ⟨rfl, rfl, rfl, rfl⟩

theorem enter_define {text : Str} {files : List (String × Option Str)} (h1 : cdWord.isPrefixOf text = false) (h2 : runWord.isPrefixOf text = false)
    (h3 : recognise text = true) (h4 : ¬ loadFlag <:+: text) : step C checked s (.line text files) = (define C checked s .shell text).after := by
  show enter C checked s text files = _
  unfold enter
  rw [if_neg (by rw [h1]; decide), if_neg (by rw [h2]; decide), if_pos h3, if_neg (by rw [not_contains h4]; decide)]

theorem reqOf_plain {k : Parse.Env} {d : Defs.Defs} {text : Str} (hp : Plain text) (hd : defWord <+: text) {rest : Str} {df : Parse.DefImpl}
    (ht : Parse.definitionImpl k text = .ok rest df) :
    reqOf k d text = (checkOps d (opsE df.body)).map fun _ => .impl (Prog.str df.name) (df.inTy.map Prog.str) ((opsE df.body).filterMap id) (Prog.str text) := by
  unfold reqOf implReq
  rw [if_pos (List.isPrefixOf_iff_prefix.2 hd), if_neg (by rw [not_contains hp.help]; decide), if_neg (by rw [not_contains hp.list]; decide),
    if_neg (by rw [not_contains hp.clear]; decide), ht]

theorem reqOf_bad {k : Parse.Env} {d : Defs.Defs} {text : Str} (hp : Plain text) (hd : defWord <+: text)
    (ht : ∀ rest df, Parse.definitionImpl k text ≠ .ok rest df) : reqOf k d text = some .malformed := by
  unfold reqOf implReq
  rw [if_pos (List.isPrefixOf_iff_prefix.2 hd), if_neg (by rw [not_contains hp.help]; decide), if_neg (by rw [not_contains hp.list]; decide),
    if_neg (by rw [not_contains hp.clear]; decide)]
  split
  · rename_i h; exact absurd h (ht _ _)
  · rfl

theorem all_ops {d : Defs.Defs} {e : Parse.Expr} (h : AllKnown d e) : ((opsE e).filterMap id).all d.containsOp = true := by
  rw [List.all_eq_true]
  intro n hn
  obtain ⟨x, hx, e⟩ := List.mem_filterMap.1 hn
  obtain ⟨m, rfl, h1⟩ := checkOps_true.1 (allKnown_iff.2 h) x hx
  cases e
  exact h1

/-- A definition that is entered is added: for its name and type of input, and nothing else changes. It must be a definition, have none of
the phrases looked for anywhere in it, use defined commands only and a known type, and not be in the place of a built-in one. -/
theorem line_defines_partial (L : Parse.Laws C) (hb : Begun C s0) (h : run C checked s0 es = some s) {text : Str} (files : List (String × Option Str)) (hp : Plain text)
    (hd : defWord <+: text) {rest : Str} {df : Parse.DefImpl} (ht : Parse.definitionImpl (envOf C s.defs) text = .ok rest df) (hk : AllKnown s.defs df.body)
    {k : Option Defs.Ty} (hm : Means s.defs df.inTy k)
    (hn : ∀ i, s.defs.entry (Prog.str df.name) k = some i → ∃ loc src, i = .definition loc src ∧ loc ≠ .ogma) :
    ∃ s', step C checked s (.line text files) = some s' ∧ s'.defs.types = s.defs.types ∧
      (∀ n k', s'.defs.entry n k' = if Prog.str df.name = n ∧ k = k' then some (.definition .shell (Prog.str text)) else s.defs.entry n k') ∧
      ∀ src, s'.env src = if src = Prog.str text then envOf C s.defs else s.env src := by
  obtain ⟨h1, h2, h3⟩ := def_line hd
  have hw := Defs.reach_wf Defs.base_wf (lines_are_requests L hb h)
  have hr : reqOf (envOf C s.defs) s.defs text = some (.impl (Prog.str df.name) (df.inTy.map Prog.str) ((opsE df.body).filterMap id) (Prog.str text)) := by
    rw [reqOf_plain hp hd ht, allKnown_iff.2 hk]; rfl
  have hpr : Defs.process checked s.defs .shell (.impl (Prog.str df.name) (df.inTy.map Prog.str) ((opsE df.body).filterMap id) (Prog.str text)) =
      .ok { s.defs with impls := Defs.setImpl s.defs.impls (Prog.str df.name) k (.definition .shell (Prog.str text)) } := by
    have hins : Defs.insertImpl s.defs (Prog.str df.name) k .shell (Prog.str text) =
        .ok { s.defs with impls := Defs.setImpl s.defs.impls (Prog.str df.name) k (.definition .shell (Prog.str text)) } := by
      unfold Defs.insertImpl
      rw [if_neg]
      intro hf
      obtain ⟨i, hi⟩ := Option.isSome_iff_exists.1 hf
      obtain ⟨h4, h5⟩ := Option.filter_eq_some_iff.1 hi
      obtain ⟨loc, src, rfl, h6⟩ := hn i h4
      simp [Defs.Impl.fixed, h6] at h5
    cases hin : df.inTy with
    | none =>
      rw [hin] at hm
      rw [show k = none from hm] at hins ⊢
      simp only [Option.map_none, Defs.process, all_ops hk]
      exact hins
    | some t =>
      rw [hin] at hm
      obtain ⟨u, h4, rfl⟩ := hm
      simp only [Option.map_some, Defs.process, all_ops hk, h4]
      exact hins
  refine ⟨⟨{ s.defs with impls := Defs.setImpl s.defs.impls (Prog.str df.name) k (.definition .shell (Prog.str text)) },
      noted (envOf C s.defs) s.env (.impl (Prog.str df.name) (df.inTy.map Prog.str) ((opsE df.body).filterMap id) (Prog.str text))⟩, ?_, ?_, ?_, ?_⟩
  · rw [enter_define h1 h2 h3 hp.load]
    unfold define
    simp only [hr, hpr]
    rfl
  · rfl
  · intro n k'
    exact Defs.entry_set s.defs.impls s.defs.types s.defs.types (Prog.str df.name) n k k' _
  · intro src
    rfl

/-- A definition that is refused changes nothing: it cannot be read, or it uses a command that is not defined, or a type that is not known,
or it is in the place of a built-in one. -/
theorem line_refused_partial {text : Str} (files : List (String × Option Str)) (hp : Plain text) (hd : defWord <+: text)
    (hbad : ∀ rest df k, Parse.definitionImpl (envOf C s.defs) text = .ok rest df → AllKnown s.defs df.body → Means s.defs df.inTy k →
      ∃ i, s.defs.entry (Prog.str df.name) k = some i ∧ ∀ loc src, i = .definition loc src → loc = .ogma) :
    step C checked s (.line text files) = some s ∨
      step C checked s (.line text files) = none ∧ ∃ rest df o, Parse.definitionImpl (envOf C s.defs) text = .ok rest df ∧ Uses df.body o ∧ Prog.readOp o = none := by
  obtain ⟨h1, h2, h3⟩ := def_line hd
  rw [enter_define h1 h2 h3 hp.load]
  unfold define
  by_cases hx : ∃ rest df, Parse.definitionImpl (envOf C s.defs) text = .ok rest df
  · obtain ⟨rest, df, ht⟩ := hx
    rw [reqOf_plain hp hd ht]
    cases hc : checkOps s.defs (opsE df.body) with
    | none =>
      refine .inr ⟨rfl, rest, df, ?_⟩
      have : ∀ l, checkOps s.defs l = none → none ∈ l := by
        intro l hl
        induction l with
        | nil => cases hl
        | cons x l ih =>
          cases x with
          | none => exact .head _
          | some n =>
            rw [checkOps] at hl
            split at hl
            · exact List.mem_cons_of_mem _ (ih hl)
            · cases hl
      obtain ⟨o, h4, h5⟩ := opsE_uses (this _ hc)
      exact ⟨o, ht, h4, h5.symm⟩
    | some b =>
      left
      have herr : Defs.process checked s.defs .shell (.impl (Prog.str df.name) (df.inTy.map Prog.str) ((opsE df.body).filterMap id) (Prog.str text)) = .err s.defs := by
        cases b with
        | false => simp only [Defs.process, checkOps_false hc]; rfl
        | true =>
          have hk := allKnown_iff.1 hc
          have hins : ∀ k, Means s.defs df.inTy k → Defs.insertImpl s.defs (Prog.str df.name) k .shell (Prog.str text) = .err s.defs := by
            intro k hm
            obtain ⟨i, h4, h5⟩ := hbad rest df k ht hk hm
            unfold Defs.insertImpl
            rw [if_pos]
            rw [h4]
            have : i.fixed = true := by
              cases i with
              | intrinsic l f => rfl
              | definition l src => rw [h5 l src rfl]; rfl
            simp [Option.filter, this]
          cases hin : df.inTy with
          | none => rw [hin] at hins; simp only [Option.map_none, Defs.process, all_ops hk]; exact hins none rfl
          | some t =>
            rw [hin] at hins
            cases hty : Defs.tyOf s.defs.types (Prog.str t) with
            | none => simp only [Option.map_some, Defs.process, all_ops hk, hty]; rfl
            | some u => simp only [Option.map_some, Defs.process, all_ops hk, hty]; exact hins (some u) ⟨u, hty, rfl⟩
      simp only [Option.map_some, herr]
      rfl
  · rw [reqOf_bad hp hd fun rest df e => hx ⟨rest, df, e⟩]
    left
    rfl

/-- Anything else that is entered leaves the definitions alone. -/
theorem other_lines_change_nothing {text : Str} (files : List (String × Option Str)) (h : ¬ defWord <+: text) (h' : ¬ tyWord <+: text) :
    step C checked s (.line text files) = some s := by
  show enter C checked s text files = _
  have : recognise text = false := by
    unfold recognise
    rw [Bool.or_eq_false_iff, Bool.eq_false_iff, Bool.eq_false_iff]
    exact ⟨fun e => h (List.isPrefixOf_iff_prefix.1 e), fun e => h' (List.isPrefixOf_iff_prefix.1 e)⟩
  unfold enter
  rw [this]
  split
  · rfl
  · split <;> rfl

/-- The phrases: help and the list change nothing, clearing removes what is not built in. -/
theorem phrase_lines {text : Str} (files : List (String × Option Str)) (hd : defWord <+: text) (hl : ¬ loadFlag <:+: text) :
    (helpFlag <:+: text → step C checked s (.line text files) = some s) ∧
    (¬ helpFlag <:+: text → listFlag <:+: text → step C checked s (.line text files) = some s) ∧
    (¬ helpFlag <:+: text → ¬ listFlag <:+: text → clearFlag <:+: text → step C checked s (.line text files) = some ⟨s.defs.clear false, s.env⟩) := by
  obtain ⟨h1, h2, h3⟩ := def_line hd
  rw [enter_define h1 h2 h3 hl]
  unfold define reqOf implReq
  rw [if_pos (List.isPrefixOf_iff_prefix.2 hd)]
  refine ⟨fun h4 => ?_, fun h4 h5 => ?_, fun h4 h5 h6 => ?_⟩
  · rw [if_pos (contains_iff.2 h4)]; rfl
  · rw [if_neg (by rw [not_contains h4]; decide), if_pos (contains_iff.2 h5)]; rfl
  · rw [if_neg (by rw [not_contains h4]; decide), if_neg (by rw [not_contains h5]; decide), if_pos (contains_iff.2 h6)]; rfl

/-- The program ends when help, the list or clearing is asked for with `def-ty`. -/
theorem type_phrases_panic {text : Str} (files : List (String × Option Str)) (hd : tyWord <+: text) (hl : ¬ loadFlag <:+: text)
    (h : helpFlag <:+: text ∨ listFlag <:+: text ∨ clearFlag <:+: text) : step C checked s (.line text files) = none := by
  obtain ⟨h1, h2, h3, h4⟩ := ty_line hd
  rw [enter_define h1 h2 h3 hl]
  have : reqOf (envOf C s.defs) s.defs text = none := by
    unfold reqOf tyReq
    rw [if_neg (by rw [h4]; decide), if_pos (List.isPrefixOf_iff_prefix.2 hd)]
    by_cases h5 : helpFlag <:+: text
    · rw [if_pos (contains_iff.2 h5)]
    · rw [if_neg (by rw [not_contains h5]; decide)]
      by_cases h6 : listFlag <:+: text
      · rw [if_pos (contains_iff.2 h6)]
      · rw [if_neg (by rw [not_contains h6]; decide)]
        rw [if_pos (contains_iff.2 ((h.resolve_left h5).resolve_left h6))]
  unfold define
  rw [this]
  rfl

/-- A type that is entered is added with its constructors, if the types it mentions are known and there is no type of its name. -/
theorem line_defines_type_partial (L : Parse.Laws C) (hb : Begun C s0) (h : run C false s0 es = some s) {text : Str} (files : List (String × Option Str)) (hp : Plain text)
    (hd : tyWord <+: text) {rest : Str} {dt : Parse.DefTy} (ht : Parse.definitionType (envOf C s.defs) text = .ok rest dt)
    {sh : Defs.Shape Defs.Field} (hsh : Defs.parsedShape s.defs.types (rawShape dt.body) = some sh) (hn : AMap.get s.defs.types (Prog.str dt.name) = none) :
    ∃ s', step C false s (.line text files) = some s' ∧ s'.env = s.env ∧
      (∀ n, AMap.get s'.defs.types n = if n = Prog.str dt.name then some (.def_ ⟨.shell, Prog.str dt.name, sh⟩) else AMap.get s.defs.types n) ∧
      (∀ n t, s'.defs.entry n (some t) = s.defs.entry n (some t)) ∧
      (∀ n, n ∉ (Defs.ctors ⟨.shell, Prog.str dt.name, sh⟩).map (·.1) → s'.defs.entry n none = s.defs.entry n none) ∧
      (∀ n ∈ (Defs.ctors ⟨.shell, Prog.str dt.name, sh⟩).map (·.1), ∃ i, (n, i) ∈ Defs.ctors ⟨.shell, Prog.str dt.name, sh⟩ ∧
        s'.defs.entry n none = some (.intrinsic .shell (.ctor (Prog.str dt.name) i))) := by
  obtain ⟨h1, h2, h3, h4⟩ := ty_line hd
  have hw := Defs.reach_wf Defs.base_wf (lines_are_requests L hb h)
  have hadd : ∀ cs (d : Defs.Defs), ∃ d', Defs.addCtors false d .shell (Prog.str dt.name) cs = some d' := by
    intro cs
    induction cs with
    | nil => exact fun d => ⟨d, rfl⟩
    | cons c cs ih => exact fun d => ih _
  have hins : ∃ d', Defs.insertType false s.defs .shell (Prog.str dt.name) (rawShape dt.body) = .ok d' := by
    unfold Defs.insertType
    rw [hsh]
    dsimp only
    rw [if_neg (by simp [AMap.has_iff, hn])]
    obtain ⟨d', h5⟩ := hadd (Defs.ctors ⟨.shell, Prog.str dt.name, sh⟩) { s.defs with types := AMap.insert s.defs.types (Prog.str dt.name) (.def_ ⟨.shell, Prog.str dt.name, sh⟩) }
    exact ⟨d', by rw [h5]⟩
  obtain ⟨d', hins⟩ := hins
  obtain ⟨sh', h5, _, _, h6, h7, h8, h9⟩ := Defs.insertType_ok hw hins
  rw [hsh] at h5
  cases h5
  refine ⟨⟨d', s.env⟩, ?_, rfl, fun n => ?_, h7, h8, h9⟩
  · rw [enter_define h1 h2 h3 hp.load]
    have : reqOf (envOf C s.defs) s.defs text = some (.type_ (Prog.str dt.name) (rawShape dt.body)) := by
      unfold reqOf tyReq
      rw [if_neg (by rw [h4]; decide), if_pos (List.isPrefixOf_iff_prefix.2 hd), if_neg (by rw [not_contains hp.help]; decide), if_neg (by rw [not_contains hp.list]; decide),
        if_neg (by rw [not_contains hp.clear]; decide), ht]
    unfold define
    simp only [this, Defs.process, hins]
    rfl
  · show AMap.get d'.types n = _
    rw [h6, AMap.get_insert]
    by_cases e : n = Prog.str dt.name
    · rw [if_pos e, if_pos e.symm]
    · rw [if_neg e, if_neg fun x => e x.symm]

/-! ### Built-in commands -/

theorem said_clash {r : Defs.Req} (h : ∀ e ∈ es, ∀ t ∈ e.texts C, ¬ Takes C t) (hr : Said C es r) : ¬ r.Clash := by
  obtain ⟨e, he, t, ht, d, hq⟩ := hr
  intro hc
  cases r with
  | type_ n sh =>
    obtain ⟨rest, dt, h1, rfl, rfl⟩ := reqOf_type hq
    obtain ⟨name, body⟩ := dt
    cases body with
    | sum vs => exact hc
    | product fs =>
      obtain ⟨i, hi⟩ := hc
      exact h e he t ht ⟨_, rest, name, fs, i, h1, hi⟩
  | _ => exact hc

/-- Whatever is entered or loaded, all that is built in stays, if no record type is given the name of a built-in command. -/
theorem lines_keep_builtins_partial (L : Parse.Laws C) (hb : Begun C s0) (h : run C checked s0 es = some s) (hc : ∀ e ∈ es, ∀ t ∈ e.texts C, ¬ Takes C t) :
    (∀ n k i, Defs.base.entry n k = some i → s.defs.entry n k = some i) ∧ ∀ n e, AMap.get Defs.base.types n = some e → AMap.get s.defs.types n = some e := by
  have hr := run_good (P := fun r => r.Ident ∧ ¬ r.Clash) es (begun_good hb)
    (fun e he t ht d r hq => ⟨reqOf_ident L hq, said_clash hc ⟨e, he, t, ht, d, hq⟩⟩) h
  refine ⟨fun n k i hi => ?_, fun n e he => Defs.base_types_stay hr.reach n e he⟩
  cases k with
  | none => exact Defs.generic_stay (fun r h => h) hr.reach n i hi
  | some t => exact Defs.typed_stay hr.reach n t i hi

/-- Clearing then gives back exactly what is built in. -/
theorem clear_line_restores_partial (L : Parse.Laws C) (hb : Begun C s0) (h : run C checked s0 es = some s) (hc : ∀ e ∈ es, ∀ t ∈ e.texts C, ¬ Takes C t)
    {text : Str} (files : List (String × Option Str)) (hd : defWord <+: text) (hl : ¬ loadFlag <:+: text) (hh : ¬ helpFlag <:+: text) (hli : ¬ listFlag <:+: text)
    (hcl : clearFlag <:+: text) :
    ∃ s', step C checked s (.line text files) = some s' ∧ (∀ n k, s'.defs.entry n k = Defs.base.entry n k) ∧
      ∀ n, AMap.get s'.defs.types n = AMap.get Defs.base.types n := by
  have hr := run_good (P := fun r => r.Ident ∧ ¬ r.Clash) es (begun_good hb)
    (fun e he t ht d r hq => ⟨reqOf_ident L hq, said_clash hc ⟨e, he, t, ht, d, hq⟩⟩) h
  obtain ⟨os, h1, h2, _⟩ := reach_run hr.reach
  obtain ⟨h3, _, _, h4⟩ := Defs.clear_restores_partial checked os s.defs h2 h1
  exact ⟨_, (phrase_lines files hd hl).2.2 hh hli hcl, h3, h4⟩

end Verif.Enter

namespace Verif.Enter
open Verif Verif.Exp Verif.Comp Verif.Prog Verif.Lang
variable {N : Type} {g : Graph} {C : Parse.Env} {checked : Bool} {s0 s : Session} {es : List Event}

/-- **C81, C84**: after any lines and files, an expression that is entered and compiles can be evaluated safely, under what C81 assumes of
definitions and `let`. -/
theorem lines_run_safely_partial (L : Parse.Laws C) (hb : Begun C s0) (hrun : run C checked s0 es = some s) (hc : ClearTypes s.defs) {text rest : Parse.Str}
    {x : Parse.Expr} (ht : Parse.expression (envOf C s.defs) text = .ok rest x) (hsh : Short (defsOf s.env s.defs) (readE x))
    (hl : LetsDiffer (defsOf s.env s.defs) (readE x) "let") (hg : init (defsOf s.env s.defs) (readE x) = .ok g) {W : World N}
    (hfiles : ∀ p t, W.files p = some t → okRs (shapeOf s.defs) t = true) (hopen : ∀ p t, W.openTab p = some t → okRs (shapeOf s.defs) t = true)
    (hdur : ∀ op, okRs (shapeOf s.defs) (W.duration op) = true) {num : String → N} {ord : List Nat → List Nat} (hord : OrderOk ord) {root : Tab.Ty}
    {seeds : List (String × Tab.Ty)} {notes : List (Note Tab.Ty)} {b c : S Tab.Ty}
    (hs : begins (ast (defsOf s.env s.defs) (storedTypes s.defs) (number (cmdsOf s.defs)) g) (storedTypes s.defs) g root seeds notes = .ok b) {f : Nat}
    (h : compile (ast (defsOf s.env s.defs) (storedTypes s.defs) (number (cmdsOf s.defs)) g)
      ((talks ((W.typed s.defs).on (cmdsOf s.defs) g)).builtins (ast (defsOf s.env s.defs) (storedTypes s.defs) (number (cmdsOf s.defs)) g)) ord f 0 b = some (.ok c)) :
    ∃ u, Ty.Settled (c.tg.kn 0 .out) u ∧
      ∀ n ≥ c.steps.length, ∀ v env, v.ty = root → okV (shapeOf s.defs) v = true → (∀ x ∈ env, okV (shapeOf s.defs) x = true) →
        Ready0 (exec ((W.typed s.defs).on (cmdsOf s.defs) g) (ast (defsOf s.env s.defs) (storedTypes s.defs) (number (cmdsOf s.defs)) g) (literal num g)) c (seeds.map (·.1)) env →
        Sound (shapeOf s.defs) u (evalExpr (ast (defsOf s.env s.defs) (storedTypes s.defs) (number (cmdsOf s.defs)) g)
          (exec ((W.typed s.defs).on (cmdsOf s.defs) g) (ast (defsOf s.env s.defs) (storedTypes s.defs) (number (cmdsOf s.defs)) g) (literal num g)) c n 0 v env) := by
  obtain ⟨os, hd, _, _⟩ := reach_run (lines_are_requests L hb hrun)
  obtain ⟨htx, henv⟩ := texts_stored L hb hrun
  refine sessions_run_safely_partial hd (ks := s.env) (fun src => ?_) htx hc (laws_known L _) ht hsh hl hg hfiles hopen hdur hord hs h
  obtain ⟨k, hk⟩ := henv src
  rw [hk]
  exact laws_known L k

end Verif.Enter

namespace Verif.Enter
open Verif Verif.Lang

/-! ### Where it goes wrong -/

/-- The session after these lines and files, if there was no panic. -/
def after (es : List Event) : Option Session := (start asciiEnv).bind fun s => run asciiEnv false s es

def line (s : String) : Event := .line s.toList []

/-- The entries of a session, at these keys. -/
def found (o : Option Session) (l : List (String × Option Defs.Ty)) : Option (List Bool) := o.map fun s => l.map fun x => (s.defs.entry x.1 x.2).isSome

theorem ascii_begins : (start asciiEnv).map (fun s => decide (s.defs = Defs.base)) = some true := by decide +kernel

theorem ascii_begun : ∃ s, Begun asciiEnv s ∧ ∀ es, after es = run asciiEnv false s es := by
  have h := ascii_begins
  cases hs : start asciiEnv with
  | none => rw [hs] at h; cases h
  | some s =>
    rw [hs] at h
    refine ⟨s, ⟨hs, of_decide_eq_true (Option.some.inj h)⟩, fun es => ?_⟩
    unfold after
    rw [hs]
    rfl

/-- The same without the texts of the derived commands. -/
def quick (es : List Event) : Option Session := run asciiEnv false ⟨Defs.base, fun _ => asciiEnv⟩ es

theorem after_defs (es : List Event) : (after es).map (·.defs) = (quick es).map (·.defs) := by
  obtain ⟨⟨d, e⟩, h1, h2⟩ := ascii_begun
  rw [h2]
  have := h1.defs
  dsimp only at this
  subst this
  exact run_alike _ _ _ _ _ _

theorem after_found (es : List Event) (l : List (String × Option Defs.Ty)) : found (after es) l = found (quick es) l := by
  have h := congrArg (Option.map fun d : Defs.Defs => l.map fun x => (d.entry x.1 x.2).isSome) (after_defs es)
  rw [Option.map_map, Option.map_map] at h
  exact h

theorem after_some (es : List Event) : (after es).isSome = (quick es).isSome := by
  have h := congrArg Option.isSome (after_defs es)
  rw [Option.isSome_map, Option.isSome_map] at h
  exact h

/-- The phrases are found in strings as well: the third line clears all definitions. -/
theorem clear_in_a_string : found (after [line "def f () { \\ 1 }"]) [("f", none)] = some [true] ∧
    found (after [line "def f () { \\ 1 }", line "def g () { \\ 'try --clear' }"]) [("f", none), ("g", none)] = some [false, false] := by
  rw [after_found, after_found]
  decide +kernel

/-- This line loads the definition files, and defines nothing. -/
theorem load_in_a_string : found (after [.line "def g () { \\ ' --load' }".toList [("a.ogma", some "def h () { \\ 2 }\n".toList)]]) [("g", none), ("h", none)] =
    some [false, true] := by
  rw [after_found]
  decide +kernel

/-- The program ends with a panic, at a path. -/
theorem path_panics : (after []).isSome = true ∧ (after [line "def f () { a/b }"]).isSome = false := by
  rw [after_some, after_some]
  decide +kernel

/-- The documents of the language server are loaded in no fixed order, and the order matters. -/
theorem load_order_matters :
    found (after [.reload [("a", "def-ty A { x:Num }\n".toList), ("b", "def f A () { get x }\n".toList)]]) [("f", some (.def_ "A"))] = some [true] ∧
    found (after [.reload [("b", "def f A () { get x }\n".toList), ("a", "def-ty A { x:Num }\n".toList)]]) [("f", some (.def_ "A"))] = some [false] := by
  rw [after_found, after_found]
  decide +kernel

/-- An item of a file can clear what was defined before, even in the same file. -/
theorem file_can_clear :
    found (after [line "def f () { \\ 1 }", .line "def --load".toList [("a", some "def g () { \\ 2 }\n\ndef h () { \\ ' --clear' }\n\ndef k () { \\ 3 }\n".toList)]])
      [("f", none), ("g", none), ("h", none), ("k", none)] = some [false, false, false, true] := by
  rw [after_found]
  decide +kernel

end Verif.Enter

namespace Verif.Enter
open Verif Verif.Lang Verif.Exp Verif.Comp Verif.Prog

/-! ### Sessions that meet what is assumed -/

/-- Types and commands, entered and loaded. -/
def lines : List Event := [line "def-ty Pt { x:Num y:Num }", line "range 0 3", line "def twice Num () { * 2 }", line "def twice Nope () { * 2 }",
  .line "def --load".toList [("lib.ogma", some "# Shapes.\ndef-ty Sh :: Dot { at:Pt } | Null\n\ndef thrice Num () { + { twice } }\n".toList), ("gone.ogma", none)]]

def plain (t : Str) : Bool := !contains helpFlag t && !contains listFlag t && !contains clearFlag t && !contains loadFlag t

theorem plain_ok {t : Str} (h : plain t = true) : Plain t := by
  simp only [plain, Bool.and_eq_true, Bool.not_eq_true', Bool.eq_false_iff, ne_eq, contains_iff] at h
  exact ⟨h.1.1.1, h.1.1.2, h.1.2, h.2⟩

def takes (t : Str) : Bool :=
  match Parse.definitionType asciiEnv t with
  | .ok _ ⟨n, .product _⟩ => (Defs.base.entry (Prog.str n) none).isSome
  | _ => false

/-- Whether a definition in this session would be added, for this key. -/
def adds (o : Option Session) (t : String) (n : String) (k : Option Defs.Ty) : Bool :=
  match o with
  | none => false
  | some s => plain t.toList && defWord.isPrefixOf t.toList && match Parse.definitionImpl (envOf asciiEnv s.defs) t.toList with
    | .ok _ df => decide (checkOps s.defs (opsE df.body) = some true) && decide (Prog.str df.name = n) && decide (keyOf s.defs (df.inTy.map Prog.str) = some k) &&
      (s.defs.entry n k).isNone
    | _ => false

theorem after_adds (es : List Event) (t n : String) (k : Option Defs.Ty) : adds (after es) t n k = adds (quick es) t n k := by
  have h := after_defs es
  cases h1 : after es with
  | none =>
    cases h2 : quick es with
    | none => rfl
    | some s2 => rw [h1, h2] at h; cases h
  | some s1 =>
    cases h2 : quick es with
    | none => rw [h1, h2] at h; cases h
    | some s2 =>
      rw [h1, h2] at h
      have h : s1.defs = s2.defs := Option.some.inj h
      unfold adds
      dsimp only
      rw [h]

/-- For C84: the lines are taken, and another definition could be added. -/
example : ∃ s0 s, Begun asciiEnv s0 ∧ Parse.Laws asciiEnv ∧ run asciiEnv false s0 lines = some s ∧
    found (some s) [("Pt", none), ("twice", some .num), ("twice", none), ("Sh::Dot", none), ("thrice", some .num)] = some [true, true, false, true, true] ∧
    (∃ rest df, Parse.definitionImpl (envOf asciiEnv s.defs) "def six Num () { twice | thrice }".toList = .ok rest df ∧ AllKnown s.defs df.body ∧
      Means s.defs df.inTy (some .num) ∧ Plain "def six Num () { twice | thrice }".toList ∧ s.defs.entry (Prog.str df.name) (some .num) = none) := by
  obtain ⟨s0, h0, ha⟩ := ascii_begun
  have h1 : (after lines).isSome = true := by rw [after_some]; decide +kernel
  obtain ⟨s, h2⟩ := Option.isSome_iff_exists.1 h1
  have h3 : found (after lines) [("Pt", none), ("twice", some .num), ("twice", none), ("Sh::Dot", none), ("thrice", some .num)] = some [true, true, false, true, true] := by
    rw [after_found]; decide +kernel
  have h4 : adds (after lines) "def six Num () { twice | thrice }" "six" (some .num) = true := by
    rw [after_adds]; decide +kernel
  rw [h2] at h3 h4
  refine ⟨s0, s, h0, ascii_laws, by rw [← ha]; exact h2, h3, ?_⟩
  generalize ht : "def six Num () { twice | thrice }" = t at h4
  simp only [adds, Bool.and_eq_true] at h4
  obtain ⟨⟨h5, _⟩, h6⟩ := h4
  split at h6
  · rename_i rest df hp
    simp only [Bool.and_eq_true, decide_eq_true_eq, Option.isNone_iff_eq_none] at h6
    obtain ⟨⟨⟨h7, h8⟩, h9⟩, h10⟩ := h6
    refine ⟨rest, df, hp, allKnown_iff.1 h7, ?_, plain_ok h5, by rw [h8]; exact h10⟩
    cases hin : df.inTy with
    | none => rw [hin] at h9; cases h9
    | some u =>
      rw [hin] at h9
      obtain ⟨w, h11, h12⟩ := Option.map_eq_some_iff.1 h9
      cases h12
      exact ⟨_, h11, rfl⟩
  · cases h6

/-- For the built-in commands: no record type of the lines takes the name of one. -/
example : ∀ e ∈ lines, ∀ t ∈ e.texts asciiEnv, ¬ Takes asciiEnv t := by
  have h : (lines.all fun e => (e.texts asciiEnv).all fun t => !takes t) = true := by decide +kernel
  intro e he t ht
  have := List.all_eq_true.1 (List.all_eq_true.1 h e he) t ht
  rintro ⟨known, rest, name, fs, i, h1, h2⟩
  have h1 : Parse.definitionType asciiEnv t = .ok rest ⟨name, .product fs⟩ := h1
  rw [takes, h1] at this
  simp only [h2] at this
  cases this

/-- Whether the text is parsed, expanded, started, compiled and evaluated to this number, in the session. -/
def runsIn (o : Option Session) (text : String) (n : Int) : Bool :=
  match o with
  | none => false
  | some s => match Parse.expression (envOf asciiEnv s.defs) text.toList with
    | .ok _ x => match init (defsOf s.env s.defs) (readE x) with
      | .error _ => false
      | .ok g => match begins (ast (defsOf s.env s.defs) (storedTypes s.defs) (number (cmdsOf s.defs)) g) (storedTypes s.defs) g .nil [] [] with
        | .error _ => false
        | .ok b => s.defs.types.all clearAt && fine (defsOf s.env s.defs) 9 (readE x) &&
            compiled (fun c => isNumber n (evalExpr (ast (defsOf s.env s.defs) (storedTypes s.defs) (number (cmdsOf s.defs)) g)
              (exec ((intWorld.typed s.defs).on (cmdsOf s.defs) g) (ast (defsOf s.env s.defs) (storedTypes s.defs) (number (cmdsOf s.defs)) g) (literal (fun x => digits x.toList) g))
              c c.steps.length 0 .nil (List.replicate c.slots.length .nil)))
            (compile (ast (defsOf s.env s.defs) (storedTypes s.defs) (number (cmdsOf s.defs)) g)
              ((talks ((intWorld.typed s.defs).on (cmdsOf s.defs) g)).builtins (ast (defsOf s.env s.defs) (storedTypes s.defs) (number (cmdsOf s.defs)) g)) id 200 0 b)
    | _ => false

/-- For C81 with lines: 7 three times, and the coordinate of the point that is made of it. -/
example : ∃ s0 s, Begun asciiEnv s0 ∧ Parse.Laws asciiEnv ∧ run asciiEnv false s0 lines = some s ∧
    runsIn (some s) "\\ 7 | thrice | Pt #i 3 | get x" 21 = true := by
  obtain ⟨s0, h0, ha⟩ := ascii_begun
  have h1 : (after lines).isSome = true := by rw [after_some]; decide +kernel
  obtain ⟨s, h2⟩ := Option.isSome_iff_exists.1 h1
  have h4 : runsIn (after lines) "\\ 7 | thrice | Pt #i 3 | get x" 21 = true := by decide +kernel
  rw [h2] at h4
  exact ⟨s0, s, h0, ascii_laws, by rw [← ha]; exact h2, h4⟩

end Verif.Enter
