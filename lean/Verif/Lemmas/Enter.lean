import Verif.Spec.Enter
import Verif.Lemmas.LangDefs
import Verif.Props.ParseDefs
namespace Verif.Enter
open Verif

/-! ### Texts -/

theorem contains_iff {p : Str} : ∀ {s : Str}, contains p s = true ↔ p <:+: s
  | [] => by rw [contains, List.isEmpty_iff, List.infix_nil]
  | c :: s => by rw [contains, Bool.or_eq_true, contains_iff, List.isPrefixOf_iff_prefix, List.infix_cons_iff]

theorem not_contains {p s : Str} (h : ¬ p <:+: s) : contains p s = false := by
  rw [Bool.eq_false_iff]; exact fun e => h (contains_iff.1 e)

/-! ### What is known does not change how a definition begins -/

theorem opTail_cls {k k' : Parse.Env} (h : k.cls = k'.cls) : ∀ n i acc, Parse.opTail k n i acc = Parse.opTail k' n i acc
  | 0, _, _ => rfl
  | n + 1, i, acc => by
    rw [Parse.opTail, Parse.opTail, h]
    split
    · rw [opTail_cls h n]
    · rfl

theorem opName_cls {k k' : Parse.Env} (h : k.cls = k'.cls) : Parse.opName k = Parse.opName k' := by
  funext i
  unfold Parse.opName
  rw [h]
  congr 1
  funext i t
  exact opTail_cls h _ _ _

theorem op_cls {k k' : Parse.Env} (h : k.cls = k'.cls) : Parse.op k = Parse.op k' := by
  funext i
  unfold Parse.op Parse.path
  rw [opName_cls h]

theorem defOp_cls {k k' : Parse.Env} (h : k.cls = k'.cls) : Parse.defOp k = Parse.defOp k' := by
  funext i
  unfold Parse.defOp
  rw [op_cls h]

theorem heads {k k' : Parse.Env} (h : k.cls = k'.cls) {t r r' : Str} {df df' : Parse.DefImpl} (h1 : Parse.definitionImpl k t = .ok r df)
    (h2 : Parse.definitionImpl k' t = .ok r' df') : df.name = df'.name ∧ df.inTy = df'.inTy := by
  unfold Parse.definitionImpl at h1 h2
  rw [defOp_cls h, h] at h1
  obtain ⟨i, n, h3, h1⟩ := Nom.PR.bind_ok.1 h1
  obtain ⟨i', n', h4, h2⟩ := Nom.PR.bind_ok.1 h2
  rw [h3] at h4
  cases h4
  obtain ⟨i2, t2, h5, h1⟩ := Nom.PR.bind_ok.1 h1
  obtain ⟨i2', t2', h6, h2⟩ := Nom.PR.bind_ok.1 h2
  rw [h5] at h6
  cases h6
  obtain ⟨_, _, _, h1⟩ := Nom.PR.bind_ok.1 h1
  obtain ⟨_, _, _, h2⟩ := Nom.PR.bind_ok.1 h2
  obtain ⟨_, _, rfl⟩ := Nom.PR.map_ok.1 h1
  obtain ⟨_, _, rfl⟩ := Nom.PR.map_ok.1 h2
  exact ⟨rfl, rfl⟩

theorem laws_known {C : Parse.Env} (L : Parse.Laws C) (f : Str → Bool) : Parse.Laws { C with known := f } := ⟨L.alnum, L.punct, L.num⟩

/-! ### Requests -/

theorem reqOf_impl {k : Parse.Env} {d : Defs.Defs} {text : Str} {m : String} {u : Option String} {ops : List String} {src : String}
    (h : reqOf k d text = some (.impl m u ops src)) :
    ∃ rest df, Parse.definitionImpl k text = .ok rest df ∧ m = Prog.str df.name ∧ u = df.inTy.map Prog.str ∧ src = Prog.str text := by
  unfold reqOf at h
  split at h
  · unfold implReq at h
    split at h
    · cases h
    · split at h
      · cases h
      · split at h
        · cases h
        · split at h
          · rename_i rest df h1
            obtain ⟨b, _, h2⟩ := Option.map_eq_some_iff.1 h
            cases h2
            exact ⟨rest, df, h1, rfl, rfl, rfl⟩
          · cases h
  · split at h
    · unfold tyReq at h
      repeat' split at h
      all_goals cases h
    · cases h

theorem reqOf_type {k : Parse.Env} {d : Defs.Defs} {text : Str} {m : String} {sh : Defs.Shape Defs.RawField}
    (h : reqOf k d text = some (.type_ m sh)) : ∃ rest dt, Parse.definitionType k text = .ok rest dt ∧ m = Prog.str dt.name ∧ sh = rawShape dt.body := by
  unfold reqOf at h
  split at h
  · unfold implReq at h
    split at h
    · cases h
    · split at h
      · cases h
      · split at h
        · cases h
        · split at h
          · obtain ⟨b, _, h2⟩ := Option.map_eq_some_iff.1 h
            cases h2
          · cases h
  · split at h
    · unfold tyReq at h
      split at h
      · cases h
      · split at h
        · cases h
        · split at h
          · cases h
          · split at h
            · rename_i rest dt h1
              cases h
              exact ⟨rest, dt, h1, rfl, rfl⟩
            · cases h
    · cases h

theorem name_plain {C : Parse.Env} (L : Parse.Laws C) {s : Str} (h : Parse.IsName C.cls s) : ':' ∉ (Prog.str s).toList := by
  rw [Prog.str, String.toList_ofList]
  intro hm
  have := h.2 _ hm
  simp only [File.Classes.ident, L.punct ':' (by decide)] at this
  cases this

theorem reqOf_ident {C : Parse.Env} (L : Parse.Laws C) {f : Str → Bool} {d : Defs.Defs} {text : Str} {r : Defs.Req}
    (h : reqOf { C with known := f } d text = some r) : r.Ident := by
  cases r with
  | type_ m sh =>
    obtain ⟨rest, dt, h1, rfl, rfl⟩ := reqOf_type h
    have hg := Parse.type_good h1
    refine ⟨name_plain (laws_known L f) hg.1, ?_⟩
    have hb := hg.2
    cases hd : dt.body with
    | product fs => trivial
    | sum vs =>
      rw [hd] at hb
      intro v hv
      obtain ⟨w, hw, rfl⟩ := List.mem_map.1 hv
      exact name_plain (laws_known L f) (hb w hw).1
  | _ => trivial

/-! ### What holds of a session -/

/-- The definitions are those after some requests, all of this kind; the texts of definitions are stored with what the parser was given. -/
structure Good (P : Defs.Req → Prop) (C : Parse.Env) (checked : Bool) (s : Session) : Prop where
  reach : Defs.Reach P (fun b => b = false) checked Defs.base s.defs
  stored : Lang.Stored s.env s.defs
  envs : ∀ src, ∃ f, s.env src = { C with known := f }

/-- What is stored is read as what it is stored for. -/
def Fits (env : String → Parse.Env) (n : String) (ty : Option Defs.Ty) : Defs.Impl → Prop
  | .definition _ src => Lang.TextOf (env src) n (ty.map Lang.tyName) src
  | _ => True

theorem stored_fits {env : String → Parse.Env} {d : Defs.Defs} : Lang.Stored env d ↔ ∀ n ty i, d.entry n ty = some i → Fits env n ty i := by
  constructor
  · intro h n ty i hi
    cases i with
    | definition l src => exact h n ty l src hi
    | intrinsic l f => trivial
  · intro h n ty l src hi
    exact h n ty _ hi

theorem fits_noted {C : Parse.Env} {f : Str → Bool} {env : String → Parse.Env} (he : ∀ src, ∃ f, env src = { C with known := f }) {m : String} {u : Option String}
    {ops : List String} {src : String} (ht : Lang.TextOf { C with known := f } m u src) {n : String} {ty : Option Defs.Ty} {i : Defs.Impl} (h : Fits env n ty i) :
    Fits (noted { C with known := f } env (.impl m u ops src)) n ty i := by
  cases i with
  | intrinsic l g => trivial
  | definition l x =>
    show Lang.TextOf (if x = src then _ else env x) _ _ _
    have h : Lang.TextOf (env x) n (ty.map Lang.tyName) x := h
    split
    · rename_i e
      subst e
      obtain ⟨r1, d1, h1, rfl, h2⟩ := h
      obtain ⟨r2, d2, h3, rfl, rfl⟩ := ht
      obtain ⟨g, hg⟩ := he x
      rw [hg] at h1
      obtain ⟨e1, e2⟩ := heads (by rfl) h1 h3
      exact ⟨r2, d2, h3, by rw [e1], by rw [h2, e2]⟩
    · exact h

theorem noted_envs {C : Parse.Env} {f : Str → Bool} {env : String → Parse.Env} (he : ∀ src, ∃ f, env src = { C with known := f }) (r : Defs.Req) :
    ∀ src, ∃ g, noted { C with known := f } env r src = { C with known := g } := by
  intro src
  cases r with
  | impl m u ops x =>
    show ∃ g, (if src = x then _ else env src) = _
    split
    · exact ⟨f, rfl⟩
    · exact he src
  | _ => exact he src

theorem define_ok {P : Defs.Req → Prop} {C : Parse.Env} {checked : Bool} {s s' : Session} {loc : Defs.Loc} {text : Str} (hs : Good P C checked s)
    (hl : loc ≠ .ogma) (hP : ∀ r, reqOf (envOf C s.defs) s.defs text = some r → P r) (h : define C checked s loc text = .ok s') : Good P C checked s' := by
  unfold define at h
  split at h
  · cases h
  · rename_i r hr
    split at h
    · rename_i d hp
      cases h
      refine ⟨.request hs.reach hl (hP r hr) hp, ?_, noted_envs hs.envs r⟩
      rw [stored_fits]
      show ∀ n ty i, d.entry n ty = some i → Fits (noted (envOf C s.defs) s.env r) n ty i
      have old := stored_fits.1 hs.stored
      refine Lang.entries_step hs.reach (fun _ _ _ _ _ => trivial) hp ?_ ?_
      · intro n ty i hi
        cases r with
        | impl m u ops src =>
          obtain ⟨rest, df, h1, rfl, rfl, rfl⟩ := reqOf_impl hr
          exact fits_noted hs.envs ⟨rest, df, by rw [Prog.str, String.toList_ofList]; exact h1, rfl, rfl⟩ (old n ty i hi)
        | _ => exact old n ty i hi
      · rintro m u ops src ty rfl rfl
        obtain ⟨rest, df, h1, h2, h3, rfl⟩ := reqOf_impl hr
        show Lang.TextOf (if Prog.str text = Prog.str text then _ else _) _ _ _
        rw [if_pos rfl]
        exact ⟨rest, df, by rw [Prog.str, String.toList_ofList]; exact h1, h2, h3⟩
    · cases h
    · cases h

theorem define_err {C : Parse.Env} {checked : Bool} {s s' : Session} {loc : Defs.Loc} {text : Str} (h : define C checked s loc text = .err s') : s' = s := by
  unfold define at h
  split at h
  · cases h
  · split at h
    · cases h
    · rename_i d hp
      cases h
      rw [Defs.process_err hp]
    · cases h

theorem addItems_good {P : Defs.Req → Prop} {C : Parse.Env} {checked : Bool} {path : String} : ∀ (is : List File.Item) {s s' : Session}, Good P C checked s →
    (∀ i ∈ is, ∀ d r, reqOf (envOf C d) d i.code = some r → P r) → (addItems C checked path s is).after = some s' → Good P C checked s'
  | [], s, s', hs, _, h => by cases h; exact hs
  | i :: is, s, s', hs, hP, h => by
    rw [addItems] at h
    split at h
    · rename_i s1 h1
      exact addItems_good is (define_ok hs (by intro e; cases e) (fun r hr => hP i (.head _) _ r hr) h1) (fun j hj => hP j (List.mem_cons_of_mem _ hj)) h
    · cases hd : define C checked s (.file path i.line) i.code with
      | ok s1 => rename_i h1; exact absurd hd (h1 s1)
      | err s1 => rw [hd] at h; cases h; rw [define_err hd]; exact hs
      | panic => rw [hd] at h; cases h

theorem addText_good {P : Defs.Req → Prop} {C : Parse.Env} {checked : Bool} {path : String} {s s' : Session} {text : Str} (hs : Good P C checked s)
    (hP : ∀ t ∈ Event.texts.fileTexts C (some text), ∀ d r, reqOf (envOf C d) d t = some r → P r) (h : (addText C checked path s text).after = some s') :
    Good P C checked s' := by
  unfold addText at h
  rw [Event.texts.fileTexts] at hP
  split at h
  · rename_i f hf
    simp only [hf] at hP
    exact addItems_good _ hs (fun i hi => hP _ (List.mem_map.2 ⟨i, hi, rfl⟩)) h
  · cases h; exact hs
  · cases h

theorem loadAll_good {P : Defs.Req → Prop} {C : Parse.Env} {checked : Bool} : ∀ (fs : List (String × Option Str)) {s s' : Session}, Good P C checked s →
    (∀ f ∈ fs, ∀ t ∈ Event.texts.fileTexts C f.2, ∀ d r, reqOf (envOf C d) d t = some r → P r) → loadAll C checked s fs = some s' → Good P C checked s'
  | [], s, s', hs, _, h => by cases h; exact hs
  | (p, none) :: fs, s, s', hs, hP, h => loadAll_good fs hs (fun f hf => hP f (List.mem_cons_of_mem _ hf)) h
  | (p, some text) :: fs, s, s', hs, hP, h => by
    rw [loadAll] at h
    obtain ⟨s1, h1, h2⟩ := Option.bind_eq_some_iff.1 h
    exact loadAll_good fs (addText_good hs (hP (p, some text) (.head _)) h1) (fun f hf => hP f (List.mem_cons_of_mem _ hf)) h2

theorem clear_good {P : Defs.Req → Prop} {C : Parse.Env} {checked : Bool} {s : Session} (hs : Good P C checked s) : Good P C checked ⟨s.defs.clear false, s.env⟩ :=
  ⟨.clear hs.reach rfl, stored_fits.2 (Lang.entries_clear hs.reach (stored_fits.1 hs.stored) false), hs.envs⟩

theorem step_good {P : Defs.Req → Prop} {C : Parse.Env} {checked : Bool} {s s' : Session} {e : Event} (hs : Good P C checked s)
    (hP : ∀ t ∈ e.texts C, ∀ d r, reqOf (envOf C d) d t = some r → P r) (h : step C checked s e = some s') : Good P C checked s' := by
  cases e with
  | line text files =>
    have h : enter C checked s text files = some s' := h
    have hP : ∀ t ∈ text :: files.flatMap fun f => Event.texts.fileTexts C f.2, ∀ d r, reqOf (envOf C d) d t = some r → P r := hP
    unfold enter at h
    split at h
    · cases h; exact hs
    · split at h
      · cases h; exact hs
      · split at h
        · split at h
          · exact loadAll_good files hs (fun f hf t ht => hP t (List.mem_cons_of_mem _ (List.mem_flatMap.2 ⟨f, hf, ht⟩))) h
          · cases hd : define C checked s .shell text with
            | ok s1 =>
              rw [hd] at h
              cases h
              exact define_ok hs (by intro e; cases e) (fun r hr => hP text (.head _) _ r hr) hd
            | err s1 => rw [hd] at h; cases h; rw [define_err hd]; exact hs
            | panic => rw [hd] at h; cases h
        · cases h; exact hs
  | reload docs =>
    refine loadAll_good _ (clear_good hs) ?_ h
    intro f hf t ht
    obtain ⟨x, hx, rfl⟩ := List.mem_map.1 hf
    exact hP t (List.mem_flatMap.2 ⟨x, hx, ht⟩)

theorem run_good {P : Defs.Req → Prop} {C : Parse.Env} {checked : Bool} : ∀ (es : List Event) {s s' : Session}, Good P C checked s →
    (∀ e ∈ es, ∀ t ∈ e.texts C, ∀ d r, reqOf (envOf C d) d t = some r → P r) → run C checked s es = some s' → Good P C checked s'
  | [], s, s', hs, _, h => by cases h; exact hs
  | e :: es, s, s', hs, hP, h => by
    rw [run] at h
    obtain ⟨s1, h1, h2⟩ := Option.bind_eq_some_iff.1 h
    exact run_good es (step_good hs (hP e (.head _)) h1) (fun x hx => hP x (List.mem_cons_of_mem _ hx)) h2

/-! ### The definitions do not depend on the kept environments -/

/-- What an outcome says about the definitions. -/
def Out.defs : Out → Option (Bool × Defs.Defs)
  | .ok s => some (true, s.defs)
  | .err s => some (false, s.defs)
  | .panic => none

theorem define_alike (C : Parse.Env) (checked : Bool) (d : Defs.Defs) (e1 e2 : String → Parse.Env) (loc : Defs.Loc) (text : Str) :
    (define C checked ⟨d, e1⟩ loc text).defs = (define C checked ⟨d, e2⟩ loc text).defs := by
  unfold define
  dsimp only
  cases reqOf (envOf C d) d text with
  | none => rfl
  | some r =>
    dsimp only
    cases Defs.process checked d loc r <;> rfl

theorem Out.alike {o1 o2 : Out} (h : o1.defs = o2.defs) :
    (∃ d e1 e2, o1 = .ok ⟨d, e1⟩ ∧ o2 = .ok ⟨d, e2⟩) ∨ (∃ d e1 e2, o1 = .err ⟨d, e1⟩ ∧ o2 = .err ⟨d, e2⟩) ∨ o1 = .panic ∧ o2 = .panic := by
  cases o1 <;> cases o2 <;> simp only [Out.defs, Option.some.injEq, Prod.mk.injEq] at h
  case ok.ok s1 s2 =>
    obtain ⟨d1, e1⟩ := s1
    obtain ⟨d2, e2⟩ := s2
    have := h.2
    dsimp only at this
    subst this
    exact .inl ⟨_, _, _, rfl, rfl⟩
  case err.err s1 s2 =>
    obtain ⟨d1, e1⟩ := s1
    obtain ⟨d2, e2⟩ := s2
    have := h.2
    dsimp only at this
    subst this
    exact .inr (.inl ⟨_, _, _, rfl, rfl⟩)
  case panic.panic => exact .inr (.inr ⟨rfl, rfl⟩)
  all_goals first | (exact absurd h.1 (by decide)) | cases h

theorem addItems_alike (C : Parse.Env) (checked : Bool) (path : String) : ∀ (is : List File.Item) (d : Defs.Defs) (e1 e2 : String → Parse.Env),
    (addItems C checked path ⟨d, e1⟩ is).defs = (addItems C checked path ⟨d, e2⟩ is).defs
  | [], _, _, _ => rfl
  | i :: is, d, e1, e2 => by
    rw [addItems, addItems]
    rcases Out.alike (define_alike C checked d e1 e2 (.file path i.line) i.code) with ⟨d', a, b, h1, h2⟩ | ⟨d', a, b, h1, h2⟩ | ⟨h1, h2⟩
    · rw [h1, h2]; exact addItems_alike C checked path is d' a b
    · rw [h1, h2]; rfl
    · rw [h1, h2]

theorem after_alike {o1 o2 : Out} (h : o1.defs = o2.defs) :
    (∃ d e1 e2, o1.after = some ⟨d, e1⟩ ∧ o2.after = some ⟨d, e2⟩) ∨ o1.after = none ∧ o2.after = none := by
  rcases Out.alike h with ⟨d', a, b, h1, h2⟩ | ⟨d', a, b, h1, h2⟩ | ⟨h1, h2⟩
  · exact .inl ⟨d', a, b, by rw [h1]; rfl, by rw [h2]; rfl⟩
  · exact .inl ⟨d', a, b, by rw [h1]; rfl, by rw [h2]; rfl⟩
  · exact .inr ⟨by rw [h1]; rfl, by rw [h2]; rfl⟩

theorem addText_alike (C : Parse.Env) (checked : Bool) (path : String) (d : Defs.Defs) (e1 e2 : String → Parse.Env) (text : Str) :
    (addText C checked path ⟨d, e1⟩ text).defs = (addText C checked path ⟨d, e2⟩ text).defs := by
  unfold addText
  split
  · exact addItems_alike C checked path _ d e1 e2
  · rfl
  · rfl

theorem loadAll_alike (C : Parse.Env) (checked : Bool) : ∀ (fs : List (String × Option Str)) (d : Defs.Defs) (e1 e2 : String → Parse.Env),
    (loadAll C checked ⟨d, e1⟩ fs).map (·.defs) = (loadAll C checked ⟨d, e2⟩ fs).map (·.defs)
  | [], _, _, _ => rfl
  | (_, none) :: fs, d, e1, e2 => loadAll_alike C checked fs d e1 e2
  | (p, some text) :: fs, d, e1, e2 => by
    rw [loadAll, loadAll]
    rcases after_alike (addText_alike C checked p d e1 e2 text) with ⟨d', a, b, h1, h2⟩ | ⟨h1, h2⟩
    · rw [h1, h2]; exact loadAll_alike C checked fs d' a b
    · rw [h1, h2]

theorem step_alike (C : Parse.Env) (checked : Bool) (d : Defs.Defs) (e1 e2 : String → Parse.Env) (e : Event) :
    (step C checked ⟨d, e1⟩ e).map (·.defs) = (step C checked ⟨d, e2⟩ e).map (·.defs) := by
  cases e with
  | reload docs => exact loadAll_alike C checked _ _ e1 e2
  | line text files =>
    show (enter C checked _ text files).map _ = (enter C checked _ text files).map _
    unfold enter
    split
    · rfl
    · split
      · rfl
      · split
        · split
          · exact loadAll_alike C checked _ _ e1 e2
          · rcases after_alike (define_alike C checked d e1 e2 .shell text) with ⟨d', a, b, h1, h2⟩ | ⟨h1, h2⟩
            · rw [h1, h2]; rfl
            · rw [h1, h2]
        · rfl

theorem run_alike (C : Parse.Env) (checked : Bool) : ∀ (es : List Event) (d : Defs.Defs) (e1 e2 : String → Parse.Env),
    (run C checked ⟨d, e1⟩ es).map (·.defs) = (run C checked ⟨d, e2⟩ es).map (·.defs)
  | [], _, _, _ => rfl
  | e :: es, d, e1, e2 => by
    rw [run, run]
    have h := step_alike C checked d e1 e2 e
    cases h1 : step C checked ⟨d, e1⟩ e with
    | none =>
      cases h2 : step C checked ⟨d, e2⟩ e with
      | none => rfl
      | some s2 => rw [h1, h2] at h; cases h
    | some s1 =>
      cases h2 : step C checked ⟨d, e2⟩ e with
      | none => rw [h1, h2] at h; cases h
      | some s2 =>
        rw [h1, h2] at h
        obtain ⟨d1, a⟩ := s1
        obtain ⟨d2, b⟩ := s2
        have h : d1 = d2 := Option.some.inj h
        subst h
        exact run_alike C checked es d1 a b

/-! ### The beginning -/

theorem bare_list : ∀ x ∈ bare.impls, (x.2.tys.map (·.1)).Nodup ∧ x.2.isEmpty = false ∧ (∀ y ∈ x.2.tys, y.2 matches .intrinsic _ _) ∧
    (∀ i, x.2.agnostic = some i → i matches .intrinsic _ _) := by decide +kernel

theorem bare_wf : bare.Wf := by
  refine ⟨by unfold AMap.Wf; decide +kernel, ?_, Defs.base_wf.types, Defs.base_wf.names⟩
  intro n k h
  have := bare_list _ (AMap.mem_of_get h)
  exact ⟨this.1, this.2.1⟩

theorem bare_stored (env : String → Parse.Env) : Lang.Stored env bare := by
  intro n ty l src h
  unfold Defs.Defs.entry at h
  cases hg : AMap.get bare.impls n with
  | none => cases ty <;> simp [hg] at h
  | some ks =>
    obtain ⟨_, _, h1, h2⟩ := bare_list _ (AMap.mem_of_get hg)
    cases ty with
    | none =>
      rw [hg] at h
      cases h2 _ h
    | some t =>
      rw [hg] at h
      cases h1 _ (AMap.mem_of_get h)

/-- What holds while the derived commands are added. -/
structure Building (C : Parse.Env) (s : Session) : Prop where
  wf : s.defs.Wf
  types : s.defs.types = Defs.baseTypes
  stored : Lang.Stored s.env s.defs
  envs : ∀ src, ∃ f, s.env src = { C with known := f }

theorem tyOf_base {n : String} {t : Defs.Ty} (h : Defs.tyOf Defs.baseTypes n = some t) : Lang.tyName t = n :=
  Lang.tyOf_name (d := Defs.base) (P := fun _ => True) (C := fun _ => True) (checked := false) .refl h

theorem addDerived_ok {C : Parse.Env} {s s' : Session} {src : String} (hs : Building C s) (h : addDerived C s src = some s') : Building C s' := by
  unfold addDerived at h
  split at h
  · rename_i rest df hp
    split at h
    · cases h
    · rename_i ty hk
      split at h
      · rename_i d hi
        cases h
        obtain ⟨h1, h2, _, h3⟩ := Defs.insertImpl_ok hs.wf hi
        have ht : ty.map Lang.tyName = df.inTy.map Prog.str := by
          cases hin : df.inTy with
          | none => rw [hin] at hk; cases hk; rfl
          | some t =>
            rw [hin] at hk
            obtain ⟨u, h4, rfl⟩ := Option.map_eq_some_iff.1 hk
            rw [hs.types] at h4
            rw [Option.map_some, Option.map_some, tyOf_base h4]
        refine ⟨h1, by rw [← hs.types]; exact h2, ?_, noted_envs (f := (envOf C s.defs).known) hs.envs (.impl (Prog.str df.name) (df.inTy.map Prog.str) [] src)⟩
        have htext : Lang.TextOf (envOf C s.defs) (Prog.str df.name) (df.inTy.map Prog.str) src := ⟨rest, df, hp, rfl, rfl⟩
        rw [stored_fits]
        intro n ty' i hi0
        have hi' : d.entry n ty' = some i := hi0
        clear hi0
        rw [h3] at hi'
        split at hi'
        · rename_i hc
          obtain ⟨rfl, rfl⟩ := hc
          cases hi'
          show Lang.TextOf (if src = src then _ else _) _ _ _
          rw [if_pos rfl, ht]
          exact htext
        · exact fits_noted (ops := []) hs.envs htext (stored_fits.1 hs.stored _ _ _ hi')
      · cases h
  · cases h

theorem addAllDerived_ok {C : Parse.Env} : ∀ (ts : List String) {s s' : Session}, Building C s → addAllDerived C s ts = some s' → Building C s'
  | [], s, s', hs, h => by cases h; exact hs
  | t :: ts, s, s', hs, h => by
    rw [addAllDerived] at h
    obtain ⟨s1, h1, h2⟩ := Option.bind_eq_some_iff.1 h
    exact addAllDerived_ok ts (addDerived_ok hs h1) h2

theorem begun_good {P : Defs.Req → Prop} {C : Parse.Env} {checked : Bool} {s : Session} (h : Begun C s) : Good P C checked s := by
  have hb : Building C s := by
    have h1 := h.start
    unfold start at h1
    generalize List.map _ Defs.derived = ts at h1
    exact addAllDerived_ok ts ⟨bare_wf, rfl, bare_stored _, fun _ => ⟨C.known, rfl⟩⟩ h1
  exact ⟨by rw [h.defs]; exact .refl, hb.stored, hb.envs⟩

theorem said_good {C : Parse.Env} (L : Parse.Laws C) {checked : Bool} {s s' : Session} {es : List Event} (hb : Begun C s) (h : run C checked s es = some s') :
    Good (fun r => r.Ident ∧ Said C es r) C checked s' :=
  run_good es (begun_good hb) (fun e he t ht d r hr => ⟨reqOf_ident L hr, e, he, t, ht, d, hr⟩) h

end Verif.Enter

namespace Verif.Enter
open Verif

/-! ### The commands of a definition -/

theorem subBs_mem {b : Parse.Blk} {x : Option String} (hx : x ∈ subB b) : ∀ {bs : List Parse.Blk}, b ∈ bs → x ∈ subBs bs
  | c :: bs, h => by
    rw [subBs]
    rcases List.mem_cons.1 h with rfl | h
    · exact List.mem_append_right _ hx
    · exact List.mem_append_left _ (subBs_mem hx h)

theorem subTs_mem {t : Parse.Term} {x : Option String} (hx : x ∈ subT t) : ∀ {ts : List Parse.Term}, t ∈ ts → x ∈ subTs ts
  | c :: ts, h => by
    rw [subTs]
    rcases List.mem_cons.1 h with rfl | h
    · exact List.mem_append_right _ hx
    · exact List.mem_append_left _ (subTs_mem hx h)

mutual
theorem uses_mem {e : Parse.Expr} {o : Parse.Op} : Uses e o → Prog.readOp o ∈ opsE e
  | .block h => by
    rw [opsE]
    exact List.mem_append_left _ (List.mem_map.2 ⟨_, h, rfl⟩)
  | .inner h1 h2 h3 => by
    rw [opsE]
    exact List.mem_append_right _ (subBs_mem (by rw [subB]; exact subTs_mem (by rw [subT]; exact usesA_mem h3) h2) h1)
theorem usesA_mem {a : Parse.Arg} {o : Parse.Op} : UsesA a o → Prog.readOp o ∈ subA a
  | .expr h => by rw [subA]; exact uses_mem h
  | .dot => by rw [subA]; exact .head _
  | .left h => by rw [subA]; exact List.mem_cons_of_mem _ (usesA_mem h)
end

mutual
theorem opsE_uses : ∀ {e : Parse.Expr} {x : Option String}, x ∈ opsE e → ∃ o, Uses e o ∧ x = Prog.readOp o
  | .mk bs out, x, h => by
    rw [opsE] at h
    rcases List.mem_append.1 h with h | h
    · obtain ⟨⟨i, o, r, ts⟩, h1, rfl⟩ := List.mem_map.1 h
      exact ⟨o, .block h1, rfl⟩
    · obtain ⟨i, o, r, ts, a, p, h1, h2, h3, rfl⟩ := subBs_uses h
      exact ⟨p, .inner h1 h2 h3, rfl⟩
theorem subBs_uses : ∀ {bs : List Parse.Blk} {x : Option String}, x ∈ subBs bs →
    ∃ i o r ts a p, Parse.Blk.mk i o r ts ∈ bs ∧ Parse.Term.arg a ∈ ts ∧ UsesA a p ∧ x = Prog.readOp p
  | [], x, h => by rw [subBs] at h; cases h
  | .mk i o r ts :: bs, x, h => by
    rw [subBs] at h
    rcases List.mem_append.1 h with h | h
    · obtain ⟨i, o, r, ts, a, p, h1, h2, h3, e⟩ := subBs_uses h
      exact ⟨i, o, r, ts, a, p, List.mem_cons_of_mem _ h1, h2, h3, e⟩
    · rw [subB] at h
      obtain ⟨a, p, h2, h3, e⟩ := subTs_uses h
      exact ⟨i, o, r, ts, a, p, .head _, h2, h3, e⟩
theorem subTs_uses : ∀ {ts : List Parse.Term} {x : Option String}, x ∈ subTs ts → ∃ a p, Parse.Term.arg a ∈ ts ∧ UsesA a p ∧ x = Prog.readOp p
  | [], x, h => by rw [subTs] at h; cases h
  | .flag f :: ts, x, h => by
    rw [subTs] at h
    rcases List.mem_append.1 h with h | h
    · obtain ⟨a, p, h1, h2, e⟩ := subTs_uses h
      exact ⟨a, p, List.mem_cons_of_mem _ h1, h2, e⟩
    · rw [subT] at h; cases h
  | .arg a :: ts, x, h => by
    rw [subTs] at h
    rcases List.mem_append.1 h with h | h
    · obtain ⟨a, p, h1, h2, e⟩ := subTs_uses h
      exact ⟨a, p, List.mem_cons_of_mem _ h1, h2, e⟩
    · rw [subT] at h
      obtain ⟨p, h1, e⟩ := subA_uses h
      exact ⟨a, p, .head _, h1, e⟩
theorem subA_uses : ∀ {a : Parse.Arg} {x : Option String}, x ∈ subA a → ∃ o, UsesA a o ∧ x = Prog.readOp o
  | .expr e, x, h => by
    rw [subA] at h
    obtain ⟨o, h1, h2⟩ := opsE_uses h
    exact ⟨o, .expr h1, h2⟩
  | .dot l _ _, x, h => by
    rw [subA] at h
    rcases List.mem_cons.1 h with rfl | h
    · exact ⟨_, .dot, rfl⟩
    · obtain ⟨o, h1, h2⟩ := subA_uses h
      exact ⟨o, .left h1, h2⟩
  | .ident _, x, h => by rw [subA] at h; cases h
  | .num _, x, h => by rw [subA] at h; cases h
  | .pound _, x, h => by rw [subA] at h; cases h
  | .var _, x, h => by rw [subA] at h; cases h
end

theorem checkOps_true {d : Defs.Defs} : ∀ {l : List (Option String)}, checkOps d l = some true ↔ ∀ x ∈ l, ∃ n, x = some n ∧ d.containsOp n = true
  | [] => by rw [checkOps]; simp
  | none :: l => by rw [checkOps]; simp
  | some n :: l => by
    rw [checkOps]
    split
    · rename_i h
      rw [checkOps_true, List.forall_mem_cons]
      simp [h]
    · rename_i h
      rw [List.forall_mem_cons]
      simp [h]

theorem checkOps_false {d : Defs.Defs} : ∀ {l : List (Option String)}, checkOps d l = some false → (l.filterMap id).all d.containsOp = false
  | [], h => by cases h
  | none :: l, h => by cases h
  | some n :: l, h => by
    rw [checkOps] at h
    split at h
    · simp [List.filterMap_cons, checkOps_false h]
    · rename_i h1
      simp [List.filterMap_cons, Bool.eq_false_iff.2 h1]

theorem allKnown_iff {d : Defs.Defs} {e : Parse.Expr} : checkOps d (opsE e) = some true ↔ AllKnown d e := by
  rw [checkOps_true]
  constructor
  · intro h o ho
    exact h _ (uses_mem ho)
  · intro h x hx
    obtain ⟨o, h1, rfl⟩ := opsE_uses hx
    exact h o h1

end Verif.Enter

namespace Verif.Enter
open Verif

/-! ### Sessions of requests -/

theorem run_snoc {checked : Bool} {o : Defs.Op} {d1 d2 : Defs.Defs} (ho : Defs.step checked d1 o = .ok d2) : ∀ (os : List Defs.Op) (d : Defs.Defs), Defs.run checked d os = some d1 →
    Defs.run checked d (os ++ [o]) = some d2
  | [], d, h => by
    cases h
    show Defs.run checked d1 [o] = _
    unfold Defs.run
    rw [ho]
    rfl
  | x :: os, d, h => by
    rw [Defs.run] at h
    rw [List.cons_append, Defs.run]
    split at h
    · rename_i d' h1
      exact run_snoc ho os d' h
    · rename_i d' h1
      exact run_snoc ho os d' h
    · cases h

/-- What is reached is reached by a session. -/
theorem reach_run {P : Defs.Req → Prop} {Cl : Bool → Prop} {checked : Bool} {d d' : Defs.Defs} (h : Defs.Reach P Cl checked d d') :
    ∃ os, Defs.run checked d os = some d' ∧ (∀ o ∈ os, ∀ r ∈ o.reqs, P r) ∧ ∀ o ∈ os, ∀ b ∈ o.clears, Cl b := by
  induction h with
  | refl => exact ⟨[], rfl, fun _ h => (by cases h), fun _ h => (by cases h)⟩
  | @request d1 d2 loc r _ hl hP hp ih =>
    obtain ⟨os, h1, h2, h3⟩ := ih
    cases loc with
    | ogma => exact absurd rfl hl
    | shell =>
      refine ⟨os ++ [.shell r], run_snoc (o := .shell r) hp os d h1, fun o ho => ?_, fun o ho => ?_⟩
      · rcases List.mem_append.1 ho with ho | ho
        · exact h2 o ho
        · rw [List.mem_singleton.1 ho]
          intro x hx
          rw [List.mem_singleton.1 hx]
          exact hP
      · rcases List.mem_append.1 ho with ho | ho
        · exact h3 o ho
        · rw [List.mem_singleton.1 ho]
          intro x hx
          cases hx
    | file p l =>
      have hs : Defs.step checked d1 (.load p [(l, r)]) = .ok d2 := by
        show Defs.addFile checked p d1 [(l, r)] = _
        rw [Defs.addFile, hp]
        rfl
      refine ⟨os ++ [.load p [(l, r)]], run_snoc hs os d h1, fun o ho => ?_, fun o ho => ?_⟩
      · rcases List.mem_append.1 ho with ho | ho
        · exact h2 o ho
        · rw [List.mem_singleton.1 ho]
          intro x hx
          rw [List.mem_singleton.1 (show x ∈ [r] from hx)]
          exact hP
      · rcases List.mem_append.1 ho with ho | ho
        · exact h3 o ho
        · rw [List.mem_singleton.1 ho]
          intro x hx
          cases hx
  | @clear d1 b _ hC ih =>
    obtain ⟨os, h1, h2, h3⟩ := ih
    refine ⟨os ++ [.clear b], run_snoc (o := .clear b) rfl os d h1, fun o ho => ?_, fun o ho => ?_⟩
    · rcases List.mem_append.1 ho with ho | ho
      · exact h2 o ho
      · rw [List.mem_singleton.1 ho]
        intro x hx
        cases hx
    · rcases List.mem_append.1 ho with ho | ho
      · exact h3 o ho
      · rw [List.mem_singleton.1 ho]
        intro x hx
        rw [List.mem_singleton.1 hx]
        exact hC

end Verif.Enter
