import Verif.Model.Lang
import Verif.Spec.Eval
/-! Evaluation restricted to well-formed values. -/
namespace Verif.Comp
open Verif
set_option linter.unusedSectionVars false
variable {T V : Type} [DecidableEq T]

/-- A value of this type that is well-formed. -/
def Fits (ty : V → T) (ok : V → Bool) (u : T) (v : V) : Prop := ty v = u ∧ ok v = true

/-- As `Behaves`: all values given are well-formed, and all values got are. -/
def BehavesIn (A : Ast T) (ty : V → T) (ok : V → Bool) (u : T) (args : List (Argument T)) (vars : List (Variable T)) : List Nat → Act V → Prop
  | set, .done v => Fits ty ok u v ∧ ∀ n ∈ A.ops, AllSet vars set n
  | _, .fail => True
  | _, .wrong => False
  | set, .set j v next => (∃ x, vars[j]? = some x ∧ Fits ty ok x.want v) ∧ BehavesIn A ty ok u args vars (j :: set) next
  | set, .resolve k sets x next =>
    (∀ p ∈ sets, ∃ y, vars[p.1]? = some y ∧ Fits ty ok y.want p.2) ∧
    (∃ a, args[k]? = some a ∧ Fits ty ok a.inp x ∧ AllSet vars (sets.map (·.1) ++ set) a.node ∧
      ∀ v, Fits ty ok a.out v → BehavesIn A ty ok u args vars set (next (some v))) ∧
    BehavesIn A ty ok u args vars set (next none)

/-- As `Exec.Sound`, for well-formed values. -/
def Exec.SoundIn (E : Exec T V) (ok : V → Bool) (A : Ast T) (I : Builtins T) : Prop :=
  ∀ s i op t u, op ∈ A.ops → A.getImpl op t = some (.intrinsic i) → Sane s → (runBuiltin A I s i op t).res = .ok u → ∀ args vars,
    args = madeArgs A s op (.start (A.args op)) (I s i op t).1 → vars = madeVars A s op (.start (A.args op)) (I s i op t).1 →
    ∀ x, Fits E.ty ok t x → BehavesIn A E.ty ok u args vars [] (E.act i op t u args vars x)

/-- The well-formed values. -/
abbrev Sub (ok : V → Bool) := {v : V // ok v = true}

/-- The well-formed ones of some values for variables. -/
def liftSets (ok : V → Bool) (sets : List (Nat × V)) : List (Nat × Sub ok) :=
  sets.filterMap fun p => if h : ok p.2 = true then some (p.1, ⟨p.2, h⟩) else none

/-- A closure on well-formed values: it gets stuck when it produces any other. -/
def Act.lift (ok : V → Bool) : Act V → Act (Sub ok)
  | .done v => if h : ok v = true then .done ⟨v, h⟩ else .wrong
  | .fail => .fail
  | .wrong => .wrong
  | .set j v next => if h : ok v = true then .set j ⟨v, h⟩ (next.lift ok) else .wrong
  | .resolve k sets x next =>
    if h : ok x = true ∧ (sets.all fun p => ok p.2) = true then .resolve k (liftSets ok sets) ⟨x, h.1⟩ fun r => (next (r.map (·.1))).lift ok
    else .wrong

def Exec.lift (E : Exec T V) (ok : V → Bool) (hl : ∀ n, ok (E.lit n) = true) : Exec T (Sub ok) where
  ty := fun v => E.ty v.1
  lit := fun n => ⟨E.lit n, hl n⟩
  act := fun i op t u args vars x => (E.act i op t u args vars x.1).lift ok

section
variable {ok : V → Bool}

theorem liftSets_mem {sets : List (Nat × V)} {p : Nat × Sub ok} (h : p ∈ liftSets ok sets) : (p.1, p.2.1) ∈ sets := by
  unfold liftSets at h
  obtain ⟨q, hq, e⟩ := List.mem_filterMap.1 h
  split at e
  · cases e; exact hq
  · cases e

theorem liftSets_cons {q : Nat × V} {sets : List (Nat × V)} (h : ok q.2 = true) : liftSets ok (q :: sets) = (q.1, ⟨q.2, h⟩) :: liftSets ok sets := by
  simp [liftSets, h]

theorem liftSets_fst : ∀ {sets : List (Nat × V)}, (sets.all fun p => ok p.2) = true → (liftSets ok sets).map (·.1) = sets.map (·.1)
  | [], _ => rfl
  | q :: sets, h => by
    rw [List.all_cons, Bool.and_eq_true] at h
    rw [liftSets_cons h.1, List.map_cons, List.map_cons, liftSets_fst h.2]

/-- A closure that behaves does so on well-formed values. -/
theorem BehavesIn.lift {A : Ast T} {ty : V → T} {u : T} {args : List (Argument T)} {vars : List (Variable T)} : ∀ (a : Act V) {set : List Nat},
    BehavesIn A ty ok u args vars set a → Behaves A (fun v : Sub ok => ty v.1) u args vars set (a.lift ok)
  | .done v, set, h => by
    rw [Act.lift, dif_pos h.1.2]
    exact ⟨h.1.1, h.2⟩
  | .fail, _, _ => trivial
  | .wrong, _, h => h.elim
  | .set j v next, set, h => by
    obtain ⟨⟨x, h1, h2⟩, h3⟩ := h
    rw [Act.lift, dif_pos h2.2]
    exact ⟨⟨x, h1, h2.1⟩, BehavesIn.lift next h3⟩
  | .resolve k sets x next, set, h => by
    obtain ⟨h1, ⟨a, h2, h3, h4, h5⟩, h6⟩ := h
    have hall : (sets.all fun p => ok p.2) = true := List.all_eq_true.2 fun p hp => (h1 p hp).elim fun y hy => hy.2.2
    rw [Act.lift, dif_pos ⟨h3.2, hall⟩]
    refine ⟨fun p hp => ?_, ⟨a, h2, h3.1, ?_, fun v hv => BehavesIn.lift _ (h5 v.1 ⟨hv, v.2⟩)⟩, BehavesIn.lift _ h6⟩
    · obtain ⟨y, hy, hf⟩ := h1 _ (liftSets_mem hp)
      exact ⟨y, hy, hf.1⟩
    · rw [liftSets_fst hall]; exact h4

theorem Exec.SoundIn.lift {E : Exec T V} {A : Ast T} {I : Builtins T} (h : E.SoundIn ok A I) {hl : ∀ n, ok (E.lit n) = true} :
    (E.lift ok hl).Sound A I := by
  intro s i op t u ho hg hs hr args vars ha hv x hx
  exact BehavesIn.lift _ (h s i op t u ho hg hs hr args vars ha hv x.1 ⟨hx, x.2⟩)

/-! ### The same results -/

/-- A result on well-formed values, as a result. -/
def Res.low : Res (Sub ok × List (Sub ok)) → Res (V × List V)
  | .ok r => .ok (r.1.1, r.2.map (·.1))
  | .err => .err
  | .stuck => .stuck
  | .more => .more

theorem setVar_low {ty : V → T} {x : Variable T} {v : Sub ok} {env env' : List (Sub ok)} (h : setVar (fun v : Sub ok => ty v.1) x v env = some env') :
    setVar ty x v.1 (env.map (·.1)) = some (env'.map (·.1)) := by
  unfold setVar at h ⊢
  split at h
  · rename_i hc
    rw [if_pos hc]
    cases hsite : x.site with
    | none => simp only [hsite] at h ⊢; cases h; rfl
    | some y =>
      simp only [hsite] at h ⊢
      split at h
      · rename_i hs
        cases h
        rw [if_pos (by simpa using hs), List.map_set]
      · cases h
  · cases h

theorem setVars_low {ty : V → T} {vars : List (Variable T)} : ∀ {sets : List (Nat × V)} {env env' : List (Sub ok)},
    (sets.all fun p => ok p.2) = true → setVars (fun v : Sub ok => ty v.1) vars (liftSets ok sets) env = some env' →
    setVars ty vars sets (env.map (·.1)) = some (env'.map (·.1))
  | [], env, env', _, h => by cases h; rfl
  | q :: sets, env, env', ha, h => by
    rw [List.all_cons, Bool.and_eq_true] at ha
    rw [liftSets_cons ha.1] at h
    unfold setVars at h ⊢
    cases hv : vars[q.1]? with
    | none => rw [hv] at h; cases h
    | some x =>
      rw [hv] at h
      dsimp only at h ⊢
      cases hs : setVar (fun v : Sub ok => ty v.1) x ⟨q.2, ha.1⟩ env with
      | none => rw [hs] at h; cases h
      | some e =>
        rw [hs] at h
        rw [show setVar ty x q.2 (env.map (·.1)) = some (e.map (·.1)) from setVar_low hs]
        exact setVars_low ha.2 h

variable {A : Ast T} {E : Exec T V} {hl : ∀ n, ok (E.lit n) = true} {c : S T}

/-- Evaluation gives the same on well-formed values, unless it gets stuck there. -/
def Low (ev : Evals V) (ev' : Evals (Sub ok)) : Prop := ∀ e x env, ev' e x env ≠ .stuck → ev e x.1 (env.map (·.1)) = (ev' e x env).low

theorem checked_low {a : Argument T} {v : Sub ok} (h : checked (E.lift ok hl).ty a v ≠ .stuck) :
    checked (E.lift ok hl).ty a v = .ok v ∧ checked E.ty a v.1 = .ok v.1 := by
  unfold checked at h ⊢
  by_cases hc : E.ty v.1 = a.out
  · exact ⟨if_pos hc, if_pos hc⟩
  · exact absurd (if_neg hc) h

/-- The same value of an argument. -/
def lowV : Res (Sub ok) → Res V
  | .ok v => .ok v.1
  | .err => .err
  | .stuck => .stuck
  | .more => .more

theorem resolveArg_low {ev : Evals V} {ev' : Evals (Sub ok)} (hev : Low ev ev') {a : Argument T} {x : Sub ok} {env : List (Sub ok)}
    (h : resolveArg (E.lift ok hl) ev' a x env ≠ .stuck) :
    resolveArg E ev a x.1 (env.map (·.1)) = lowV (resolveArg (E.lift ok hl) ev' a x env) := by
  unfold resolveArg at h ⊢
  cases ha : a.hold with
  | lit n =>
    simp only [ha] at h ⊢
    obtain ⟨h1, h2⟩ := checked_low h
    rw [h1]; exact h2
  | input =>
    simp only [ha] at h ⊢
    by_cases hc : E.ty x.1 = a.inp
    · have hc' : (E.lift ok hl).ty x = a.inp := hc
      rw [if_pos hc'] at h
      rw [if_pos hc, if_pos hc']
      obtain ⟨h1, h2⟩ := checked_low h
      rw [h1]; exact h2
    · have hc' : ¬ (E.lift ok hl).ty x = a.inp := hc
      rw [if_neg hc'] at h
      exact absurd rfl h
  | var slot t =>
    simp only [ha] at h ⊢
    rw [List.getElem?_map]
    cases he : env[slot]? with
    | none => simp only [he] at h; exact absurd rfl h
    | some v =>
      simp only [he, Option.map_some] at h ⊢
      by_cases hc : E.ty v.1 = t
      · have hc' : (E.lift ok hl).ty v = t := hc
        rw [if_pos hc'] at h
        rw [if_pos hc, if_pos hc']
        obtain ⟨h1, h2⟩ := checked_low h
        rw [h1]; exact h2
      · have hc' : ¬ (E.lift ok hl).ty v = t := hc
        rw [if_neg hc'] at h
        exact absurd rfl h
  | expr e =>
    simp only [ha] at h ⊢
    cases hr : ev' e x env with
    | stuck => simp only [hr] at h; exact absurd rfl h
    | ok r =>
      rw [hev e x env (by rw [hr]; exact fun h => by cases h), hr]
      simp only [hr, Res.low] at h ⊢
      obtain ⟨h1, h2⟩ := checked_low h
      rw [h1]; exact h2
    | err => rw [hev e x env (by rw [hr]; exact fun h => by cases h), hr]; rfl
    | more => rw [hev e x env (by rw [hr]; exact fun h => by cases h), hr]; rfl

theorem runAct_low {ev : Evals V} {ev' : Evals (Sub ok)} (hev : Low ev ev') {args : List (Argument T)} {vars : List (Variable T)} :
    ∀ (a : Act V) {env : List (Sub ok)}, runAct (E.lift ok hl) ev' args vars (a.lift ok) env ≠ .stuck →
    runAct E ev args vars a (env.map (·.1)) = (runAct (E.lift ok hl) ev' args vars (a.lift ok) env).low
  | .done v, env, h => by
    rw [Act.lift] at h ⊢
    split at h
    · rename_i hv
      rw [dif_pos hv]; rfl
    · exact absurd rfl h
  | .fail, env, _ => rfl
  | .wrong, env, _ => rfl
  | .set j v next, env, h => by
    by_cases hv : ok v = true
    · rw [Act.lift, dif_pos hv] at h ⊢
      unfold runAct at h ⊢
      cases hs : setVars (E.lift ok hl).ty vars [(j, ⟨v, hv⟩)] env with
      | none => rw [hs] at h; exact absurd rfl h
      | some e =>
        rw [hs] at h
        have := setVars_low (ty := E.ty) (sets := [(j, v)]) (env := env) (env' := e) (by simp [hv]) (by rw [liftSets_cons hv]; exact hs)
        rw [this]
        exact runAct_low hev next h
    · rw [Act.lift, dif_neg hv] at h
      exact absurd rfl h
  | .resolve k sets x next, env, h => by
    by_cases hc : ok x = true ∧ (sets.all fun p => ok p.2) = true
    · rw [Act.lift, dif_pos hc] at h ⊢
      unfold runAct at h ⊢
      cases ha : args[k]? with
      | none => rw [ha] at h; exact absurd rfl h
      | some a =>
        rw [ha] at h
        dsimp only at h ⊢
        cases hs : setVars (E.lift ok hl).ty vars (liftSets ok sets) env with
        | none => rw [hs] at h; exact absurd rfl h
        | some e =>
          rw [hs] at h
          rw [show setVars E.ty vars sets (env.map (·.1)) = some (e.map (·.1)) from setVars_low hc.2 hs]
          dsimp only at h ⊢
          cases hr : resolveArg (E.lift ok hl) ev' a ⟨x, hc.1⟩ e with
          | stuck => rw [hr] at h; exact absurd rfl h
          | ok v =>
            have := resolveArg_low hev (E := E) (hl := hl) (a := a) (x := ⟨x, hc.1⟩) (env := e) (by rw [hr]; exact fun h => by cases h)
            rw [hr] at h this
            rw [show resolveArg E ev a x (e.map (·.1)) = .ok v.1 from this]
            exact runAct_low hev (next (some v.1)) h
          | err =>
            have := resolveArg_low hev (E := E) (hl := hl) (a := a) (x := ⟨x, hc.1⟩) (env := e) (by rw [hr]; exact fun h => by cases h)
            rw [hr] at h this
            rw [show resolveArg E ev a x (e.map (·.1)) = .err from this]
            exact runAct_low hev (next none) h
          | more =>
            have := resolveArg_low hev (E := E) (hl := hl) (a := a) (x := ⟨x, hc.1⟩) (env := e) (by rw [hr]; exact fun h => by cases h)
            rw [hr] at h this
            rw [show resolveArg E ev a x (e.map (·.1)) = .more from this]
            rfl
    · rw [Act.lift, dif_neg hc] at h
      exact absurd rfl h

/-- The same parameters. -/
def lowE : Res (List (Sub ok)) → Res (List V)
  | .ok v => .ok (v.map (·.1))
  | .err => .err
  | .stuck => .stuck
  | .more => .more

theorem bindParams_low {ev : Evals V} {ev' : Evals (Sub ok)} (hev : Low ev ev') {x : Sub ok} : ∀ {ps : List ((Nat × T) × Argument T)} {env : List (Sub ok)},
    bindParams (E.lift ok hl) ev' x ps env ≠ .stuck →
    bindParams E ev x.1 ps (env.map (·.1)) = lowE (bindParams (E.lift ok hl) ev' x ps env)
  | [], env, _ => rfl
  | p :: ps, env, h => by
    unfold bindParams at h ⊢
    cases hr : resolveArg (E.lift ok hl) ev' p.2 x env with
    | stuck => rw [hr] at h; exact absurd rfl h
    | ok v =>
      have := resolveArg_low hev (E := E) (hl := hl) (a := p.2) (x := x) (env := env) (by rw [hr]; exact fun h => by cases h)
      rw [hr] at h this
      rw [this]
      dsimp only [lowV] at h ⊢
      cases hs : setVar (E.lift ok hl).ty ⟨some (0, p.1.1), p.1.2, p.1.2⟩ v env with
      | none => rw [hs] at h; exact absurd rfl h
      | some e =>
        rw [hs] at h
        rw [show setVar E.ty ⟨some (0, p.1.1), p.1.2, p.1.2⟩ v.1 (env.map (·.1)) = some (e.map (·.1)) from setVar_low hs]
        exact bindParams_low hev h
    | err =>
      have := resolveArg_low hev (E := E) (hl := hl) (a := p.2) (x := x) (env := env) (by rw [hr]; exact fun h => by cases h)
      rw [hr] at this
      rw [this]; rfl
    | more =>
      have := resolveArg_low hev (E := E) (hl := hl) (a := p.2) (x := x) (env := env) (by rw [hr]; exact fun h => by cases h)
      rw [hr] at this
      rw [this]; rfl

theorem runCode_low {ev : Evals V} {ev' : Evals (Sub ok)} (hev : Low ev ev') {op : Nat} {t u : T} {code : Code T} {x : Sub ok} {env : List (Sub ok)}
    (h : runCode A (E.lift ok hl) ev' op t u code x env ≠ .stuck) :
    runCode A E ev op t u code x.1 (env.map (·.1)) = (runCode A (E.lift ok hl) ev' op t u code x env).low := by
  cases code with
  | builtin i args vars => exact runAct_low hev _ h
  | call n ps =>
    unfold runCode at h ⊢
    dsimp only at h ⊢
    cases hb : bindParams (E.lift ok hl) ev' x ps env with
    | stuck => rw [hb] at h; exact absurd rfl h
    | ok e =>
      have := bindParams_low hev (E := E) (hl := hl) (x := x) (ps := ps) (env := env) (by rw [hb]; exact fun h => by cases h)
      rw [hb] at h this
      rw [this]
      exact hev _ _ _ h
    | err =>
      have := bindParams_low hev (E := E) (hl := hl) (x := x) (ps := ps) (env := env) (by rw [hb]; exact fun h => by cases h)
      rw [hb] at this
      rw [this]; rfl
    | more =>
      have := bindParams_low hev (E := E) (hl := hl) (x := x) (ps := ps) (env := env) (by rw [hb]; exact fun h => by cases h)
      rw [hb] at this
      rw [this]; rfl

theorem invoked_low {u : T} {r : Res (Sub ok × List (Sub ok))} (h : invoked (E.lift ok hl).ty u r ≠ .stuck) :
    invoked E.ty u r.low = (invoked (E.lift ok hl).ty u r).low := by
  cases r with
  | ok r =>
    unfold invoked at h ⊢
    simp only [Res.low] at h ⊢
    by_cases hc : E.ty r.1.1 = u
    · have hc' : (E.lift ok hl).ty r.1 = u := hc
      rw [if_pos hc, if_pos hc']
    · have hc' : ¬ (E.lift ok hl).ty r.1 = u := hc
      rw [if_neg hc'] at h
      exact absurd rfl h
  | err => rfl
  | stuck => exact absurd rfl h
  | more => rfl

theorem evalStep_low {ev : Evals V} {ev' : Evals (Sub ok)} (hev : Low ev ev') {op : Nat} {x : Sub ok} {env : List (Sub ok)}
    (h : evalStep A (E.lift ok hl) c ev' op x env ≠ .stuck) :
    evalStep A E c ev op x.1 (env.map (·.1)) = (evalStep A (E.lift ok hl) c ev' op x env).low := by
  unfold evalStep at h ⊢
  cases hc : c.codeAt op with
  | none => rw [hc] at h; exact absurd rfl h
  | some y =>
    obtain ⟨t, u, code⟩ := y
    rw [hc] at h
    dsimp only at h ⊢
    have h' : runCode A (E.lift ok hl) ev' op t u code x env ≠ .stuck := fun e => h (by rw [e]; rfl)
    rw [runCode_low hev h']
    exact invoked_low h

theorem evalSteps_low {ev : Evals V} {ev' : Evals (Sub ok)} (hev : Low ev ev') : ∀ {ops : List Nat} {x : Sub ok} {env : List (Sub ok)},
    evalSteps A (E.lift ok hl) c ev' ops x env ≠ .stuck →
    evalSteps A E c ev ops x.1 (env.map (·.1)) = (evalSteps A (E.lift ok hl) c ev' ops x env).low
  | [], _, _, _ => rfl
  | op :: ops, x, env, h => by
    unfold evalSteps at h ⊢
    cases hr : evalStep A (E.lift ok hl) c ev' op x env with
    | stuck => rw [hr] at h; exact absurd rfl h
    | ok r =>
      rw [evalStep_low hev (E := E) (hl := hl) (by rw [hr]; exact fun h => by cases h)]
      rw [hr] at h ⊢
      exact evalSteps_low hev h
    | err => rw [evalStep_low hev (E := E) (hl := hl) (by rw [hr]; exact fun h => by cases h), hr]; rfl
    | more => rw [evalStep_low hev (E := E) (hl := hl) (by rw [hr]; exact fun h => by cases h), hr]; rfl

theorem evalStack_low {ev : Evals V} {ev' : Evals (Sub ok)} (hev : Low ev ev') : Low (evalStack A E c ev) (evalStack A (E.lift ok hl) c ev') := by
  intro e x env h
  unfold evalStack at h ⊢
  by_cases hc : (c.tg.kn e .inp).ty = some (E.ty x.1)
  · have hc' : (c.tg.kn e .inp).ty = some ((E.lift ok hl).ty x) := hc
    rw [if_pos hc'] at h
    rw [if_pos hc, if_pos hc']
    cases hr : evalSteps A (E.lift ok hl) c ev' (A.blocks e) x env with
    | stuck => rw [hr] at h; exact absurd rfl h
    | ok r =>
      rw [evalSteps_low hev (E := E) (hl := hl) (by rw [hr]; exact fun h => by cases h)]
      rw [hr] at h ⊢
      simp only [Res.low] at h ⊢
      by_cases hd : (c.tg.kn e .out).ty = some (E.ty r.1.1)
      · have hd' : (c.tg.kn e .out).ty = some ((E.lift ok hl).ty r.1) := hd
        rw [if_pos hd, if_pos hd']
      · have hd' : ¬ (c.tg.kn e .out).ty = some ((E.lift ok hl).ty r.1) := hd
        rw [if_neg hd'] at h
        exact absurd rfl h
    | err => rw [evalSteps_low hev (E := E) (hl := hl) (by rw [hr]; exact fun h => by cases h), hr]; rfl
    | more => rw [evalSteps_low hev (E := E) (hl := hl) (by rw [hr]; exact fun h => by cases h), hr]; rfl
  · have hc' : ¬ (c.tg.kn e .inp).ty = some ((E.lift ok hl).ty x) := hc
    rw [if_neg hc'] at h
    exact absurd rfl h

/-- Evaluation on well-formed values is evaluation. -/
theorem evalExpr_low : ∀ (f : Nat), Low (evalExpr A E c f) (evalExpr A (E.lift ok hl) c f)
  | 0 => fun _ _ _ _ => rfl
  | f + 1 => evalStack_low (evalExpr_low f)

end

end Verif.Comp
