import Verif.Model.Comp
/-! Model of evaluating compiled expressions (`ogma/src/eng/{eval,step}.rs`, `resolve` of `eng/arg.rs`, `eng/var.rs`). -/
namespace Verif.Comp
open Verif

/-- What the closure of a built-in command does with its input: it ends with a value or an error, or finds a value that is not of
the type it expects (`wrong`), sets one of its variables, or has one of its arguments evaluated on a value, in a copy of the environment in which some variables are set first
(`arg.rs:387-403` `resolve`, `:413-441` `resolver_sync`). It is given the value, or `none` if that was an error. -/
inductive Act (V : Type)
  | done (v : V)
  | fail
  | wrong
  | set (j : Nat) (v : V) (next : Act V)
  | resolve (k : Nat) (sets : List (Nat × V)) (x : V) (next : Option V → Act V)

/-- What evaluation depends on: the type of a value, the values of literals, and the closures of the built-in commands, given
the command, its block, the types the block was compiled for, the arguments and variables held, and the input. -/
structure Exec (T V : Type) where
  ty : V → T
  lit : Nat → V
  act : Nat → Nat → T → T → List (Argument T) → List (Variable T) → V → Act V

/-- How evaluation ends: with a result, with an error, because of a value of an unexpected type or a variable that is not in the
environment (a panic, a debug assertion, or a failed conversion), or not yet. -/
inductive Res (α : Type)
  | ok (x : α)
  | err
  | stuck
  | more
  deriving DecidableEq

variable {T V : Type} [DecidableEq T]

/-- `var.rs:93-108` `set_data`. -/
def setVar (ty : V → T) (x : Variable T) (v : V) (env : List V) : Option (List V) :=
  if ty v = x.ty then
    match x.site with
    | none => some env
    | some (_, slot) => if slot < env.length then some (env.set slot v) else none
  else none

/-- Several in turn. -/
def setVars (ty : V → T) (vars : List (Variable T)) : List (Nat × V) → List V → Option (List V)
  | [], env => some env
  | (j, v) :: xs, env => match vars[j]? with
    | none => none
    | some x => match setVar ty x v env with
      | none => none
      | some env => setVars ty vars xs env

/-- `arg.rs:444-452` `assert_resolved_type`. -/
def checked (ty : V → T) (a : Argument T) (v : V) : Res V := if ty v = a.out then .ok v else .stuck

/-- How compiled expressions are evaluated: the expression, the input, the environment. -/
abbrev Evals (V : Type) := Nat → V → List V → Res (V × List V)

/-- `arg.rs:387-403` `resolve`; `var.rs:71-90` `fetch`; `arg.rs:241-261` what `#i` is compiled to. -/
def resolveArg (E : Exec T V) (ev : Evals V) (a : Argument T) (x : V) (env : List V) : Res V :=
  match a.hold with
  | .lit n => checked E.ty a (E.lit n)
  | .input => if E.ty x = a.inp then checked E.ty a x else .stuck
  | .var slot t => match env[slot]? with
    | none => .stuck
    | some v => if E.ty v = t then checked E.ty a v else .stuck
  | .expr e => match ev e x env with
    | .ok r => checked E.ty a r.1
    | .err => .err
    | .stuck => .stuck
    | .more => .more

/-- The closure of a built-in command. -/
def runAct (E : Exec T V) (ev : Evals V) (args : List (Argument T)) (vars : List (Variable T)) : Act V → List V → Res (V × List V)
  | .done v, env => .ok (v, env)
  | .fail, _ => .err
  | .wrong, _ => .stuck
  | .set j v next, env => match setVars E.ty vars [(j, v)] env with
    | none => .stuck
    | some env => runAct E ev args vars next env
  | .resolve k sets x next, env => match args[k]? with
    | none => .stuck
    | some a => match setVars E.ty vars sets env with
      | none => .stuck
      | some inner => match resolveArg E ev a x inner with
        | .ok v => runAct E ev args vars (next (some v)) env
        | .err => runAct E ev args vars (next none) env
        | .stuck => .stuck
        | .more => .more

/-- `step.rs:10-14`: the arguments of a call are evaluated on its input, and set the parameters. -/
def bindParams (E : Exec T V) (ev : Evals V) (x : V) : List ((Nat × T) × Argument T) → List V → Res (List V)
  | [], env => .ok env
  | p :: ps, env => match resolveArg E ev p.2 x env with
    | .ok v => match setVar E.ty ⟨some (0, p.1.1), p.1.2, p.1.2⟩ v env with
      | none => .stuck
      | some env => bindParams E ev x ps env
    | .err => .err
    | .stuck => .stuck
    | .more => .more

/-- `step.rs:8-22` `def` and the closures of built-in commands. -/
def runCode (A : Ast T) (E : Exec T V) (ev : Evals V) (op : Nat) (t u : T) : Code T → V → List V → Res (V × List V)
  | .builtin i args vars, x, env => runAct E ev args vars (E.act i op t u args vars x) env
  | .call d params, x, env => match bindParams E ev x params env with
    | .ok env => ev (A.body d) x env
    | .err => .err
    | .stuck => .stuck
    | .more => .more

/-- `step.rs:24-43` `invoke`: the output type is checked. -/
def invoked (ty : V → T) (u : T) : Res (V × List V) → Res (V × List V)
  | .ok r => if ty r.1 = u then .ok r else .stuck
  | .err => .err
  | .stuck => .stuck
  | .more => .more

/-- The closure of a block. -/
def S.codeAt (s : S T) (op : Nat) : Option (T × T × Code T) := (s.codes.find? fun x => x.1 = op).map (·.2)

/-- A compiled block. -/
def evalStep (A : Ast T) (E : Exec T V) (c : S T) (ev : Evals V) (op : Nat) (x : V) (env : List V) : Res (V × List V) :=
  match c.codeAt op with
  | none => .stuck
  | some (t, u, code) => invoked E.ty u (runCode A E ev op t u code x env)

/-- `eval.rs:65-71`: the steps in turn. -/
def evalSteps (A : Ast T) (E : Exec T V) (c : S T) (ev : Evals V) : List Nat → V → List V → Res (V × List V)
  | [], x, env => .ok (x, env)
  | op :: ops, x, env => match evalStep A E c ev op x env with
    | .ok r => evalSteps A E c ev ops r.1 r.2
    | .err => .err
    | .stuck => .stuck
    | .more => .more

/-- `eval.rs:55-81` `eval`: the types of input and output are checked. -/
def evalStack (A : Ast T) (E : Exec T V) (c : S T) (ev : Evals V) : Evals V := fun e x env =>
  if (c.tg.kn e .inp).ty = some (E.ty x) then
    match evalSteps A E c ev (A.blocks e) x env with
    | .ok r => if (c.tg.kn e .out).ty = some (E.ty r.1) then .ok r else .stuck
    | .err => .err
    | .stuck => .stuck
    | .more => .more
  else .stuck

/-- Evaluating an expression of a compiled program. The first argument bounds how deep expressions are nested. -/
def evalExpr (A : Ast T) (E : Exec T V) (c : S T) : Nat → Evals V
  | 0 => fun _ _ _ => .more
  | f + 1 => evalStack A E c (evalExpr A E c f)

end Verif.Comp
