import Verif.Model.Locals
/-! Model of evaluation: compiled steps over an environment of numbered slots (`ogma/src/eng/{step,eval,arg,var}.rs`), and
of how names become slots when an expression is compiled (`ogma/src/eng/{arg,blk}.rs`, `ogma/src/eng/comp/`). Types, tags
and messages are left out. -/
namespace Verif.Step
open Verif.Loc

/-- What evaluation ends with: a value, an error, or a panic (`expect` on a missing slot). -/
inductive Out (E α : Type)
  | ok (a : α)
  | err (e : E)
  | panic

/-- What a built-in command does once compiled (the closures passed to `Block::eval`, `blk.rs`): it resolves arguments
with inputs of its choice, sets the variables it declared, acts on the outside world, and returns or fails. -/
inductive Prog (V W E : Type)
  | ret (v : V)
  | fail (e : E)
  | act (f : W → W × Except E V) (k : V → Prog V W E)
  | resolve (i : Nat) (x : V) (k : Except E V → Prog V W E)
  | setv (j : Nat) (v : V) (k : Prog V W E)

mutual
/-- `arg.rs:322-342` `Argument` and `Hold`. -/
inductive Arg (V W E : Type)
  | lit (v : V)
  | var (slot : Nat)
  | expr (body : List (Step V W E))

/-- A compiled block: a built-in command with its arguments, the slots of its variables (`none` is a variable nobody can
read, `var.rs:118-130`) and whether it hands its changed environment on (`cx.done`) or works on copies; or a call of a
definition (`step.rs:8-21`). -/
inductive Step (V W E : Type)
  | prim (args : List (Arg V W E)) (vars : List (Option Nat)) (prog : V → Prog V W E) (keep : Bool)
  | call (params : List (Nat × Arg V W E)) (body : List (Step V W E))
end

/-- `var.rs:23-30` `Environment`. -/
abbrev Env (V : Type) := List V

/-- The closure of a built-in command, run with its arguments. `Variable::set_data`, `var.rs:90-110`. -/
def runProg {V W E : Type} (args : List (V → Env V → W → Out E V × W)) (vars : List (Option Nat)) :
    Prog V W E → Env V → W → Out E (V × Env V) × W
  | .ret v, env, w => (.ok (v, env), w)
  | .fail e, _, w => (.err e, w)
  | .act f k, env, w =>
    match f w with
    | (w, .ok v) => runProg args vars (k v) env w
    | (w, .error e) => (.err e, w)
  | .resolve i x k, env, w =>
    match args[i]? with
    | none => (.panic, w)
    | some f =>
      match f x env w with
      | (.ok v, w) => runProg args vars (k (.ok v)) env w
      | (.err e, w) => runProg args vars (k (.error e)) env w
      | (.panic, w) => (.panic, w)
  | .setv j v k, env, w =>
    match vars[j]? with
    | none => (.panic, w)
    | some none => runProg args vars k env w
    | some (some s) => if s < env.length then runProg args vars k (env.set s v) w else (.panic, w)

mutual
/-- `arg.rs:384-397` `resolve`: an expression gets a copy of the context, and its environment is dropped. -/
def evalArg {V W E : Type} : Arg V W E → V → Env V → W → Out E V × W
  | .lit v, _, _, w => (.ok v, w)
  | .var s, _, env, w =>
    match env[s]? with
    | some v => (.ok v, w)
    | none => (.panic, w)
  | .expr body, x, env, w =>
    match evalStack body x env w with
    | (.ok (v, _), w) => (.ok v, w)
    | (.err e, w) => (.err e, w)
    | (.panic, w) => (.panic, w)

def evalArgs {V W E : Type} : List (Arg V W E) → List (V → Env V → W → Out E V × W)
  | [] => []
  | a :: as => evalArg a :: evalArgs as

/-- `step.rs:23-43` `invoke`. -/
def evalStep {V W E : Type} : Step V W E → V → Env V → W → Out E (V × Env V) × W
  | .prim args vars prog keep, x, env, w =>
    match runProg (evalArgs args) vars (prog x) env w with
    | (.ok (v, env'), w) => (.ok (v, if keep then env' else env), w)
    | (.err e, w) => (.err e, w)
    | (.panic, w) => (.panic, w)
  | .call params body, x, env, w =>
    match evalParams params x env w with
    | (.ok env, w) => evalStack body x env w
    | (.err e, w) => (.err e, w)
    | (.panic, w) => (.panic, w)

/-- `step.rs:11-15`: resolve each argument at the call and set the variable of the parameter. -/
def evalParams {V W E : Type} : List (Nat × Arg V W E) → V → Env V → W → Out E (Env V) × W
  | [], _, env, w => (.ok env, w)
  | (s, a) :: ps, x, env, w =>
    match evalArg a x env w with
    | (.ok v, w) => if s < env.length then evalParams ps x (env.set s v) w else (.panic, w)
    | (.err e, w) => (.err e, w)
    | (.panic, w) => (.panic, w)

/-- `eval.rs:51-80` `Stack::eval`: each block gets the value and the environment of the block before. -/
def evalStack {V W E : Type} : List (Step V W E) → V → Env V → W → Out E (V × Env V) × W
  | [], x, env, w => (.ok (x, env), w)
  | s :: ss, x, env, w =>
    match evalStep s x env w with
    | (.ok (v, env), w) => evalStack ss v env w
    | (.err e, w) => (.err e, w)
    | (.panic, w) => (.panic, w)
end

/-! ### Programs with names -/

mutual
/-- An argument of a block. -/
inductive SArg (V W E : Type)
  | lit (v : V)
  | var (x : String)
  | expr (body : List (SBlk V W E))

/-- A block: a built-in command with its arguments, the variables it names for the blocks after it (`let`; with the number
of the argument that names the variable), the variables it provides to an argument (`$row`), and its closure; or a call of
the `k`th definition of the command, with the parameters and the expression of the definition written out
(`astgraph.rs:250-396` expands definitions at every call). A parameter is marked `true` if it is lazy (of type `Expr`).
The closures depend on the types that were inferred, which are taken as decided. -/
inductive SBlk (V W E : Type)
  | prim (args : List (SArg V W E)) (lets : List (Nat × String)) (injs : List (Nat × String)) (prog : V → Prog V W E) (keep : Bool)
  | call (k : Nat) (args : List (SArg V W E)) (params : List (String × Bool)) (body : List (SBlk V W E))
end

/-- What is known of the arguments a lazy parameter may point to: the compiled argument, and, if it is a variable, its name
and the block after the call. -/
structure Entry (V W E : Type) where
  arg : Arg V W E
  tgt : Option (String × Option Node)

abbrev Ptrs (V W E : Type) := Node → Option (Entry V W E)

/-- What the graph of locals says: what a node defines and what a name means at a node. -/
structure Names where
  own : Node → String → Option Local
  look : Node → String → Option Local

/-- `locals_graph.rs:221-243` `new_var` when the variable exists. -/
def varSlot (g : Names) (n : Node) (x : String) : Option Nat :=
  match g.own n x with
  | some (.var s) => some s
  | _ => none

/-- `blk.rs:149-178` `create_var_ref` at the block after, if there is one. -/
def slotAt (g : Names) (x : String) : Option Node → Option (Option Nat)
  | none => some none
  | some n => (varSlot g n x).map some

/-- `pipeline.rs:405-440`: the variable `let` binds. The argument that names it is taken with `next_arg`, which follows
the pointer of a lazy parameter (`arg.rs:40-58`) to an argument of the call. -/
def letSlot {V W E : Type} (g : Names) (Δ : Ptrs V W E) (b : Node) (next : Option Node) (t : Nat × String) : Option (Option Nat) :=
  match g.look (.arg t.1 :: b) t.2 with
  | some (.ptr to) =>
    match (Δ to).bind (·.tgt) with
    | some (y, next') => slotAt g y next'
    | none => none
  | _ => slotAt g t.2 next

/-- `blk.rs:190-213` `inject_manual_var_into_arg_locals`. -/
def injSlot (g : Names) (b : Node) (t : Nat × String) : Option (Option Nat) := (varSlot g (.arg t.1 :: b) t.2).map some

def mapOpt {α β : Type} (f : α → Option β) : List α → Option (List β)
  | [] => some []
  | a :: as =>
    match f a, mapOpt f as with
    | some b, some bs => some (b :: bs)
    | _, _ => none

/-- The variable an argument names and the block after its own, once pointers are followed (`arg.rs:42-58`). -/
def target {V W E : Type} (g : Names) (Δ : Ptrs V W E) (p : Node) (next : Option Node) : SArg V W E → Option (String × Option Node)
  | .var x =>
    match g.look p x with
    | some (.ptr to) => (Δ to).bind (·.tgt)
    | _ => some (x, next)
  | _ => none

/-- The arguments of a call, as lazy parameters point to them. -/
def extend {V W E : Type} (g : Names) (Δ : Ptrs V W E) (b : Node) (next : Option Node) (args : List (SArg V W E)) (as : List (Arg V W E)) :
    Ptrs V W E
  | .arg i :: q =>
    if q = b then
      match args[i]?, as[i]? with
      | some s, some a => some ⟨a, target g Δ (.arg i :: b) next s⟩
      | _, _ => none
    else Δ (.arg i :: q)
  | n => Δ n

/-- `comp/mod.rs:520-554` `map_callsite_params_for_def_step`: the slots and arguments of the parameters that are not
lazy. -/
def cParams {V W E : Type} (g : Names) (n : Node) : List (String × Bool) → List (Arg V W E) → Option (List (Nat × Arg V W E))
  | [], [] => some []
  | (_, true) :: ps, _ :: as => cParams g n ps as
  | (x, false) :: ps, a :: as =>
    match varSlot g n x, cParams g n ps as with
    | some s, some r => some ((s, a) :: r)
    | _, _ => none
  | _, _ => none

mutual
/-- `arg.rs:205-280` `map_astnode_into_hold`, after `follow_local_arg_ptr`. -/
def cArg {V W E : Type} (g : Names) (Δ : Ptrs V W E) (p : Node) : SArg V W E → Option (Arg V W E)
  | .lit v => some (.lit v)
  | .var x =>
    match g.look p x with
    | some (.var s) => some (.var s)
    | some (.ptr to) => (Δ to).map (·.arg)
    | none => none
  | .expr body => (cBlks g Δ p 0 body).map .expr

def cArgs {V W E : Type} (g : Names) (Δ : Ptrs V W E) (b : Node) (i : Nat) : List (SArg V W E) → Option (List (Arg V W E))
  | [] => some []
  | a :: as =>
    match cArg g Δ (.arg i :: b) a, cArgs g Δ b (i + 1) as with
    | some a, some as => some (a :: as)
    | _, _ => none

/-- `comp/mod.rs:449-502` `compile_block`. -/
def cBlk {V W E : Type} (g : Names) (Δ : Ptrs V W E) (b : Node) (next : Option Node) : SBlk V W E → Option (Step V W E)
  | .prim args lets injs prog keep =>
    match cArgs g Δ b 0 args, mapOpt (letSlot g Δ b next) lets, mapOpt (injSlot g b) injs with
    | some as, some ls, some js => some (.prim as (ls ++ js) prog keep)
    | _, _, _ => none
  | .call k args params body =>
    match cArgs g Δ b 0 args with
    | none => none
    | some as =>
      match cParams g (.body k :: b) params as, cBlks g (extend g Δ b next args as) (.body k :: b) 0 body with
      | some ps, some ss => some (.call ps ss)
      | _, _ => none

/-- `comp/mod.rs:639-680` `Stack::build`. -/
def cBlks {V W E : Type} (g : Names) (Δ : Ptrs V W E) (p : Node) (j : Nat) : List (SBlk V W E) → Option (List (Step V W E))
  | [] => some []
  | b :: bs =>
    match cBlk g Δ (.blk j :: p) (if bs.isEmpty then none else some (.blk (j + 1) :: p)) b, cBlks g Δ p (j + 1) bs with
    | some s, some ss => some (s :: ss)
    | _, _ => none
end

/-- `comp/mod.rs:40-90` `compile`, `compile_with_seed_vars`: the program starts with no lazy parameters. -/
def compile {V W E : Type} (g : Names) (bs : List (SBlk V W E)) : Option (List (Step V W E)) := cBlks g (fun _ => none) [] 0 bs

/-- The names of a graph of locals after some changes. -/
def namesOf (s : State) : Names where
  own n x := (s.maps n x).bind fun l => if l.defined = n then s.locals[l.loc]? else none
  look := getAny s

end Verif.Step
