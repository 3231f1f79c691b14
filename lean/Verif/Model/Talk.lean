import Verif.Model.Eval
/-! What a built-in command does while it is compiled, as a conversation with the compiler: it takes one argument after the
other, and may go on depending on their types. At the end there is the closure that is evaluated later. -/
namespace Verif.Comp
open Verif

/-- What a command tells the compiler (`blk.rs:117-137`, `infer.rs:429-461`). -/
inductive Say (T : Type)
  /-- `assert_output` -/
  | output (t : T)
  /-- `oblige_args_supplied_tys` -/
  | oblige (t : T)
  /-- `assert_adds_vars` -/
  | addsVars (retain : Bool)
  /-- `assert_vars_added` -/
  | varsAdded

/-- A conversation.
`fail`: an error; `done`: `eval` (`blk.rs:253-263`) with the output type, the anonymous types asked for
(`insert_anon_type_into_compiler`), and the closure; `given`: `output_ty` (`infer.rs:429-461`), and `eval` with the type found;
`tell`; `read`: `next_arg()?`, `decouple_op_seal` if `loose`, `supplied` if there is a type, `returns` if there is a type, which
may depend on the type the argument is known to return, and `concrete()?`, after which its two types are known; `inject`:
`inject_manual_var_next_arg`; `bind`: `next_arg()?` and `create_var_ref` (`blk.rs:149-180`). -/
inductive Talk (T V : Type)
  | fail (hard : Bool)
  | done (t : T) (anon : List T) (f : V → Act V)
  | given (f : T → V → Act V)
  | tell (q : Say T) (k : Talk T V)
  | read (loose : Bool) (t : Option T) (u : Option T → Option T) (k : T → T → Talk T V)
  | inject (name : String) (t : T) (k : Talk T V)
  | bind (t : T) (k : Talk T V)

variable {T V : Type} [DecidableEq T]

def Say.req : Say T → Req T
  | .output t => .output t
  | .oblige t => .obligeArgs t
  | .addsVars b => .addsVars b
  | .varsAdded => .varsAdded

/-- The calls that take an argument, when its output type may be known. -/
def takes (loose : Bool) (t : Option T) (u : Option T → Option T) (out : Option T) : List (Req T) :=
  .next :: ((if loose then [.decouple] else []) ++ ((t.toList.map .supplied) ++ ((u out).toList.map .returns ++ [.concrete])))

/-- The input type of an argument: the one supplied, or else the one it is known to have. -/
def inTy (s : S T) (t : Option T) (a : Nat) : Option T := t <|> (s.tg.kn a .inp).ty

/-- How `output_ty` ends. -/
def givenFin : Option T → Fin T
  | some t => .ok t []
  | none => .fail false

/-- The calls of a conversation and its end, with these arguments left. If a type of an argument is not known, `concrete` fails,
and the rest does not matter. -/
def Talk.run (A : Ast T) (s : S T) (op : Nat) : Talk T V → List Nat → List (Req T) × Fin T
  | .fail h, _ => ([], .fail h)
  | .done t an _, _ => ([], .ok t an)
  | .given _, _ => ([.infer], givenFin (outputTy A s op))
  | .tell q k, as => (q.req :: (k.run A s op as).1, (k.run A s op as).2)
  | .read _ _ _ _, [] => ([.next], .fail true)
  | .read l t u k, a :: as =>
    match inTy s t a, (s.tg.kn a .out).ty with
    | some i, some o => (takes l t u (some o) ++ ((k i o).run A s op as).1, ((k i o).run A s op as).2)
    | _, o => (takes l t u o, .fail false)
  | .inject name t k, as => (.inject name t :: (k.run A s op as).1, (k.run A s op as).2)
  | .bind _ _, [] => ([.next], .fail true)
  | .bind t k, _ :: as => (.next :: .createVar t :: (k.run A s op as).1, (k.run A s op as).2)

/-- The closure a conversation ends with, when the arguments turned out like this and the output type is `out`. -/
def Talk.closure (out : T) : Talk T V → List (Argument T) → V → Act V
  | .fail _, _ => fun _ => .wrong
  | .done _ _ f, _ => f
  | .given f, _ => f out
  | .tell _ k, as => k.closure out as
  | .read _ _ _ _, [] => fun _ => .wrong
  | .read _ _ _ k, a :: as => (k a.inp a.out).closure out as
  | .inject _ _ k, as => k.closure out as
  | .bind _ k, as => k.closure out as

/-- Commands that are conversations: given the number of the implementation, the block, its arguments and its input type. -/
abbrev Talks (T V : Type) := Nat → Nat → Nat → T → Talk T V

/-- The built-in commands. -/
def Talks.builtins (C : Talks T V) (A : Ast T) : Builtins T := fun s i op t => (C i op (A.args op).length t).run A s op (A.args op)

/-! ### Parts of conversations -/

/-- `next_arg()?.supplied(t)?.concrete()?`. -/
def Talk.arg (t : T) (k : T → Talk T V) : Talk T V := .read false (some t) (fun _ => none) fun _ o => k o

/-- `next_arg()?.supplied(t)?.returns(u)?.concrete()?`. -/
def Talk.argAs (t u : T) (k : Talk T V) : Talk T V := .read false (some t) (fun _ => some u) fun _ _ => k

/-- So many arguments; the rest may depend on their output types. -/
def Talk.args (t : T) : Nat → (List T → Talk T V) → Talk T V
  | 0, k => k []
  | n + 1, k => .arg t fun u => Talk.args t n fun us => k (u :: us)

/-- So many arguments of one type. -/
def Talk.argsAs (t u : T) : Nat → Talk T V → Talk T V
  | 0, k => k
  | n + 1, k => .argAs t u (Talk.argsAs t u n k)

/-- Arguments of these types. -/
def Talk.argsOf (t : T) : List T → Talk T V → Talk T V
  | [], k => k
  | u :: us, k => .argAs t u (Talk.argsOf t us k)

end Verif.Comp
