import Verif.Model.Eval
/-! Model of some built-in commands, compiled and evaluated (`ogma/src/lang/impls/intrinsics/`). -/
namespace Verif.Comp
open Verif

/-- Some types. -/
inductive Tp
  | nil
  | num
  | str
  | tab
  | row
  | bool
  deriving DecidableEq

/-- Values of these types. Numbers are integers here; a table is its number of rows, without the header; a row is its index. -/
inductive Val
  | nil
  | num (n : Int)
  | str (s : String)
  | tab (rows : Nat)
  | row (i : Nat)
  | bool (b : Bool)
  deriving DecidableEq

def Val.ty : Val → Tp
  | .nil => .nil
  | .num _ => .num
  | .str _ => .str
  | .tab _ => .tab
  | .row _ => .row
  | .bool _ => .bool

/-- The output type of an argument, once it is known: `out_ty` of `concrete`. -/
def argTy (s : S Tp) (a : Nat) : Tp := (s.tg.kn a .out).ty.getD .nil

/-- `next_arg()?.supplied(t)?.concrete()?`. -/
def reads (t : Tp) : List (Req Tp) := [.next, .supplied t, .concrete]

/-- `next_arg()?.supplied(t)?.returns(u)?.concrete()?`. -/
def readsAs (t u : Tp) : List (Req Tp) := [.next, .supplied t, .returns u, .concrete]

/-- `logic.rs:74-85`. -/
def ifReqs (t : Tp) : List Nat → List (Req Tp)
  | [] => []
  | [_] => reads t
  | _ :: _ :: as => readsAs t .bool ++ (reads t ++ ifReqs t as)

/-- `logic.rs:87-99`: the output type, if all branches have it. -/
def ifTy (s : S Tp) : List Nat → Option Tp
  | [] => none
  | [a] => some (argTy s a)
  | _ :: b :: as => match ifTy s as with
    | some t => if argTy s b = t then some t else none
    | none => none

/-- `pipeline.rs:406-439`: `let` takes a value and a variable at a time; one left over gets the input. -/
def letReqs (s : S Tp) (t : Tp) : List Nat → List (Req Tp)
  | [] => [.varsAdded]
  | [_] => [.next, .createVar t, .varsAdded]
  | a :: _ :: as => reads t ++ (.next :: .createVar (argTy s a) :: letReqs s t as)

/-- What the commands do when they are compiled.
`0` `ls` without a path (`io.rs:86-110`), `1` `\` (`pipeline.rs:280-286`), `2` `len` (`pipeline.rs:300-330`), `3` `+`
(`mod.rs:72-120`), `4` `if` (`logic.rs:60-110`), `5` `let` (`pipeline.rs:384-458`), `6` `fold` (`morphism.rs:547-579`),
`7` `fold-while` (`morphism.rs:602-645`), `8` `filter` with a predicate of rows (`morphism.rs:355-388`). -/
def library (A : Ast Tp) : Builtins Tp := fun s i op t =>
  match i with
  | 0 => ([.output .tab], .ok .tab [])
  | 1 => match A.args op with
    | [] => ([.next], .fail true)
    | a :: _ => (reads t ++ [.output (argTy s a)], .ok (argTy s a) [])
  | 2 => if t = .str ∨ t = .tab then ([.output .num], .ok .num []) else ([], .fail false)
  | 3 => if t = .num ∨ t = .str ∨ t = .tab then
      if A.args op = [] then ([.output t], .fail true)
      else (.output t :: .obligeArgs t :: (A.args op).flatMap fun _ => readsAs t t, .ok t [])
    else ([], .fail false)
  | 4 => if (A.args op).length % 2 = 0 then ([], .fail true)
    else (ifReqs t (A.args op), match ifTy s (A.args op) with | some u => .ok u [] | none => .fail true)
  | 5 => (.addsVars false :: .output t :: .obligeArgs t :: letReqs s t (A.args op), .ok t [])
  | 6 => if t = .tab then
      match A.args op with
      | [] => ([.addsVars true, .next], .fail true)
      | a :: _ => (.addsVars true :: .next :: .decouple :: .supplied .nil :: .concrete :: .output (argTy s a) :: .inject "row" .row ::
          .varsAdded :: readsAs (argTy s a) (argTy s a), .ok (argTy s a) [])
    else ([.addsVars true], .fail false)
  | 7 => if t = .tab then
      match A.args op with
      | [] => ([.next], .fail true)
      | a :: _ => (reads .nil ++ (.output (argTy s a) :: .inject "row" .row :: (readsAs (argTy s a) .bool ++
          (.inject "row" .row :: readsAs (argTy s a) (argTy s a)))), .ok (argTy s a) [])
    else ([], .fail false)
  | 8 => if t = .tab then (.output .tab :: readsAs .row .bool, .ok .tab []) else ([], .fail false)
  | _ => ([], .fail true)

/-- An argument is evaluated, and an error of it is the error of the command. -/
def Act.eval (k : Nat) (x : Val) (next : Val → Act Val) : Act Val :=
  .resolve k [] x fun
    | none => .fail
    | some v => next v

/-- `arithmetic.rs:53-110`: adding numbers, joining strings and tables. -/
def Val.plus : Val → Val → Val
  | .num a, .num b => .num (a + b)
  | .str a, .str b => .str (a ++ b)
  | .tab a, .tab b => .tab (a + b)
  | a, _ => a

/-- `mod.rs:107-120`: so many arguments, from this one on. -/
def plusAct (x : Val) : Nat → Nat → Val → Act Val
  | 0, _, v => .done v
  | n + 1, k, v => .eval k x fun w => plusAct x n (k + 1) (v.plus w)

/-- `logic.rs:101-109`: so many conditions, from this argument on. -/
def ifAct (x : Val) : Nat → Nat → Act Val
  | 0, k => .eval k x .done
  | n + 1, k => .eval k x fun v => if v = .bool true then .eval (k + 1) x .done else ifAct x n (k + 2)

/-- `pipeline.rs:443-457`: so many bindings, from this one on; then the input may be bound. -/
def letAct (x : Val) (trailing : Bool) : Nat → Nat → Act Val
  | 0, k => if trailing then .set k x (.done x) else .done x
  | n + 1, k => .eval k x fun v => .set k v (letAct x trailing n (k + 1))

/-- `morphism.rs:568-578`: so many rows, from this one on. -/
def foldAct : Nat → Nat → Val → Act Val
  | 0, _, v => .done v
  | n + 1, i, v => .set 0 (.row i) (.eval 1 v (foldAct n (i + 1)))

/-- `morphism.rs:624-643`. -/
def foldWhileAct : Nat → Nat → Val → Act Val
  | 0, _, v => .done v
  | n + 1, i, v => .set 0 (.row i) (.eval 1 v fun met => if met = .bool true then .set 1 (.row i) (.eval 2 v (foldWhileAct n (i + 1))) else .done v)

/-- `morphism.rs:386-420`: the rows that are kept. -/
def filterAct : Nat → Nat → Nat → Act Val
  | 0, _, kept => .done (.tab kept)
  | n + 1, i, kept => .eval 0 (.row i) fun v => filterAct n (i + 1) (if v = .bool true then kept + 1 else kept)

/-- The number of rows of a table, or characters of a string. -/
def Val.size : Val → Nat
  | .tab n => n
  | .str s => s.length
  | _ => 0

/-- What the commands do when they are evaluated. `files`: how many files there are, if they can be listed. -/
def libraryAct (files : Option Nat) : Nat → Nat → Tp → Tp → List (Argument Tp) → List (Variable Tp) → Val → Act Val :=
  fun i _ _ _ args vars x => match i with
  | 0 => match files with
    | some n => .done (.tab n)
    | none => .fail
  | 1 => .eval 0 x .done
  | 2 => .done (.num x.size)
  | 3 => plusAct x args.length 0 x
  | 4 => ifAct x (args.length / 2) 0
  | 5 => letAct x (decide (args.length < vars.length)) args.length 0
  | 6 => .eval 0 .nil (foldAct x.size 1)
  | 7 => .eval 0 .nil (foldWhileAct x.size 1)
  | 8 => filterAct x.size 1 0
  | _ => .fail

/-- Evaluating programs of these commands, given the values of literals. -/
def libraryExec (files : Option Nat) (lit : Nat → Val) : Exec Tp Val := ⟨Val.ty, lit, libraryAct files⟩

end Verif.Comp
