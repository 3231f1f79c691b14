import Verif.Model.Talk
/-! What C92 says a program means: its expressions are evaluated as they are written, with the values of variables kept by their
names. There are no compiled blocks here and no places in an environment; of what the compiler found out, only the types are used. -/
namespace Verif.Comp
open Verif
variable {T V : Type}

/-- The values of variables, by name. -/
abbrev Vals (V : Type) := String → Option V

def Vals.none : Vals V := fun _ => .none

/-- One more, in place of any other of its name. -/
def Vals.put (ρ : Vals V) (name : String) (v : V) : Vals V := fun k => if k = name then some v else ρ k

/-- Those of `σ`, and else those of `ρ`. -/
def Vals.over (σ ρ : Vals V) : Vals V := fun k => match σ k with
  | some v => some v
  | .none => ρ k

/-- What a command does on a block: the arguments it reads, in turn; the variables it has, each with its name and the argument or the
next block in which it can be used (there need not be a next block); and what it does with its input. -/
structure Plan (V : Type) where
  reads : List Nat
  vars : List (Option Nat × String)
  act : V → Act V

def Plan.read (a : Nat) (p : Plan V) : Plan V := { p with reads := a :: p.reads }

def Plan.var (n : Option Nat) (name : String) (p : Plan V) : Plan V := { p with vars := (n, name) :: p.vars }

/-- A command's conversation, with these arguments left, when `τ` are the types of nodes. -/
def Talk.plan (A : Ast T) (τ : Nat → Ty.Side → Option T) (op : Nat) : Talk T V → List Nat → Option (Plan V)
  | .fail _, _ => none
  | .done _ _ f, [] => some ⟨[], [], f⟩
  | .done _ _ _, _ :: _ => none
  | .given f, [] => (τ op .out).map fun u => ⟨[], [], f u⟩
  | .given _, _ :: _ => none
  | .tell _ k, as => k.plan A τ op as
  | .read _ _ _ _, [] => none
  | .read _ t _ k, a :: as => match t <|> τ a .inp, τ a .out with
    | some i, some o => ((k i o).plan A τ op as).map (.read a)
    | _, _ => none
  | .inject _ _ _, [] => none
  | .inject name _ k, a :: as => (k.plan A τ op (a :: as)).map (.var (some a) name)
  | .bind _ _, [] => none
  | .bind _ k, a :: as => match A.var a with
    | some v => (k.plan A τ op as).map (.var (A.next op) v)
    | none => none

/-- What a program is evaluated with: the type of a value, the values of literals, what each command does on each block with input
of a type, and the calls that do not evaluate their arguments. -/
structure Sense (T V : Type) where
  ty : V → T
  lit : Nat → V
  plan : Nat → Nat → T → Option (Plan V)
  skip : Nat → Bool

/-- How expressions are evaluated: the expression, the input, the variables. -/
abbrev Means (V : Type) := Nat → V → Vals V → Res V

/-- An argument: a variable, an expression, a literal, or `#i`. -/
def argMeans (A : Ast T) (S : Sense T V) (ev : Means V) (a : Nat) (x : V) (ρ : Vals V) : Res V :=
  match A.var a with
  | some v => match ρ v with
    | some y => .ok y
    | none => .stuck
  | none => if a ∈ A.exprs then ev a x ρ else if a ∈ A.lits then .ok (S.lit a) else .ok x

/-- Variables that a command has set, by the argument or block in which they can be used. -/
abbrev Local (V : Type) := Nat → Vals V

def Local.put (σ : Local V) (n : Nat) (name : String) (v : V) : Local V := fun m => if m = n then (σ m).put name v else σ m

/-- A command sets some of its variables. -/
def assign (vars : List (Option Nat × String)) : List (Nat × V) → Local V → Option (Local V)
  | [], σ => some σ
  | (j, v) :: sets, σ => match vars[j]? with
    | none => none
    | some (none, _) => assign vars sets σ
    | some (some n, name) => assign vars sets (σ.put n name v)

/-- What a command does: each time it reads an argument, this is evaluated on what the command gives it, with the variables there are
at the block and those the command has set for the argument. -/
def actMeans (A : Ast T) (S : Sense T V) (ev : Means V) (p : Plan V) (ρ : Vals V) : Act V → Local V → Res (V × Local V)
  | .done v, σ => .ok (v, σ)
  | .fail, _ => .err
  | .wrong, _ => .stuck
  | .set j v next, σ => match assign p.vars [(j, v)] σ with
    | none => .stuck
    | some σ => actMeans A S ev p ρ next σ
  | .resolve k sets x next, σ => match p.reads[k]? with
    | none => .stuck
    | some a => match assign p.vars sets σ with
      | none => .stuck
      | some σ' => match argMeans A S ev a x ((σ' a).over ρ) with
        | .ok v => actMeans A S ev p ρ (next (some v)) σ
        | .err => actMeans A S ev p ρ (next none) σ
        | .stuck => .stuck
        | .more => .more

/-- The parameters of a call: the arguments, evaluated in turn on the input of the call. -/
def paramsMean (A : Ast T) (S : Sense T V) (ev : Means V) (x : V) (ρ : Vals V) : List (String × Nat) → Vals V → Res (Vals V)
  | [], acc => .ok acc
  | (name, a) :: ps, acc => match argMeans A S ev a x ρ with
    | .ok v => paramsMean A S ev x ρ ps (acc.put name v)
    | .err => .err
    | .stuck => .stuck
    | .more => .more

/-- The parameters of a definition, each with the argument of the call at its position. -/
def passed (A : Ast T) (S : Sense T V) (op d : Nat) : List (String × Nat) :=
  if S.skip op then [] else ((A.params d).map (·.1)).zip (A.args op)

/-- The variables after a block: what it set for the next one, and those that there were. -/
def after (A : Ast T) (op : Nat) (σ : Local V) (ρ : Vals V) : Vals V := match A.next op with
  | some n => (σ n).over ρ
  | none => ρ

/-- A block: the command there is for the type of the input. The body of a definition is evaluated with its parameters for variables,
and no others. -/
def stepMeans [DecidableEq T] (A : Ast T) (S : Sense T V) (ev : Means V) (op : Nat) (x : V) (ρ : Vals V) : Res (V × Vals V) :=
  match A.getImpl op (S.ty x) with
  | none => .stuck
  | some (.intrinsic i) => match S.plan i op (S.ty x) with
    | none => .stuck
    | some p => match actMeans A S ev p ρ (p.act x) fun _ => .none with
      | .ok r => .ok (r.1, after A op r.2 ρ)
      | .err => .err
      | .stuck => .stuck
      | .more => .more
  | some (.defn d) => match paramsMean A S ev x ρ (passed A S op d) .none with
    | .ok acc => match ev (A.body d) x acc with
      | .ok v => .ok (v, ρ)
      | .err => .err
      | .stuck => .stuck
      | .more => .more
    | .err => .err
    | .stuck => .stuck
    | .more => .more

/-- Blocks in turn: each gets what the one before made. -/
def stepsMean [DecidableEq T] (A : Ast T) (S : Sense T V) (ev : Means V) : List Nat → V → Vals V → Res V
  | [], x, _ => .ok x
  | op :: ops, x, ρ => match stepMeans A S ev op x ρ with
    | .ok r => stepsMean A S ev ops r.1 r.2
    | .err => .err
    | .stuck => .stuck
    | .more => .more

/-- An expression. The first argument bounds how deep expressions are nested. -/
def exprMeans [DecidableEq T] (A : Ast T) (S : Sense T V) : Nat → Means V
  | 0 => fun _ _ _ => .more
  | f + 1 => fun e x ρ => stepsMean A S (exprMeans A S f) (A.blocks e) x ρ

/-- The variables given with a program: the last of each name. -/
def given : List String → List V → Vals V
  | k :: ks, v :: vs => (given ks vs).over (Vals.none.put k v)
  | _, _ => .none

/-- Just the value of a result. -/
def Res.value : Res (V × List V) → Res V
  | .ok r => .ok r.1
  | .err => .err
  | .stuck => .stuck
  | .more => .more

/-- Whether a compiled block is a call that passes no arguments. -/
def skips (s : S T) (op : Nat) : Bool := match s.codeAt op with
  | some (_, _, .call _ []) => true
  | _ => false

/-- What a program means, with the types the compiler found. -/
def sense (A : Ast T) (C : Talks T V) (E : Exec T V) (c : S T) : Sense T V where
  ty := E.ty
  lit := E.lit
  plan := fun i op t => (C i op (A.args op).length t).plan A (fun n sd => (c.tg.kn n sd).ty) op (A.args op)
  skip := skips c

end Verif.Comp
