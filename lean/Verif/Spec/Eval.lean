import Verif.Spec.Comp
import Verif.Model.Cmds
/-! What C76 says about evaluating compiled programs. -/
namespace Verif.Comp
open Verif
variable {T V : Type} [DecidableEq T]

/-- Where the nodes of the syntax graph are: blocks in their expression, in the order written, arguments at blocks, expressions
of definitions at theirs. No parameter is an expression; the parameters of a definition have different names, and there are at
most 256 of them. -/
structure Ast.Placed (A : Ast T) : Prop where
  closed : ∀ n ∈ A.places, ∀ p, Loc.par n = some p → p ∈ A.places
  args : ∀ i q, Loc.Mark.arg i :: q ∈ A.places → ∃ j p, q = .blk j :: p
  blk : ∀ e ∈ A.exprs, ∀ (j op : Nat), (A.blocks e)[j]? = some op → A.place op = .blk j :: A.place e
  parent : ∀ op ∈ A.ops, op ∈ A.blocks (A.parent op)
  body : ∀ d ∈ A.defs, ∃ k p, A.place (A.body d) = .body k :: p
  values : ∀ d ∈ A.defs, ∀ p ∈ A.params d, p.2 ≠ .expr
  names : ∀ d ∈ A.defs, ((A.params d).map (·.1)).Nodup
  few : ∀ d ∈ A.defs, (A.params d).length ≤ 256

/-- Before compiling starts: the variables given with the program are known at its root, no block is compiled, `#i` gets the
type of its block, and a literal has the type of its value. -/
structure Begun (A : Ast T) (E : Exec T V) (seeds : List String) (s : S T) : Prop where
  lg : s.lg = Loc.seed A.places seeds
  slots : s.slots.length = seeds.length
  binds : s.binds = []
  codes : s.codes = []
  inputs : ∀ op ∈ A.ops, ∀ a ∈ A.args op, a ∉ A.lits → a ∉ A.exprs → ⟨op, a, .ii⟩ ∈ s.tg.edges ∧ ⟨op, a, .io⟩ ∈ s.tg.edges
  literals : ∀ n ∈ A.lits, A.var n = none → Ty.Settled (s.tg.kn n .out) (E.ty (E.lit n))

/-- The variable a call asks for, if any: the node where it is to be visible, its name and type. -/
def introduces1 (A : Ast T) (op : Nat) (args : List Nat) (cur : Option Nat) : Req T → List (Nat × String × T)
  | .createVar t => match cur.bind A.var, A.next op with
    | some v, some n => [(n, v, t)]
    | _, _ => []
  | .inject name t => match args with
    | [] => []
    | a :: _ => [(a, name, t)]
  | _ => []

/-- The variables a command asks for: of its next block, or of one of its arguments. -/
def introduces (A : Ast T) (op : Nat) : List Nat → Option Nat → List (Req T) → List (Nat × String × T)
  | _, _, [] => []
  | args, cur, q :: qs => introduces1 A op args cur q ++
      if isNext q then introduces A op args.tail args.head? qs else introduces A op args cur qs

/-- The variables a command asks for on its block. -/
def Builtins.introduces (I : Builtins T) (A : Ast T) (s : S T) (i op : Nat) (t : T) : List (Nat × String × T) :=
  Comp.introduces A op (A.args op) none (I s i op t).1

/-- All locals are variables, of known types: none stands for an argument. No set of possible types has just one. -/
structure Sane (s : S T) : Prop where
  vars : ∀ l ∈ s.lg.locals, ∃ slot, l = .var slot ∧ slot < s.slots.length
  sets : ∀ n sd t, s.tg.kn n sd ≠ .inferred [t]

/-- A variable that a command asked for and that was not there is one it asks for when it succeeds, knowing more; then it asks
for no variable with two types. -/
structure Builtins.Steady (I : Builtins T) (A : Ast T) : Prop where
  again : ∀ s s' i op t u, op ∈ A.ops → A.getImpl op t = some (.intrinsic i) → Sane s → Sane s' → Within s s' → (runBuiltin A I s' i op t).res = .ok u → ∀ name v n,
    .var name v n ∈ (runBuiltin A I s i op t).chgs → (n, name, v) ∈ I.introduces A s' i op t
  tidy : ∀ s i op t u, op ∈ A.ops → A.getImpl op t = some (.intrinsic i) → Sane s → (runBuiltin A I s i op t).res = .ok u → ∀ n name v w,
    (n, name, v) ∈ I.introduces A s i op t → (n, name, w) ∈ I.introduces A s i op t → v = w

/-- All variables to be visible at this node are set. -/
def AllSet (vars : List (Variable T)) (done : List Nat) (n : Nat) : Prop :=
  ∀ x ∈ vars, ∀ slot, x.site = some (n, slot) → ∃ j ∈ done, ∃ y, vars[j]? = some y ∧ y.site = some (n, slot)

/-- A closure does as its command announced. It sets variables to values of the type it asked for. It evaluates arguments on
values of the type announced, with the variables of the argument set. It never finds a value of another type than
it expects. It ends with a value of the announced type, with the variables of the next block set. -/
def Behaves (A : Ast T) (ty : V → T) (u : T) (args : List (Argument T)) (vars : List (Variable T)) : List Nat → Act V → Prop
  | set, .done v => ty v = u ∧ ∀ n ∈ A.ops, AllSet vars set n
  | _, .fail => True
  | _, .wrong => False
  | set, .set j v next => (∃ x, vars[j]? = some x ∧ ty v = x.want) ∧ Behaves A ty u args vars (j :: set) next
  | set, .resolve k sets x next =>
    (∀ p ∈ sets, ∃ y, vars[p.1]? = some y ∧ ty p.2 = y.want) ∧
    (∃ a, args[k]? = some a ∧ ty x = a.inp ∧ AllSet vars (sets.map (·.1) ++ set) a.node ∧
      ∀ v, ty v = a.out → Behaves A ty u args vars set (next (some v))) ∧
    Behaves A ty u args vars set (next none)

/-- The closures of all commands do as announced. -/
def Exec.Sound (E : Exec T V) (A : Ast T) (I : Builtins T) : Prop :=
  ∀ s i op t u, op ∈ A.ops → A.getImpl op t = some (.intrinsic i) → Sane s → (runBuiltin A I s i op t).res = .ok u → ∀ args vars,
    args = madeArgs A s op (.start (A.args op)) (I s i op t).1 → vars = madeVars A s op (.start (A.args op)) (I s i op t).1 →
    ∀ x, E.ty x = t → Behaves A E.ty u args vars [] (E.act i op t u args vars x)

/-- The environment has a place for each variable; the variables given with the program have values of their types. -/
structure Ready0 (E : Exec T V) (c : S T) (seeds : List String) (env : List V) : Prop where
  length : env.length = c.slots.length
  seeds : ∀ (i : Nat), i < seeds.length → ∃ v, env[i]? = some v ∧ c.slots[i]? = some (E.ty v)

/-- Evaluation ends in an error, or with a value of this type. -/
def Safe (E : Exec T V) (u : T) : Res (V × List V) → Prop
  | .ok r => E.ty r.1 = u
  | .err => True
  | .stuck => False
  | .more => False

/-- The variables `let` may set, by their arguments. -/
def binders : List Nat → List Nat
  | [] => []
  | [b] => [b]
  | _ :: b :: as => b :: binders as

/-- Programs in which no `let` sets two variables of the same name. -/
structure Ast.Tidy (A : Ast Tp) : Prop where
  args : ∀ op, (A.args op).Nodup
  lets : ∀ op ∈ A.ops, ∀ t, A.getImpl op t = some (.intrinsic 5) → ∀ b ∈ binders (A.args op), ∀ b' ∈ binders (A.args op),
    ∀ v, A.var b = some v → A.var b' = some v → b = b'

end Verif.Comp
