import Verif.Model.Comp
import Verif.Spec.TyGraph
/-! What C67-C72 say about compiling. -/
namespace Verif.Comp
open Verif
variable {T : Type} [DecidableEq T]

/-- The definitions a program may call. -/
def Ast.defs (A : Ast T) : List Nat := (A.ops.flatMap A.cmds).filterMap fun c => c.2.def?

/-- Their expressions. -/
def Ast.bodies (A : Ast T) : List Nat := A.defs.map A.body

/-- The syntax graph is one: nodes exist, a block belongs to one expression, an argument to one block, an argument is
neither a block nor the expression of a definition, and a definition has its own expression. `names` are the names of all variables. -/
structure Ast.Wf (A : Ast T) (names : List String) : Prop where
  places : A.places.Nodup
  ops_lt : ∀ op ∈ A.ops, op < A.count
  ops_nodup : A.ops.Nodup
  exprs_lt : ∀ e ∈ A.exprs, e < A.count
  arg_lt : ∀ op, ∀ a ∈ A.args op, a < A.count
  arg_op : ∀ op, ∀ a ∈ A.args op, A.opOf a = op
  arg_not_op : ∀ op, ∀ a ∈ A.args op, a ∉ A.ops
  arg_not_body : ∀ op, ∀ a ∈ A.args op, a ∉ A.bodies
  body_lt : ∀ e ∈ A.bodies, e < A.count
  owner : ∀ op ∈ A.ops, ∀ c ∈ A.cmds op, ∀ d, c.2 = .defn d → A.owner d = op
  block_op : ∀ e, ∀ op ∈ A.blocks e, op ∈ A.ops
  parent : ∀ op ∈ A.ops, A.parent op ∈ A.exprs
  blocks : ∀ e ∈ A.exprs, A.blocks e ≠ []
  lit_expr : ∀ n ∈ A.lits, n ∉ A.exprs
  lit_op : ∀ n ∈ A.lits, n ∉ A.ops
  lit_def : ∀ d ∈ A.defs, d ∉ A.lits
  var_lit : ∀ n v, A.var n = some v → n ∈ A.lits
  var_name : ∀ n v, A.var n = some v → v ∈ names
  param_name : ∀ d, ∀ p ∈ A.params d, p.1 ∈ names
  op_not_body : ∀ op ∈ A.ops, op ∉ A.bodies
  body_inj : ∀ d ∈ A.defs, ∀ d' ∈ A.defs, A.body d = A.body d' → d = d'
  arg_place : ∀ op, ∀ a ∈ A.args op, ∃ i, A.place a = .arg i :: A.place op

/-- The variables a command injects have names among these. -/
def Builtins.Named (I : Builtins T) (names : List String) : Prop :=
  ∀ s i op t name u, Req.inject name u ∈ (I s i op t).1 → name ∈ names

/-- The flows from block to block and out of the expression. -/
def links (e : Nat) : List Nat → List Ty.Edge
  | [] => []
  | [b] => [⟨b, e, .oo⟩]
  | b :: c :: bs => ⟨b, c, .oi⟩ :: links e (c :: bs)

/-- `tygraph.rs:182-227` `apply_ast_edges`: the flows through an expression. -/
def Ast.flows (A : Ast T) (e : Nat) : List Ty.Edge :=
  match A.blocks e with
  | [] => []
  | b :: bs => ⟨e, b, .ii⟩ :: links e (b :: bs)

/-- `tygraph.rs:170-178`, `:272-276`: the input of a definition is the type it is for, or that of its block. -/
def Entered (g : Ty.State T) (op d : Nat) : Option T → Prop
  | none => ⟨op, d, .ii⟩ ∈ g.edges
  | some t => Ty.Settled (g.kn d .inp) t

/-- A compiler before it starts (`comp/mod.rs:28-66`): nothing is compiled; only literals and variables take any input,
types flow from their input only to the input of others of them, and into the expressions of definitions; the parameters of
no definition are in place. -/
structure Start (A : Ast T) (s : S T) : Prop where
  sets : ∀ n sd ts, s.tg.kn n sd = .inferred ts → ts.Nodup
  done : s.tg.done = []
  viaAny : s.tg.viaAny = []
  any : ∀ n, s.tg.kn n .inp = .any → n ∈ A.lits
  flows : ∀ e ∈ A.exprs, ∀ x ∈ A.flows e, x ∈ s.tg.edges
  calls : ∀ op ∈ A.ops, ∀ k d, (k, Cmd.defn d) ∈ A.cmds op → ⟨d, A.body d, .ii⟩ ∈ s.tg.edges ∧ Entered s.tg op d k
  ii : ∀ x ∈ s.tg.edges, x.flow = .ii → x.src ∈ A.lits → x.dst ∈ A.lits
  ptrs : ∀ p, Loc.Local.ptr p ∉ s.lg.locals
  steps : s.steps = []
  exprs : s.exprs = []
  outs : s.outs = []
  callsite : s.callsite = []
  seals : s.lg.seals = Loc.sealEdges
  bodies : ∀ d ∈ A.defs, s.lg.isSealed (A.place (A.body d)) = false

/-- The steps take an input of the first type through these blocks to an output of the second type: each block has a
step for the type the one before it puts out. -/
inductive Pipe (steps : List (Nat × T × T)) : List Nat → T → T → Prop
  | nil (t : T) : Pipe steps [] t t
  | cons {op : Nat} {ops : List Nat} {t u v : T} : (op, t, u) ∈ steps → Pipe steps ops u v → Pipe steps (op :: ops) t v

/-- The implementation for an input type: the one for this type, and if there is none, the one for any type. -/
def Chosen (A : Ast T) (op : Nat) (t : T) (c : Cmd) : Prop :=
  (some t, c) ∈ A.cmds op ∨ ((∀ x, (some t, x) ∉ A.cmds op) ∧ (none, c) ∈ A.cmds op)

/-- The argument written at `n` is the one at `m`: a parameter that is an expression stands for the argument of the call. -/
inductive Points (A : Ast T) (s : S T) : Nat → Nat → Prop
  | here (n : Nat) : Points A s n n
  | there {n m k : Nat} {v : String} {to : Loc.Node} : A.var n = some v → Loc.get s.lg (A.place n) v = some (some (.ptr to)) →
      A.place m = to → Points A s m k → Points A s n k

/-- The argument at `m` can be evaluated and has this type: a variable of this type, a compiled expression, or a literal. -/
def Holds (A : Ast T) (s : S T) (m : Nat) (u : T) : Prop :=
  (∃ v slot, A.var m = some v ∧ Loc.get s.lg (A.place m) v = some (some (.var slot)) ∧ s.slots[slot]? = some u) ∨
  (A.var m = none ∧ (m ∈ A.exprs → m ∈ s.exprs) ∧ Ty.Settled (s.tg.kn m .out) u)

/-- A command that evaluates its argument gets a value of the type the argument has. -/
def Ready (A : Ast T) (s : S T) (n : Nat) : Prop :=
  ∃ m u, Points A s n m ∧ Ty.Settled (s.tg.kn n .out) u ∧ Holds A s m u

/-- What a command asks of each of its arguments, in turn. -/
def asked : List Nat → Option Nat → List (Req T) → List (Nat × Req T)
  | _, _, [] => []
  | [], _, .next :: _ => []
  | a :: as, _, .next :: qs => asked as (some a) qs
  | as, none, _ :: qs => asked as none qs
  | as, some a, q :: qs => (a, q) :: asked as (some a) qs

/-- What was asked of an argument holds. A literal or variable can be given any input. -/
def Met (A : Ast T) (s : S T) (n : Nat) : Req T → Prop
  | .supplied t => n ∈ A.lits ∨ Ty.Settled (s.tg.kn n .inp) t
  | .returns t => Ty.Settled (s.tg.kn n .out) t
  | .concrete => Ready A s n
  | _ => True

def isNext : Req T → Bool
  | .next => true
  | _ => false

/-- `s` knows no more than `c` does. -/
def Within (s c : S T) : Prop :=
  (∀ x ∈ s.steps, x ∈ c.steps) ∧ (∀ e ∈ s.exprs, e ∈ c.exprs) ∧
    (∀ n sd t, Ty.Settled (s.tg.kn n sd) t → Ty.Settled (c.tg.kn n sd) t)

/-- The command succeeded on its block for this input type, with this output type, in a compiler that knew no more than `c`
does: it has taken all arguments, and they are as it asked. -/
def Accepted (A : Ast T) (I : Builtins T) (c : S T) (i op : Nat) (t u : T) : Prop :=
  ∃ s anon, Within s c ∧ (I s i op t).2 = .ok u anon ∧ ((I s i op t).1.filter isNext).length = (A.args op).length ∧
    ∀ a q, (a, q) ∈ asked (A.args op) none (I s i op t).1 → Met A s a q

/-- A step is what the implementation for its input type does: a built-in command that accepted its block, or a definition
whose expression is compiled, from the input type of the step to its output type. -/
def StepOk (A : Ast T) (I : Builtins T) (c : S T) (op : Nat) (t u : T) : Prop :=
  (∃ i, Chosen A op t (.intrinsic i) ∧ Accepted A I c i op t u) ∨
  (∃ d, Chosen A op t (.defn d) ∧ A.body d ∈ c.exprs ∧ Pipe c.steps (A.blocks (A.body d)) t u)

/-- The expressions a command is given as arguments are compiled. Those written in place are compiled for the type of the
input the command gives them, and they put out the type it expects. A parameter may stand for one. -/
def ArgsFit (A : Ast T) (I : Builtins T) (c : S T) (i op : Nat) (t u : T) : Prop :=
  ∃ s anon, Within s c ∧ (I s i op t).2 = .ok u anon ∧ ((I s i op t).1.filter isNext).length = (A.args op).length ∧
    ∀ a v, (a, .supplied v) ∈ asked (A.args op) none (I s i op t).1 →
    (a, .concrete) ∈ asked (A.args op) none (I s i op t).1 →
    ∃ m, Points A s a m ∧ (m ∈ A.exprs → ∃ x o, Pipe c.steps (A.blocks m) x o ∧ (a = m → x = v) ∧
      ∀ w, (a, .returns w) ∈ asked (A.args op) none (I s i op t).1 → o = w)

/-- The expressions written in the one at this place, as arguments: it is one of them. -/
inductive Nested (e : Loc.Node) : Loc.Node → Prop
  | here : Nested e e
  | arg {p : Loc.Node} {i j : Nat} : Nested e p → Nested e (.arg i :: .blk j :: p)

/-- The block is written in the expression of the definition, perhaps in an argument. -/
def Inside (A : Ast T) (d op : Nat) : Prop := ∃ p j, Nested (A.place (A.body d)) p ∧ A.place op = .blk j :: p

/-- The block calls a definition, or its command evaluates no argument that is a variable. -/
def NoVariable (A : Ast T) (I : Builtins T) (op : Nat) (t u : T) : Prop :=
  (∃ d, Chosen A op t (.defn d)) ∨
  ∃ i s anon, Chosen A op t (.intrinsic i) ∧ (I s i op t).2 = .ok u anon ∧
    ∀ a, (a, .concrete) ∈ asked (A.args op) none (I s i op t).1 → A.var a = none

/-- The block gives each parameter of the definition an argument. The arguments for parameters that are not expressions can
be evaluated on the input of the block, and have the declared types. -/
def Bound (A : Ast T) (s : S T) (d op : Nat) (t : T) : Prop :=
  (A.params d).length = (A.args op).length ∧
  ∀ (j : Nat) name p a, (A.params d)[j]? = some (name, p) → p ≠ .expr → (A.args op)[j]? = some a →
    (a ∈ A.lits ∨ Ty.Settled (s.tg.kn a .inp) t) ∧ Ready A s a ∧ ∀ v, p = .ty v → Ty.Settled (s.tg.kn a .out) v

/-- The block calls a definition with at most 256 parameters in keeping with its declaration, or nothing in the definition
needs a variable. -/
def CallOk (A : Ast T) (I : Builtins T) (c : S T) (op : Nat) (t : T) : Prop :=
  ∃ d s, Chosen A op t (.defn d) ∧ Within s c ∧ A.body d ∈ s.exprs ∧
    ((A.params d).length ≤ 256 → Bound A s d op t ∨ ∀ x ∈ s.steps, Inside A d x.1 → NoVariable A I x.1 x.2.1 x.2.2)

end Verif.Comp
