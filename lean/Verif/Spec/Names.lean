import Verif.Spec.Eval
import Verif.Spec.Scope
import Verif.Spec.Prog
/-! What C91 says about the names in a compiled program. -/
namespace Verif.Comp
open Verif
variable {T V : Type} [DecidableEq T]

/-- After this attempt to compile a block, its command is taken to have announced all its variables. -/
def Out.Seals (o : Out T) (op : Nat) : Prop := o.adds = false ∨ Chg.sealOp op ∈ o.chgs

/-- A command that is taken to have announced all its variables asks for no further one later on, knowing more. And an argument
that was freed from waiting for its block gets no variable. -/
structure Builtins.Prompt (I : Builtins T) (A : Ast T) : Prop where
  all : ∀ s s' i op t, op ∈ A.ops → A.getImpl op t = some (.intrinsic i) → Sane s → Sane s' → Within s s' → (runBuiltin A I s i op t).Seals op →
    ∀ name v n, Chg.var name v n ∈ (runBuiltin A I s' i op t).chgs → ∃ x, variableAt A s name n = some x
  apart : ∀ s s' i op t, op ∈ A.ops → A.getImpl op t = some (.intrinsic i) → Sane s → Sane s' → Within s s' → ∀ o a,
    Chg.breakEdge o a ∈ (runBuiltin A I s i op t).chgs → ∀ name v, Chg.var name v a ∉ (runBuiltin A I s' i op t).chgs

/-- The arguments a compiled block evaluates. -/
def Code.arguments : Code T → List (Argument T)
  | .builtin _ args _ => args
  | .call _ params => params.map (·.2)

/-- A command was asked to compile this block with this input, knowing no more than in the end, and asked for a variable of this
name there. -/
def Announced (A : Ast T) (I : Builtins T) (c : S T) (q : Loc.Node) (name : String) : Prop :=
  ∃ op t i n u s0, op ∈ A.ops ∧ Ty.Settled (c.tg.kn op .inp) t ∧ A.getImpl op t = some (.intrinsic i) ∧ Within s0 c ∧
    (n ∈ A.args op ∨ A.next op = some n) ∧ q = A.place n ∧ Chg.var name u n ∈ (runBuiltin A I s0 i op t).chgs

/-- `D` are the variables of a compiled program, by their places in the environment: where in the program each is defined, and
its name. -/
structure Named (A : Ast T) (I : Builtins T) (seeds : List String) (c : S T) (D : List Scope.DefAt) : Prop where
  /-- There is a place for each. -/
  length : D.length = c.slots.length
  /-- At the root are the variables given with the program. -/
  root : ∀ k i, Scope.Latest D [] k i ↔ Scope.Latest (seeds.map fun k => ([], k)) [] k i
  /-- Elsewhere, a name is defined once. -/
  once : ∀ (i j : Nat) x, x.1 ≠ [] → D[i]? = some x → D[j]? = some x → i = j
  /-- A variable is given with the program, or a command asked for it at its next block or at one of its arguments, or it is a
  parameter in the body of its definition. -/
  source : ∀ (i : Nat) q name, D[i]? = some (q, name) →
    q = [] ∨ Announced A I c q name ∨ ∃ d ∈ A.defs, q = A.place (A.body d) ∧ name ∈ (A.params d).map (·.1)
  /-- A compiled command sets the variables that it asked for, and no others. -/
  sets : ∀ op t u i args vars, (op, t, u, Code.builtin i args vars) ∈ c.codes → ∃ s0, Within s0 c ∧ (runBuiltin A I s0 i op t).res = .ok u ∧
    (∀ n name v, (n, name, v) ∈ I.introduces A s0 i op t → ∃ slot, D[slot]? = some (A.place n, name) ∧ ∃ x ∈ vars, x.site = some (n, slot)) ∧
    ∀ x ∈ vars, ∀ n slot, x.site = some (n, slot) → ∃ name v, (n, name, v) ∈ I.introduces A s0 i op t ∧ D[slot]? = some (A.place n, name)
  /-- There are no other variables there. -/
  all : ∀ op t u i args vars, (op, t, u, Code.builtin i args vars) ∈ c.codes → ∀ n, (n ∈ A.args op ∨ A.next op = some n) →
    ∀ (slot : Nat) name, D[slot]? = some (A.place n, name) → ∃ x ∈ vars, x.site = some (n, slot)
  /-- A call sets the parameters of the definition, each to the argument at its position; or none of them. -/
  calls : ∀ op t u d params, (op, t, u, Code.call d params) ∈ c.codes → params = [] ∨
    params.length = (A.params d).length ∧ ∀ (j : Nat) slot w a, params[j]? = some ((slot, w), a) → ∃ name p, (A.params d)[j]? = some (name, p) ∧
      (A.args op)[j]? = some a.node ∧ D[slot]? = some (A.place (A.body d), name)
  /-- A name used as an argument is the variable that is found from there. -/
  uses : ∀ op t u code, (op, t, u, code) ∈ c.codes → ∀ a ∈ code.arguments, a.node ∈ A.args op ∧
    ∀ v, A.var a.node = some v → ∃ slot w, a.hold = .var slot w ∧ Scope.Resolves D (A.place a.node) v (some slot)

end Verif.Comp

namespace Verif.Prog
open Verif Verif.Exp

/-- No command of this name is used by the program, nor by a definition it uses. -/
def Without (D : Defs) (e : Expr) (f : String) : Prop := ∀ x, Written D e x → ∀ i o ts, .mk (some f) i o ts ∉ x.blks

end Verif.Prog
