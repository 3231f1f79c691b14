import Verif.Spec.Prog
import Verif.Model.Notes
import Verif.Model.Read
/-! What C78 says about annotated types. -/
namespace Verif.Prog
open Verif Verif.Exp

mutual
/-- For the expression at this node: each type that is annotated in it is as `P` says of its node and side. -/
def AnnotsE (P : Nat → Ty.Side → String → Prop) (g : Graph) (n : Nat) : Expr → Prop
  | .mk out bs => (∀ t, out = some t → P n .out t) ∧ AnnotsBs P g (below g n) bs
def AnnotsBs (P : Nat → Ty.Side → String → Prop) (g : Graph) : List Nat → List Exp.Blk → Prop
  | ms, [] => ms = []
  | ms, b :: bs => ∃ m ms', ms = m :: ms' ∧ AnnotsB P g m b ∧ AnnotsBs P g ms' bs
def AnnotsB (P : Nat → Ty.Side → String → Prop) (g : Graph) (m : Nat) : Exp.Blk → Prop
  | .mk _ i o ts => (∀ t, i = some t → P m .inp t) ∧ (∀ t, o = some t → P m .out t) ∧ AnnotsTs P g (below g m) ts
def AnnotsTs (P : Nat → Ty.Side → String → Prop) (g : Graph) : List Nat → List Term → Prop
  | ks, [] => ks = []
  | ks, t :: ts => ∃ k ks', ks = k :: ks' ∧ AnnotsT P g k t ∧ AnnotsTs P g ks' ts
def AnnotsT (P : Nat → Ty.Side → String → Prop) (g : Graph) (k : Nat) : Term → Prop
  | .expr e => AnnotsE P g k e
  | _ => True
end

/-- What is compiled has this type: a block takes it or puts it out, an expression puts it out. -/
def Gets {T : Type} (Y : Types T) (g : Graph) (c : Comp.S T) (n : Nat) : Ty.Side → String → Prop
  | .inp, t => ∀ u v, (n, u, v) ∈ c.steps → u = Y.get t
  | .out, t => (∀ u v, (n, u, v) ∈ c.steps → v = Y.get t) ∧ (n ∈ c.exprs → ∃ i, Comp.Pipe c.steps (below g n) i (Y.get t))

mutual
/-- The graph has exactly this expression, as it was parsed, at this node; each type that is annotated in it is as `P` says of its
node and side. -/
def TextE (P : Nat → Ty.Side → String → Prop) (g : Graph) (n : Nat) : Parse.Expr → Prop
  | .mk bs out => g.nodes[n]? = some .expr ∧ (∀ t, out = some t → P n .out (str t)) ∧ TextBs P g (below g n) bs
def TextBs (P : Nat → Ty.Side → String → Prop) (g : Graph) : List Nat → List Parse.Blk → Prop
  | ms, [] => ms = []
  | ms, b :: bs => ∃ m ms', ms = m :: ms' ∧ TextB P g m b ∧ TextBs P g ms' bs
def TextB (P : Nat → Ty.Side → String → Prop) (g : Graph) (m : Nat) : Parse.Blk → Prop
  | .mk i op o ts => (∃ f, (op = .single f ∨ ∃ r, op = .path r [f]) ∧ g.nodes[m]? = some (.op (str f))) ∧
    (∀ t, i = some t → P m .inp (str t)) ∧ (∀ t, o = some t → P m .out (str t)) ∧ TextTs P g (below g m) ts
def TextTs (P : Nat → Ty.Side → String → Prop) (g : Graph) : List Nat → List Parse.Term → Prop
  | ks, [] => ks = []
  | ks, t :: ts => ∃ k ks', ks = k :: ks' ∧ TextT P g k t ∧ TextTs P g ks' ts
def TextT (P : Nat → Ty.Side → String → Prop) (g : Graph) (k : Nat) : Parse.Term → Prop
  | .flag f => g.nodes[k]? = some (.flag (str f))
  | .arg a => TextA P g k a
/-- A field access is an expression with one block: the operation `.`, what is accessed, and the name of the field. -/
def TextA (P : Nat → Ty.Side → String → Prop) (g : Graph) (k : Nat) : Parse.Arg → Prop
  | .ident x => g.nodes[k]? = some (.arg (.ident (str x)))
  | .num x => g.nodes[k]? = some (.arg (.num (str x)))
  | .pound c => g.nodes[k]? = some (.pound c)
  | .var x => g.nodes[k]? = some (.arg (.var (str x)))
  | .expr e => TextE P g k e
  | .dot lhs rhs out => g.nodes[k]? = some .expr ∧ ∃ m a b, below g k = [m] ∧ g.nodes[m]? = some (.op ".") ∧
    (∀ t, out = some t → P m .out (str t)) ∧ below g m = [a, b] ∧ TextA P g a lhs ∧ g.nodes[b]? = some (.arg (.ident (str rhs)))
end

end Verif.Prog
