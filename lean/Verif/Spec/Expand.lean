import Verif.Model.Expand
/-! What C38 says: the operations an expression uses, paths in the graph, and recursion among definitions. -/
namespace Verif.Exp

mutual
/-- The operations in an expression, also in the expressions that are arguments. -/
def opsE : Expr → List String
  | .mk _ bs => opsBs bs
def opsBs : List Blk → List String
  | [] => []
  | b :: bs => opsB b ++ opsBs bs
def opsB : Blk → List String
  | .mk op _ _ ts => op.toList ++ opsTs ts
def opsTs : List Term → List String
  | [] => []
  | t :: ts => opsT t ++ opsTs ts
def opsT : Term → List String
  | .expr e => opsE e
  | _ => []
end

/-- There is a path from a node to a node. -/
inductive Reach (g : Graph) (a : Nat) : Nat → Prop
  | refl : Reach g a a
  | step {b : Nat} (e : Edge) : Reach g a b → e ∈ g.edges → e.src = b → Reach g a e.dst

/-- A definition of a command: its name, its input type if it has one, and its body. -/
def IsDef (D : Defs) (f : String) (ty : Option String) (body : Expr) : Prop :=
  ∃ im ∈ D.impls f, im.ty = ty ∧ ∃ ps, im.defn = some (ps, body)

/-- A definition of the one command uses the other. -/
def Uses (D : Defs) (f h : String) : Prop := ∃ ty body, IsDef D f ty body ∧ h ∈ opsE body

/-- ... directly or through other definitions. -/
inductive UsesPlus (D : Defs) (f : String) : String → Prop
  | one {h : String} : Uses D f h → UsesPlus D f h
  | more {h k : String} : UsesPlus D f h → Uses D h k → UsesPlus D f k

/-- What is written below a node, in order. -/
def below (g : Graph) (n : Nat) : List Nat := (g.edges.filter fun e => e.src = n ∧ e.rel = .normal).map (·.dst)

mutual
/-- The graph has exactly this expression at this node: its blocks in order, their operations and their terms in order. -/
def ShowsE (g : Graph) (n : Nat) : Expr → Prop
  | .mk _ bs => g.nodes[n]? = some .expr ∧ ShowsBs g (below g n) bs
def ShowsBs (g : Graph) : List Nat → List Blk → Prop
  | ms, [] => ms = []
  | ms, b :: bs => ∃ m ms', ms = m :: ms' ∧ ShowsB g m b ∧ ShowsBs g ms' bs
def ShowsB (g : Graph) (m : Nat) : Blk → Prop
  | .mk op _ _ ts => (∃ f, op = some f ∧ g.nodes[m]? = some (.op f)) ∧ ShowsTs g (below g m) ts
def ShowsTs (g : Graph) : List Nat → List Term → Prop
  | ks, [] => ks = []
  | ks, t :: ts => ∃ k ks', ks = k :: ks' ∧ ShowsT g k t ∧ ShowsTs g ks' ts
def ShowsT (g : Graph) (k : Nat) : Term → Prop
  | .flag f => g.nodes[k]? = some (.flag f)
  | .plain x => g.nodes[k]? = some (.arg x)
  | .pound c => g.nodes[k]? = some (.pound c)
  | .expr e => ShowsE g k e
end

end Verif.Exp
