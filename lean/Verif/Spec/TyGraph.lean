import Verif.Model.TyGraph
/-! What C33-C35 say about a type graph. -/
namespace Verif.Ty
variable {T : Type}

/-- The type is settled: it is known, or a node is obliged to have it. -/
def Settled (k : Kn T) (t : T) : Prop := k = .known t ∨ k = .obliged t

/-- What is known at the end of an edge from which types flow. -/
def State.srcKn (s : State T) (e : Edge) : Kn T := s.kn e.src e.flow.srcSide

/-- What is known at the end of an edge to which types flow. -/
def State.dstKn (s : State T) (e : Edge) : Kn T := s.kn e.dst e.flow.dstSide

/-- Both ends of the flow have the same settled type. -/
def Agree (s : State T) (e : Edge) : Prop := ∃ t, Settled (s.srcKn e) t ∧ Settled (s.dstKn e) t

/-- The edge still has to be processed. -/
def Pending (s : State T) (e : Edge) : Prop := ∃ i : Nat, s.edges[i]? = some e ∧ i ∉ s.done

/-- The type is one that what is known allows. -/
def Allows : Kn T → T → Prop
  | .any, _ => True
  | .known t, u => u = t
  | .obliged t, u => u = t
  | .inferred ts, u => u ∈ ts

/-- A type for every input and output that fits all that is known. -/
def Fits (σ : Nat → Side → T) (s : State T) : Prop := ∀ n sd, Allows (s.kn n sd) (σ n sd)

/-- ... and the ends of every flow that still has to be processed have the same type. -/
def Typing (σ : Nat → Side → T) (s : State T) : Prop :=
  Fits σ s ∧ ∀ e, Pending s e → σ e.src e.flow.srcSide = σ e.dst e.flow.dstSide

end Verif.Ty
