import Verif.Model.Infer
/-! What type inference should decide (C36). -/
namespace Verif.Infer
variable {Ty C E : Type}

def Compiles (trial : Ty → Trial C E) (t : Ty) : Prop := ∃ c, trial t = .compiled c

def HitsLimit (trial : Ty → Trial C E) (t : Ty) : Prop := ∃ e, trial t = .depth e

/-- `t` is the only candidate that compiles. -/
def OnlyOne (trial : Ty → Trial C E) (types : List Ty) (t : Ty) : Prop :=
  t ∈ types ∧ Compiles trial t ∧ ∀ u ∈ types, Compiles trial u → u = t

end Verif.Infer
