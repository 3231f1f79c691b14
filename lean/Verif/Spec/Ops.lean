import Verif.Model.Ops
/-! What operators and comparison should do. -/
namespace Verif.Ops
variable {N E V : Type}

/-- The comparable types. Tuples have at least one element. -/
inductive CTy
  | nil | bool | num | str | ord
  | tup (t : CTy) (ts : List CTy)

mutual
/-- A value has a type. -/
def HasTy : CV N → CTy → Prop
  | .nil, .nil => True
  | .bool _, .bool => True
  | .num _, .num => True
  | .str _, .str => True
  | .ord _, .ord => True
  | .tup (v :: vs), .tup t ts => HasTy v t ∧ HasTys vs ts
  | _, _ => False
def HasTys : List (CV N) → List CTy → Prop
  | [], [] => True
  | v :: vs, t :: ts => HasTy v t ∧ HasTys vs ts
  | _, _ => False
end

/-- The first outcome that is not "equal". -/
def firstDiff : List Ordering → Ordering
  | [] => .eq
  | .eq :: cs => firstDiff cs
  | c :: _ => c

end Verif.Ops
