import Verif.Model.Tuple
/-! Which types have unambiguous names. -/
namespace Verif.Tuple
open Verif.Defs

/-- A name of a user's type that is clear in a tuple name: no `-`, no `_`, and not `U` alone. -/
def CleanName (n : String) : Prop :=
  n ≠ "" ∧ n ≠ "U" ∧ '-' ∉ n.toList ∧ '_' ∉ n.toList ∧ n ∉ ["Nil", "Bool", "Num", "Str", "Table", "TableRow"]

mutual
/-- All the names in the type are clear, and no tuple in it is empty. -/
def Clean : TTy → Prop
  | .base (.def_ n) => CleanName n
  | .base _ => True
  | .tuple ts => ts ≠ [] ∧ CleanAll ts
def CleanAll : List TTy → Prop
  | [] => True
  | t :: ts => Clean t ∧ CleanAll ts
end

mutual
/-- The types a tuple is made of, at any depth. -/
def leaves : TTy → List Ty
  | .base t => [t]
  | .tuple ts => leavesAll ts
def leavesAll : List TTy → List Ty
  | [] => []
  | t :: ts => leaves t ++ leavesAll ts
end

end Verif.Tuple
