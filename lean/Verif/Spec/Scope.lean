import Verif.Model.Locals
/-! Lexical scope, stated on syntax trees and lists of definitions (C31). -/
namespace Verif.Scope
open Verif.Loc (Mark Node par)

/-- `m` is the node `n`, encloses it, or is a block before a block that is or encloses it; the way from `m` to `n` does not
enter the body of a definition. -/
def Sees (n m : Node) : Prop :=
  (∃ rest, n = rest ++ m ∧ ∀ k, Mark.body k ∉ rest) ∨
  ∃ rest p i j, n = rest ++ Mark.blk j :: p ∧ m = Mark.blk i :: p ∧ i < j ∧ ∀ k, Mark.body k ∉ rest

/-- A definition: at which node, of which name. -/
abbrev DefAt := Node × String

/-- Position `i` is the latest definition of the name at the node. -/
def Latest (D : List DefAt) (n : Node) (k : String) (i : Nat) : Prop :=
  D[i]? = some (n, k) ∧ ∀ j, i < j → D[j]? ≠ some (n, k)

/-- Looking a name up: the latest definition at the node itself, or else from the node it gets its variables from. -/
inductive Resolves (D : List DefAt) : Node → String → Option Nat → Prop
  | here {n k i} : Latest D n k i → Resolves D n k (some i)
  | up {n k m r} : (∀ i : Nat, D[i]? ≠ some (n, k)) → par n = some m → Resolves D m k r → Resolves D n k r
  | top {n k} : (∀ i : Nat, D[i]? ≠ some (n, k)) → par n = none → Resolves D n k none

end Verif.Scope
