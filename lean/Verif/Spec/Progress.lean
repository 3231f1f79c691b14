import Verif.Model.Progress
import Verif.Spec.Batch
/-! What the progress reports of a batch should say. -/
namespace Verif.Batch
variable {E : Type}

def wasProcessed : Outcome E → Bool
  | .success => true
  | .failed _ => true
  | _ => false

/-- The status that tells of an outcome. -/
def tells : Outcome E → Status
  | .success => .success
  | .failed _ => .failed
  | .outstanding => .outstanding
  | .cancelled => .cancelled

/-- The statuses when just these items have been processed. -/
def snapshot (rs : List (Outcome E)) (is : List Nat) : List Status :=
  rs.mapIdx fun i o => if i ∈ is then tells o else .outstanding

/-- The messages fit the results: there is an order of the processed items such that the first message tells about the first of
them, the second about the first two, and so on; the others are outstanding. -/
def Told (rs : List (Outcome E)) (msgs : List (List Status)) : Prop :=
  ∃ is : List Nat, is.Nodup ∧ (∀ i, i ∈ is ↔ ∃ o, rs[i]? = some o ∧ wasProcessed o = true) ∧
    msgs = (List.range is.length).map fun k => snapshot rs (is.take (k + 1))

end Verif.Batch
