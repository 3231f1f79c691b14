import Verif.Model.Batch
/-! Model of the progress reports of a batch (`ogma/src/rt/bat.rs:289-350`), on top of the model of the batch. -/
namespace Verif.Batch
variable {Item D E : Type}

/-- `bat.rs:312-323` `OutcomeProgress`. -/
inductive Status
  | success | failed | outstanding | cancelled
deriving DecidableEq, Repr

/-- `bat.rs:325-334` `From<&Outcome>`. -/
def Status.of : Outcome E → Status
  | .success => .success
  | .failed _ => .failed
  | .outstanding => .outstanding
  | .cancelled => .cancelled

/-- The batch, the status of each item as the reporter has it, whether an item has been reported, and the messages sent, oldest
first. A message is the list of all statuses; its encoding as JSON and the other fields of an item, which do not change, are
left out. -/
structure PSt (D E : Type) where
  base : St D E
  status : Nat → Status
  reported : Nat → Bool
  msgs : List (List Status)

inductive PAct
  | base (a : Act)
  | report (i : Nat)
deriving DecidableEq, Repr

/-- `bat.rs:195-206`: all items are outstanding. -/
def pinit (d : D) : PSt D E := ⟨init d, fun _ => .outstanding, fun _ => false, []⟩

/-- The item has been processed, but not reported. -/
def unreported (s : PSt D E) (i : Nat) : Bool :=
  match s.base.phase i with
  | .ran _ => !s.reported i
  | _ => false

/-- `bat.rs:336-348` `report_progress`: the status is set and the message is sent while the lock is held. -/
def report (c : Cfg Item D E) (s : PSt D E) (i : Nat) (o : Outcome E) : PSt D E :=
  let status := fun j => if j = i then Status.of o else s.status j
  { s with status, reported := fun j => if j = i then true else s.reported j,
           msgs := s.msgs ++ [(List.range c.items.length).map status] }

/-- One step. An item is reported after it has been processed and before the switch for failures is set (`bat.rs:242-243`,
`:264-265`). -/
def pstep (c : Cfg Item D E) (s : PSt D E) : PAct → Option (PSt D E)
  | .base (.work i) => if unreported s i then none else (step c s.base (.work i)).map fun b => { s with base := b }
  | .base a => (step c s.base a).map fun b => { s with base := b }
  | .report i =>
    match s.base.phase i with
    | .ran o => if s.reported i then none else some (report c s i o)
    | _ => none

def prun (c : Cfg Item D E) (s : PSt D E) : List PAct → Option (PSt D E)
  | [] => some s
  | a :: as => (pstep c s a).bind fun s' => prun c s' as

end Verif.Batch
