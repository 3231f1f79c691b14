/-! Model of trying out candidate types (`ogma/src/eng/comp/infer.rs`). -/
namespace Verif.Infer
variable {Ty C E N : Type}

/-- What becomes of one candidate type, tried on a copy of the compiler (`infer.rs:274-294`): the type graph does not
accept it, or the expression compiles, giving a compiler, or compiling stops at the inference depth limit, or it fails
otherwise. What compiling does is a parameter: each trial starts from the same compiler, so it depends on the type only. -/
inductive Trial (C E : Type) : Type
  | rejected
  | compiled (c : C)
  | depth (e : E)
  | failed

/-- `infer.rs:190-195` `Error`. Types sets are lists without duplicates. -/
inductive Err (Ty E : Type) : Type
  | noTypes
  | ambiguous (set : List Ty)
  | depthLimit (e : E)
  | reduce (rm : List Ty)

/-- `infer.rs:269-318`: the loop over the candidates, in the order the set yields them. -/
def testLoop [DecidableEq Ty] (trial : Ty → Trial C E) : List Ty → List Ty → List Ty → Option C → Except (Err Ty E) C
  | [], _, rm, inferred => match inferred with
    | some c => .ok c
    | none => if rm = [] then .error .noTypes else .error (.reduce rm)
  | t :: ts, valid, rm, inferred => match trial t with
    | .rejected => testLoop trial ts valid (rm ++ [t]) inferred
    | .compiled c => match inferred with
      | some _ => .error (.ambiguous valid)
      | none => testLoop trial ts valid rm (some c)
    | .depth e => .error (.depthLimit e)
    | .failed => testLoop trial ts (valid.filter (· ≠ t)) rm inferred

/-- `infer.rs:256-318` `test_compile_types`. -/
def testTypes [DecidableEq Ty] (trial : Ty → Trial C E) (types : List Ty) : Except (Err Ty E) C :=
  testLoop trial types types [] none

/-- `infer.rs:185-189` and the first lines of the two callers: the depth of nested inference is bounded. -/
def depthOk (depth : Nat) : Bool := decide (depth < 5)

/-- How the loops over the nodes end. -/
inductive Outcome (Ty C E N : Type) : Type
  /-- go on with this compiler -/
  | next (c : C)
  /-- remove these candidate types from these nodes -/
  | remove (chgs : List (N × Ty))
  | fail (n : N) (e : Err Ty E)
  | nothing

/-- `infer.rs:84-118` (and the same for outputs, `:141-182`): try the nodes in turn. -/
def nodesLoop (test : N → Except (Err Ty E) C) : List N → List (N × Ty) → Option (N × Err Ty E) → Outcome Ty C E N
  | [], chgs, err =>
    if chgs ≠ [] then .remove chgs
    else match err with
      | some (n, e) => .fail n e
      | none => .nothing
  | n :: ns, chgs, err => match test n with
    | .ok c => .next c
    | .error (.reduce ts) => nodesLoop test ns (chgs ++ ts.map fun t => (n, t)) err
    | .error (.depthLimit e) => .fail n (.depthLimit e)
    | .error e => nodesLoop test ns chgs (some (n, e))

/-- `infer.rs:57-119` `infer_inputs_tgt_shallow_expr` and `:121-182` `infer_outputs`, on the nodes chosen for it. -/
def inferNodes (depth : Nat) (limit : N → E) (root : N) (test : N → Except (Err Ty E) C) (nodes : List N) : Outcome Ty C E N :=
  if depthOk depth then nodesLoop test nodes [] none else .fail root (.depthLimit (limit root))

/-- What compiling one block with a candidate input type came to (`infer.rs:212-227`). -/
structure Attempt where
  compiled : Bool
  infersOutput : Bool
  changesLocals : Bool

/-- `infer.rs:197-239` `trial_inferred_types`: the candidates to remove from the input of a block. -/
def blockFailures (attempt : Ty → Attempt) (set : List Ty) : List Ty :=
  set.filter fun t => !(attempt t).compiled && !(attempt t).infersOutput && !(attempt t).changesLocals

end Verif.Infer
