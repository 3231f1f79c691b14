import Verif.Model.Nom
/-! Model of the type graph and its resolution (`ogma/src/eng/graphs/tygraph.rs`, `ogma/src/eng/comp/resolve_tg.rs`).
Types are any type with decidable equality; tags and messages are left out. -/
namespace Verif.Ty

/-- `tygraph.rs:18-24` `Knowledge`. A set of types is a list without repetitions; the code uses a hash set. -/
inductive Kn (T : Type)
  | any
  | known (t : T)
  | obliged (t : T)
  | inferred (ts : List T)
  deriving DecidableEq

/-- `:84-105` `Conflict`. -/
inductive Conflict (T : Type)
  | conflictingKnown (src dst : T)
  | unmatchedObligation (src dst : T)
  | unmatchedInferred (src dst : List T)
  | overpoweringInferred
  deriving DecidableEq

/-- Resolution ends early with a conflict, or hits `todo!` and panics. -/
inductive Stop (T : Type)
  | conflict (c : Conflict T)
  | crash
  deriving DecidableEq

variable {T : Type} [DecidableEq T]

/-- Equality of hash sets. -/
def setEq (a b : List T) : Bool := a.all (fun t => decide (t ∈ b)) && b.all (fun t => decide (t ∈ a))

/-- `:670-676` `has_ty`. -/
def Kn.hasTy : Kn T → Bool
  | .known _ => true
  | .obliged _ => true
  | .inferred ts => ts.length == 1
  | .any => false

/-- `:680-687` `ty`. -/
def Kn.ty : Kn T → Option T
  | .known t => some t
  | .obliged t => some t
  | .inferred [t] => some t
  | _ => none

/-- `:690-692` `is_multiple`. -/
def Kn.isMultiple : Kn T → Bool
  | .inferred ts => decide (1 < ts.length)
  | _ => false

/-- `:745-811` `can_flow`, case by case in the order of the code; the last case is `todo!`. -/
def canFlow : Kn T → Kn T → Except (Stop T) Unit
  | .known _, .any => .ok ()
  | .known t1, .known t2 => if t1 = t2 then .ok () else .error (.conflict (.conflictingKnown t1 t2))
  | .known t1, .obliged t2 => if t1 = t2 then .ok () else .error (.conflict (.unmatchedObligation t1 t2))
  | .known t1, .inferred ts => if t1 ∈ ts then .ok () else .error (.conflict (.unmatchedInferred [t1] ts))
  | .obliged _, .any => .ok ()
  | .obliged t1, .known t2 => if t1 = t2 then .ok () else .error .crash
  | .obliged t1, .obliged t2 => if t1 = t2 then .ok () else .error (.conflict (.unmatchedObligation t1 t2))
  | .obliged t1, .inferred ts => if t1 ∈ ts then .ok () else .error (.conflict (.unmatchedInferred [t1] ts))
  | .inferred _, .any => .ok ()
  | .inferred a, .inferred b =>
    if setEq a b then .ok () else if a.all (fun t => decide (t ∉ b)) then .error (.conflict (.unmatchedInferred a b)) else .error .crash
  | .inferred ts, .known t => if t ∈ ts then .error (.conflict .overpoweringInferred) else .error .crash
  | .inferred ts, .obliged t => if t ∈ ts then .error (.conflict .overpoweringInferred) else .error .crash
  | .any, .any => .ok ()
  | .any, .inferred _ => .ok ()
  | .any, .known _ => .error .crash
  | .any, .obliged _ => .error .crash

/-- The input or the output of a node. -/
inductive Side
  | inp
  | out
  deriving DecidableEq

/-- `:29-39` `Flow`. -/
inductive Flow
  | oi
  | ii
  | oo
  | io
  deriving DecidableEq

structure Edge where
  src : Nat
  dst : Nat
  flow : Flow
  deriving DecidableEq

/-- From which side of the source. -/
def Flow.srcSide : Flow → Side
  | .oi => .out
  | .oo => .out
  | .ii => .inp
  | .io => .inp

/-- To which side of the destination. -/
def Flow.dstSide : Flow → Side
  | .oi => .inp
  | .ii => .inp
  | .oo => .out
  | .io => .out

/-- `:114-119` `TypeGraph`, and the indices of the edges that are completed (`flowed_edges`, `comp/mod.rs:20`). Edges are
never removed once the graph is built, so the index of an edge is its position. `viaAny` is not in the code and nothing
reads it: the completed edges over which `Any` flowed. -/
structure State (T : Type) where
  kn : Nat → Side → Kn T
  edges : List Edge
  done : List Nat
  viaAny : List Nat

def State.set (s : State T) (n : Nat) (sd : Side) (k : Kn T) : State T :=
  { s with kn := fun m sd' => if m = n ∧ sd' = sd then k else s.kn m sd' }

/-- `:477-484`: the smaller set, if both ends are inferred and the intersection is not the first. -/
def int : Kn T → Kn T → Option (List T)
  | .inferred a, .inferred b => if setEq (a.filter (· ∈ b)) a then none else some (a.filter (· ∈ b))
  | _, _ => none

/-- `:493-528`, the body of the loop of `intersect_inferred_sets`. -/
def intersectEdge (s : State T) (e : Edge) : State T :=
  match int (s.kn e.src e.flow.srcSide) (s.kn e.dst e.flow.dstSide) with
  | some i => (s.set e.src e.flow.srcSide (.inferred i)).set e.dst e.flow.dstSide (.inferred i)
  | none => s

/-- The edges that are not completed, in order. -/
def todo (s : State T) : List (Nat × Edge) :=
  (s.edges.zipIdx.filter fun x => x.2 ∉ s.done).map fun x => (x.2, x.1)

/-- `:473-531` `intersect_inferred_sets`. It never returns an error. -/
def intersect (s : State T) : State T := (todo s).foldl (fun s e => intersectEdge s e.2) s

/-- `:540-543`. -/
def upgrade1 : Kn T → Kn T
  | .inferred [t] => .obliged t
  | k => k

/-- `:534-546` `upgrade_singleton_inferred_sets`. -/
def upgrade (s : State T) : State T := { s with kn := fun n sd => upgrade1 (s.kn n sd) }

/-- `:428` `Obliged(_) | Known(_)`. -/
def Kn.firm : Kn T → Bool
  | .known _ => true
  | .obliged _ => true
  | _ => false

/-- `:398-447`, what flows over an edge: the knowledge, where to, and whether it is `Any`. -/
def flowEdge (s : State T) (e : Edge) : Except (Stop T) (Option (Nat × Side × Kn T × Bool)) :=
  let from_ := s.kn e.src e.flow.srcSide
  let to_ := s.kn e.dst e.flow.dstSide
  if from_.hasTy then
    match canFlow from_ to_ with
    | .ok () => .ok (some (e.dst, e.flow.dstSide, from_, false))
    | .error x => .error x
  else if e.flow = .ii ∧ to_.firm then
    match canFlow to_ from_ with
    | .ok () => .ok (some (e.src, .inp, to_, false))
    | .error x => .error x
  else if e.flow = .ii ∧ from_ = .any then
    match canFlow from_ to_ with
    | .ok () => .ok (some (e.dst, .inp, from_, true))
    | .error x => .error x
  else .ok none

/-- `:394-466`, the loop of `flow_types`, with whether the graph changed. -/
def flowLoop (s : State T) (chgd : Bool) : List (Nat × Edge) → Except (Stop T) (State T × Bool)
  | [] => .ok (s, chgd)
  | (i, e) :: es =>
    match flowEdge s e with
    | .error x => .error x
    | .ok none => flowLoop s chgd es
    | .ok (some (n, sd, k, a)) =>
      let s' := s.set n sd k
      flowLoop { s' with done := i :: s.done, viaAny := if a then i :: s.viaAny else s.viaAny } true es

/-- `:382-467` `flow_types`. -/
def flowTypes (s : State T) : Except (Stop T) (State T × Bool) := flowLoop s false (todo s)

/-- `resolve_tg.rs:6-21` `resolve_tg`: `none` if it is not finished after so many rounds. -/
def resolve : Nat → State T → Option (Except (Stop T) (State T))
  | 0, _ => none
  | f + 1, s =>
    match flowTypes (upgrade (intersect s)) with
    | .error x => some (.error x)
    | .ok (s, true) => resolve f s
    | .ok (s, false) => some (.ok s)

/-- `tygraph.rs:42-57` `Chg`. -/
inductive Chg (T : Type)
  | known (n : Nat) (sd : Side) (t : T)
  | oblige (n : Nat) (sd : Side) (t : T)
  | remove (n : Nat) (sd : Side) (t : T)
  | anyInput (n : Nat)
  | addEdge (e : Edge)
  | anonTy (t : T)

/-- `:553-560` `set`, inside `apply_chg`. -/
def setKn (s : State T) (n : Nat) (sd : Side) (k : Kn T) : Except (Stop T) (State T) :=
  if s.kn n sd = k then .ok s
  else
    match canFlow k (s.kn n sd) with
    | .ok () => .ok (s.set n sd k)
    | .error x => .error x

/-- `:730-736` `rm_inferred`. -/
def rmTy (t : T) : Kn T → Kn T
  | .inferred ts => .inferred (ts.filter (· ≠ t))
  | k => k

/-- `:606-613`: the new type goes into every inferred set. -/
def addTy (t : T) : Kn T → Kn T
  | .inferred ts => .inferred (if t ∈ ts then ts else ts ++ [t])
  | k => k

/-- `:550-624` `apply_chg`. Nodes exist. -/
def applyChg (s : State T) : Chg T → Except (Stop T) (State T)
  | .known n sd t => setKn s n sd (.known t)
  | .oblige n sd t => setKn s n sd (.obliged t)
  | .remove n sd t => .ok (s.set n sd (rmTy t (s.kn n sd)))
  | .anyInput n => if (s.kn n .inp).ty.isNone then setKn s n .inp .any else .ok s
  | .addEdge e => .ok (if e ∈ s.edges then s else { s with edges := s.edges ++ [e] })
  | .anonTy t => .ok { s with kn := fun n sd => addTy t (s.kn n sd) }

/-- `:350-372` `reduce_inferred_sets_given_def_constraints`, at one node. -/
def reduceAt (s : State T) (n : Nat) (keys : List T) : State T :=
  if (s.kn n .inp).isMultiple then s.set n .inp (.inferred keys) else s

/-- What happens to a type graph during compilation (`comp/mod.rs:125-187`). -/
inductive Op (T : Type)
  | resolve
  | chg (c : Chg T)
  | reduce (n : Nat) (keys : List T)

/-- Rounds are bounded by `edges + 1`; `resolve_ends` shows that this is enough. -/
def step (s : State T) : Op T → Except (Stop T) (State T)
  | .resolve => (resolve (s.edges.length + 1) s).getD (.error .crash)
  | .chg c => applyChg s c
  | .reduce n keys => .ok (reduceAt s n keys)

def run (s : State T) : List (Op T) → Except (Stop T) (State T)
  | [] => .ok s
  | o :: os =>
    match step s o with
    | .ok s => run s os
    | .error x => .error x

end Verif.Ty
