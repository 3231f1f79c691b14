/-! Model of the batch processor (`ogma/src/rt/bat.rs`) as a transition system over every
interleaving of the expression workers and every moment of cancellation. -/
namespace Verif.Batch

/-- `bat.rs:82-89` `ItemType`. -/
inductive Kind
  | expr | impl | type
deriving DecidableEq, Repr

/-- `bat.rs:63-72` `Outcome`; `E` is the error type. -/
inductive Outcome (E : Type)
  | success
  | failed (e : E)
  | outstanding
  | cancelled
deriving DecidableEq, Repr

/-- `bat.rs:74-78` `From<Result<T>> for Outcome`; `none` is `Ok`, `some e` is `Err(e)`. -/
def Outcome.ofResult {E : Type} : Option E → Outcome E
  | none => .success
  | some e => .failed e

/-- `bat.rs:225` `matches!(o, Outcome::Failed(_))`. -/
def Outcome.isFailed {E : Type} : Outcome E → Bool
  | .failed _ => true
  | _ => false

/-- `bat.rs:24-33` `Batch` plus the behaviour of the language on the items, as parameters:
`procDef` is `process_definition` (`bat.rs:239-241`; it may change the definitions even when it
fails), `procExpr` is `process_expression` (`bat.rs:263`), assumed to depend only on the
definitions and the code. -/
structure Cfg (Item D E : Type) where
  items : List Item
  kind : Item → Kind
  parallelise : Bool
  failFast : Bool
  procDef : D → Item → D × Option E
  procExpr : D → Item → Option E

/-- Where the processing of one item stands. The reads of the shared switches are separate atomic
steps: `idle → chk` reads `prog.cancelled()`, `chk →` reads `failure.get()` (`bat.rs:229`),
`stopping →` re-reads `prog.cancelled()` (`bat.rs:253`), `running →` is the evaluation
(`bat.rs:263`) and `ran →` is `sw_if_fail` (`bat.rs:265`). -/
inductive Phase (E : Type)
  | idle
  | chk
  | stopping
  | running
  | ran (o : Outcome E)
  | done (o : Outcome E)
deriving DecidableEq, Repr

def Phase.isDone {E : Type} : Phase E → Bool
  | .done _ => true
  | _ => false

/-- The shared state. `cancelled` is the switch behind `prog.cancelled()`, `failure` is
`bat.rs:223`, `dstop` records that the definitions loop was left by `break` (`bat.rs:233-235`),
`fin` is the value of the last `prog.cancelled()` (`bat.rs:278`) once it has been read. -/
structure St (D E : Type) where
  cancelled : Bool
  failure : Bool
  defs : D
  dstop : Bool
  phase : Nat → Phase E
  fin : Option Bool

/-- What can happen next: the user cancels, the thread holding item `i` takes one step, or the
main thread finishes. -/
inductive Act
  | cancel
  | work (i : Nat)
  | finish
deriving DecidableEq, Repr

variable {Item D E : Type}

def upd (f : Nat → Phase E) (i : Nat) (p : Phase E) : Nat → Phase E :=
  fun j => if j = i then p else f j

/-- Is item `i` a definition (`bat.rs:214`)? -/
def Cfg.isDef (c : Cfg Item D E) (i : Nat) : Bool :=
  match c.items[i]? with
  | some it => c.kind it != .expr
  | none => false

/-- Is item `i` an expression (`bat.rs:214`)? -/
def Cfg.isExpr (c : Cfg Item D E) (i : Nat) : Bool :=
  match c.items[i]? with
  | some it => c.kind it == .expr
  | none => false

/-- `bat.rs:192-194`: everything starts `Outstanding`. -/
def init (d : D) : St D E :=
  { cancelled := false, failure := false, defs := d, dstop := false, phase := fun _ => .idle,
    fin := none }

/-- All items below `k` satisfying `p` are done. -/
def allDone (s : St D E) (p : Nat → Bool) (k : Nat) : Bool :=
  (List.range k).all fun j => !p j || (s.phase j).isDone

/-- The definitions loop has ended (`bat.rs:232-245`). -/
def defsOver (c : Cfg Item D E) (s : St D E) : Bool :=
  s.dstop || allDone s c.isDef c.items.length

/-- May item `i` be picked up? Definitions go one after the other (`bat.rs:232`); expressions only
after the definitions loop, all at once when parallel (`bat.rs:268-272`), otherwise in order. -/
def canStart (c : Cfg Item D E) (s : St D E) (i : Nat) : Bool :=
  if c.isDef i then !s.dstop && allDone s c.isDef i
  else defsOver c s && (c.parallelise || allDone s c.isExpr i)

/-- `stop()` returned true: a definition leaves the loop (`bat.rs:233-235`), an expression goes on
to choose its outcome (`bat.rs:250-253`). -/
def onStop (c : Cfg Item D E) (s : St D E) (i : Nat) : St D E :=
  if c.isDef i then { s with dstop := true, phase := upd s.phase i .idle }
  else { s with phase := upd s.phase i .stopping }

/-- One atomic step of the thread processing item `i` (`bat.rs:232-245` and `bat.rs:248-267`). -/
def work (c : Cfg Item D E) (s : St D E) (i : Nat) : Option (St D E) :=
  match c.items[i]? with
  | none => none
  | some it =>
    match s.phase i with
    | .idle =>
      if canStart c s i then
        if c.failFast then
          if s.cancelled then some (onStop c s i)
          else some { s with phase := upd s.phase i .chk }
        else some { s with phase := upd s.phase i .running }
      else none
    | .chk =>
      if s.failure then some (onStop c s i)
      else some { s with phase := upd s.phase i .running }
    | .stopping =>
      some { s with phase := upd s.phase i (.done (if s.cancelled then .cancelled else .outstanding)) }
    | .running =>
      if c.isDef i then
        let r := c.procDef s.defs it
        some { s with defs := r.1, phase := upd s.phase i (.ran (.ofResult r.2)) }
      else
        some { s with phase := upd s.phase i (.ran (.ofResult (c.procExpr s.defs it))) }
    | .ran o =>
      some { s with failure := s.failure || o.isFailed, phase := upd s.phase i (.done o) }
    | .done _ => none

/-- One step of the whole system. `finish` is `bat.rs:278`. -/
def step (c : Cfg Item D E) (s : St D E) : Act → Option (St D E)
  | .cancel => if s.cancelled then none else some { s with cancelled := true }
  | .work i => if s.fin.isSome then none else work c s i
  | .finish =>
    if s.fin.isNone && defsOver c s && allDone s c.isExpr c.items.length then
      some { s with fin := some s.cancelled }
    else none

/-- Running a schedule. `none` if the schedule asks for a step that is not possible. -/
def run (c : Cfg Item D E) (s : St D E) : List Act → Option (St D E)
  | [] => some s
  | a :: as => (step c s a).bind fun s' => run c s' as

/-- The outcome vector (`bat.rs:244`, `273-286`). -/
def resultAt (s : St D E) (i : Nat) : Outcome E :=
  let o := match s.phase i with
    | .done o => o
    | _ => .outstanding
  match o, s.fin with
  | .outstanding, some true => .cancelled
  | o, _ => o

/-- `bat.rs:286` the returned vector. -/
def results (c : Cfg Item D E) (s : St D E) : List (Outcome E) :=
  (List.range c.items.length).map (resultAt s)

end Verif.Batch
