/-! Model of the threads of the shell: `ogma-shell/interface/mod.rs:243-294` `events_cycle`, `:669-739` `eval`, `ogma-shell/lib.rs:132-191` `on_enter`,
`:259-329` `process_seq`, `process_expr`, `:362-397` `process_batch`. The thread of the interface waits for the thread that takes the line (the
compute thread), which waits for the thread that evaluates (a job). All use one read-write lock around the definitions. What a line does is a
parameter. -/
namespace Verif.Turns

/-- `lib.rs:148-186`: what kind of line it is. -/
inductive Kind
  | other
  | define
  | batch
  | expr
deriving DecidableEq, Repr

/-- What lines do. -/
structure Prog (D L O : Type) where
  kind : L → Kind
  /-- the output of a line that is neither a definition nor evaluated; the working directory is not modelled -/
  answer : L → D → O
  /-- definitions: the new ones and the output, or a panic -/
  define : L → D → Option (D × O)
  /-- `def --list | …`: something is evaluated afterwards (`lib.rs:178-180`) -/
  follows : L → D → Bool
  /-- evaluation of the line with these definitions, with the output as text, or a panic -/
  eval : L → D → Option O
  /-- whether evaluation ends at all -/
  ends : L → D → Bool
  /-- whether the output is help with examples, for which the definitions are read again (`lib.rs:326`, `:428-434`, `:625`) -/
  again : L → D → Bool

/-- A thread that evaluates. -/
inductive Job (D L O : Type)
  | start (l : L)
  | read (l : L)
  | wait (l : L) (o : O)
  | own (l : L) (d : D)
  | done (o : O)
  | dead
deriving DecidableEq, Repr

/-- The compute thread. -/
inductive Comp (L O : Type)
  | none
  | begun (l : L)
  | claimed (l : L)
  | poll (i : Nat)
  | ended (r : Option O)
  | dead
deriving DecidableEq, Repr

/-- The thread of the interface: it takes keys; or it waits for a line, and has to draw or not. -/
inductive Ui (L : Type)
  | idle
  | busy (l : L) (drawing : Bool)
deriving DecidableEq, Repr

structure State (D L O : Type) where
  defs : D
  ui : Ui L
  comp : Comp L O
  cancel : Bool
  jobs : List (Job D L O)
  log : List (L × Option O)
deriving DecidableEq, Repr

def State.init {D L O : Type} (d : D) : State D L O := ⟨d, .idle, .none, false, [], []⟩

variable {D L O : Type}

def Job.reads : Job D L O → Bool
  | .read _ => true
  | .wait _ _ => true
  | _ => false

def Comp.writes : Comp L O → Bool
  | .claimed _ => true
  | _ => false

/-- A lock for reading is given if nobody has or waits for one for writing (crate `parking_lot`). The state of the lock can be seen from what the
threads do. -/
def State.canRead (s : State D L O) : Bool := !s.comp.writes

/-- A lock for writing is given when nobody reads. -/
def State.canWrite (s : State D L O) : Bool := !s.jobs.any Job.reads

/-- Who does something. -/
inductive Act (L : Type)
  | enter (l : L)
  | tick (abort : Bool)
  | draw
  | take
  | compute
  | job (i : Nat)
deriving DecidableEq, Repr

/-- `mod.rs:675-698`, `:703`: the line is handed over, and the message is drawn. -/
def entered (s : State D L O) (l : L) : State D L O := { s with ui := .busy l true, comp := .begun l, cancel := false }

/-- `lib.rs:270-283`: a thread is started; the compute thread looks whether it is done. -/
def spawn (s : State D L O) (j : Job D L O) : State D L O := { s with jobs := s.jobs ++ [j], comp := .poll s.jobs.length }

/-- What can happen next. -/
inductive Step (P : Prog D L O) : Act L → State D L O → State D L O → Prop
  /-- Enter is pressed -/
  | enter {s l} : s.ui = .idle → Step P (.enter l) s (entered s l)
  /-- `mod.rs:105-111`, `:704`, `:720`: drawing reads the definitions for the colours (`lib.rs:79`, `:486`) -/
  | draw {s l} : s.ui = .busy l true → s.canRead = true → Step P .draw s { s with ui := .busy l false }
  /-- `mod.rs:712-719`: a second has passed and nothing was sent; Ctrl+x may have been pressed -/
  | tick {s l x} : s.ui = .busy l false → (∀ r, s.comp ≠ .ended r) → Step P (.tick x) s { s with ui := .busy l true, cancel := s.cancel || x }
  /-- `mod.rs:711`, `:725-738`: the result is taken -/
  | take {s l r} : s.ui = .busy l false → s.comp = .ended r → Step P .take s { s with ui := .idle, comp := .none, log := s.log ++ [(l, r)] }
  /-- `lib.rs:148-156` and lines that are refused at once -/
  | other {s l} : s.comp = .begun l → P.kind l = .other → Step P .compute s { s with comp := .ended (some (P.answer l s.defs)) }
  /-- `lib.rs:174`, `:237`: the lock for writing is asked for -/
  | claim {s l} : s.comp = .begun l → P.kind l = .define → Step P .compute s { s with comp := .claimed l }
  /-- `lib.rs:175`, `:181`: it is given, and the definitions are changed -/
  | write {s l d o} : s.comp = .claimed l → s.canWrite = true → P.define l s.defs = some (d, o) → P.follows l s.defs = false →
      Step P .compute s { s with defs := d, comp := .ended (some o) }
  /-- `lib.rs:178-180` -/
  | writeOn {s l d o} : s.comp = .claimed l → s.canWrite = true → P.define l s.defs = some (d, o) → P.follows l s.defs = true →
      Step P .compute s (spawn { s with defs := d } (.start l))
  /-- a panic; the lock is let go, and nothing is sent (`mod.rs:694-695`) -/
  | crash {s l} : s.comp = .claimed l → s.canWrite = true → P.define l s.defs = none → Step P .compute s { s with comp := .dead }
  /-- `lib.rs:185` -/
  | expr {s l} : s.comp = .begun l → P.kind l = .expr → Step P .compute s (spawn s (.start l))
  /-- `lib.rs:364`: a batch has a copy of the definitions -/
  | batch {s l} : s.comp = .begun l → P.kind l = .batch → Step P .compute s (spawn s (.own l s.defs))
  /-- `lib.rs:283`, `:290-294` -/
  | join {s i o} : s.comp = .poll i → s.jobs[i]? = some (.done o) → Step P .compute s { s with comp := .ended (some o) }
  /-- `lib.rs:284-286` -/
  | quit {s i} : s.comp = .poll i → s.cancel = true → Step P .compute s { s with comp := .ended none }
  /-- `lib.rs:308` -/
  | read {s i l} : s.jobs[i]? = some (.start l) → s.canRead = true → Step P (.job i) s { s with jobs := s.jobs.set i (.read l) }
  /-- `lib.rs:313-328`; the lock is let go at the end of the closure, then the switch is flipped (`:278`) -/
  | finish {s i l o} : s.jobs[i]? = some (.read l) → P.ends l s.defs = true → P.eval l s.defs = some o → P.again l s.defs = false →
      Step P (.job i) s { s with jobs := s.jobs.set i (.done o) }
  /-- the output is help: the lock is asked for again while it is held -/
  | twice {s i l o} : s.jobs[i]? = some (.read l) → P.ends l s.defs = true → P.eval l s.defs = some o → P.again l s.defs = true →
      Step P (.job i) s { s with jobs := s.jobs.set i (.wait l o) }
  | reread {s i l o} : s.jobs[i]? = some (.wait l o) → s.canRead = true → Step P (.job i) s { s with jobs := s.jobs.set i (.done o) }
  /-- a panic: the switch is never flipped -/
  | fail {s i l} : s.jobs[i]? = some (.read l) → P.ends l s.defs = true → P.eval l s.defs = none → Step P (.job i) s { s with jobs := s.jobs.set i .dead }
  /-- `lib.rs:365-396` -/
  | own {s i l d o} : s.jobs[i]? = some (.own l d) → P.ends l d = true → P.eval l d = some o → Step P (.job i) s { s with jobs := s.jobs.set i (.done o) }
  | ownFail {s i l d} : s.jobs[i]? = some (.own l d) → P.ends l d = true → P.eval l d = none → Step P (.job i) s { s with jobs := s.jobs.set i .dead }

/-- All that can happen, in any order. -/
inductive Runs (P : Prog D L O) : State D L O → List (Act L) → State D L O → Prop
  | nil {s} : Runs P s [] s
  | snoc {s t u as a} : Runs P s as t → Step P a t u → Runs P s (as ++ [a]) u

end Verif.Turns
