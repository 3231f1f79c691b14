import Verif.Model.Io
/-! Model of the file watcher (`ogma/src/rt/fscache.rs:97-159`) and of `open` on top of the file cache
(`ogma/src/lang/impls/intrinsics/io.rs:215-252`): whether a file that has changed is read again. -/
namespace Verif.Watch
open Verif.Io

/-- The absolute path of a file, without links. -/
abbrev Abs := List String

/-- `notify::DebouncedEvent`. -/
inductive Event
  | write (p : Abs)
  | create (p : Abs)
  | remove (p : Abs)
  | rename (a b : Abs)
  /-- notices ahead of an event, changes of attributes, errors -/
  | other
  deriving DecidableEq

/-- `fscache.rs:141-150`: the paths of an event. -/
def Event.paths : Event → List Abs
  | .write p => [p]
  | .create p => [p]
  | .remove p => [p]
  | .rename a b => [a, b]
  | .other => []

variable {C V : Type}

/-- The files, and the process. `C` is what a file holds, `V` what `open` makes of it. -/
structure World (C V : Type) where
  disk : Abs → Option C
  /-- the root the watcher was started with, `INIT` -/
  root : Option Abs
  /-- `watcher.watch` has been called -/
  watching : Bool
  /-- the thread has not panicked -/
  alive : Bool
  /-- events not handled yet -/
  queue : List Event
  cache : Cache V
  now : Nat

/-- How paths and files are read: `path_to_str` (`fscache.rs:114-116`) is `lower (text p)`, for the part of a path below the
root; `parse` reads a file as a table or as a text (`io.rs:226-233, 244`). -/
structure Ways (C V : Type) where
  text : List String → String
  lower : String → String
  parse : Ty → C → V

/-- `fscache.rs:97-112` `ensure_init`: only the first root counts. -/
def ensureInit (w : World C V) (r : Abs) : World C V := { w with root := some (w.root.getD r) }

/-- `process.rs:23` and `io.rs:215-252`: `open`, of a path below the root. A file that is not there is not looked up
(`scrub_filepath`). The process runs in the root directory (C43: otherwise another file is read). Reading a file and
storing what was read is one step here; C41 has them as two. -/
def openFile (ways : Ways C V) (w : World C V) (r : Abs) (p : List String) (ty : Ty) : World C V × Option V :=
  let w := ensureInit w r
  match w.disk (r ++ p) with
  | none => (w, none)
  | some c =>
    let g := cget ways.lower w.cache w.now (ways.text p) ty
    match g.2 with
    | some v => ({ w with cache := g.1 }, some v)
    | none => ({ w with cache := cinsert ways.lower g.1 w.now (ways.text p) ty (ways.parse ty c) }, some (ways.parse ty c))

/-- `fscache.rs:137-158`, the loop of `watch_fs`: a path that is not below the root makes the thread panic. -/
def turn (ways : Ways C V) (w : World C V) : World C V :=
  match w.root with
  | none => w
  | some r =>
    if w.alive && w.watching then
      let ps := w.queue.flatMap Event.paths
      if ps.all fun p => (strip r p).isSome then
        { w with queue := [], cache := cremove ways.lower w.cache ((ps.filterMap (strip r)).map ways.text) }
      else { w with queue := [], alive := false }
    else w

/-- What happens. -/
inductive Op (C : Type)
  | openFile (r : Abs) (p : List String) (ty : Ty)
  /-- the watcher is set up -/
  | watch
  | turn
  /-- files change; the system reports some events -/
  | change (disk : Abs → Option C) (evs : List Event)
  | expire (age : Nat)
  | tick

/-- One step. Events are only seen once the watcher is set up. -/
def step (ways : Ways C V) (w : World C V) : Op C → World C V
  | .openFile r p ty => (openFile ways w r p ty).1
  | .watch => if w.root.isSome then { w with watching := true } else w
  | .turn => turn ways w
  | .change d evs => { w with disk := d, queue := if w.watching then w.queue ++ evs else w.queue }
  | .expire age => { w with cache := cexpire w.cache w.now age }
  | .tick => { w with now := w.now + 1 }

def run (ways : Ways C V) (w : World C V) (ops : List (Op C)) : World C V := ops.foldl (step ways) w

/-- The process at its start. -/
def start (disk : Abs → Option C) : World C V := ⟨disk, none, false, true, [], [], 0⟩

end Verif.Watch
