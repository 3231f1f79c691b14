import Verif.Model.Watch
/-! Model of `save` in the world of files, watcher and cache (`ogma/src/lang/impls/intrinsics/io.rs:289-331`). -/
namespace Verif.Watch
open Verif.Io

variable {C V : Type}

/-- The files after `c` was saved to the file `p`. -/
def saved (disk : Abs → Option C) (p : Abs) (c : C) : Abs → Option C := fun q => if q = p then some c else disk q

/-- `io.rs:302-330`: a file below the root is written, if nothing goes wrong (C105). `evs`: the events the system reports. The
cache is left as it is. -/
def saveTo (w : World C V) (r : Abs) (p : List String) (c : C) (evs : List Event) : Op C := .change (saved w.disk (r ++ p) c) evs

end Verif.Watch
