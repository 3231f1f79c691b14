/-! Model of several items of a batch that save files at the same time (`ogma/src/rt/bat.rs:268-272`, which
is the default; `ogma/src/lang/impls/intrinsics/io.rs:326-390`). Each has its own file handle, with its own offset, and the
calls of the operating system come in any order. -/
namespace Verif.ParSave

variable {B : Type}

/-- A call of the operating system: make a file or empty it (`File::create`, `io.rs:326`), or write at an offset. -/
inductive Op (B : Type)
  | create (p : Nat)
  | write (p off : Nat) (d : List B)
deriving DecidableEq, Repr

/-- The file it is about. -/
def Op.path : Op B → Nat
  | .create p => p
  | .write p _ _ => p

/-- Writing at an offset: what is there is replaced, a gap is filled up. -/
def put (zero : B) (c : List B) (off : Nat) (d : List B) : List B :=
  let c := c ++ List.replicate (off - c.length) zero
  c.take off ++ d ++ c.drop (off + d.length)

/-- The files there are, and what they hold. -/
abbrev Disk (B : Type) := Nat → Option (List B)

/-- What a call does. -/
def call (zero : B) (disk : Disk B) : Op B → Disk B
  | .create p => fun q => if q = p then some [] else disk q
  | .write p off d => fun q => if q = p then (disk q).map (fun c => put zero c off d) else disk q

/-- `write_file` (`io.rs:344-391`): the pieces that are written, one after the other, from an offset on. -/
def writes (p : Nat) : Nat → List (List B) → List (Op B)
  | _, [] => []
  | off, d :: ds => .write p off d :: writes p (off + d.length) ds

/-- A use of `save`: the file, and the pieces in which its contents are written. -/
structure Save (B : Type) where
  path : Nat
  pieces : List (List B)

/-- `io.rs:326-328`. -/
def Save.ops (s : Save B) : List (Op B) := .create s.path :: writes s.path 0 s.pieces

/-- What an item does to files, in the order in which it evaluates. -/
def opsOf (ss : List (Save B)) : List (Op B) := ss.flatMap Save.ops

end Verif.ParSave
