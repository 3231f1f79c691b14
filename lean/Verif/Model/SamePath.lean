import Verif.Model.Io
/-! Model of which directory `ls` lists (`ogma/src/lang/impls/intrinsics/io.rs:100-108`), in a tab of the shell. -/
namespace Verif.Io

/-- The place the operating system finds for a path: nothing for a path without components (`ENOENT`). -/
def find (fs : FS) (cwd : List String) (p : Path) : Option (List String) :=
  if p = [] then none else some (resolve fs cwd p)

/-- `io.rs:100-108`: the directory `ls` lists, with a path or without. The root is not taken into account. -/
def lsDir (fs : FS) (cwd : List String) (wd : Path) : Option Path → Option (List String)
  | some path => find fs cwd (join wd path)
  | none => find fs cwd wd

/-- The directories of the tabs after `cd` commands, from the start (`lib.rs:72-74`). -/
def cds (fs : FS) (cwd : List String) (root : Path) (l : List (Nat × Path)) : Tabs :=
  l.foldl (fun tabs c => cd fs cwd root tabs c.1 c.2) (fun _ => none)

/-- What is evaluated in a tab, gets the directory of the tab (`lib.rs:265`). -/
def wdOf (fs : FS) (cwd : List String) (root : Path) (l : List (Nat × Path)) (t : Nat) : Path := tabWd root (cds fs cwd root l) t

end Verif.Io
