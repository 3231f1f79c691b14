/-! Model of paths in `open`, `save`, `ls` and the shell's `cd`, and of the file cache. -/
namespace Verif.Io

/-! ### Paths -/

/-- `std::path::Component` on Unix. -/
inductive Comp : Type
  | root
  | cur
  | up
  | name (s : String)
  deriving DecidableEq

/-- A path is the list of its components, as `Path::components` yields them: `root` and `cur` only at the start. -/
abbrev Path := List Comp

def isAbs : Path → Bool
  | .root :: _ => true
  | _ => false

/-- `Path::join`: an absolute path replaces; `.` inside a path is dropped by `components`. -/
def join (p q : Path) : Path :=
  if isAbs q then q else if p = [] then q else p ++ q.filter (· ≠ .cur)

/-- A file system: which absolute paths are links, and to which absolute link-free path (a simplification: a chain of
links is one link), and which paths exist. -/
structure FS where
  link : List String → Option (List String)
  exist : List String → Bool

/-- What the operating system makes of one component, from the directory `d`. -/
def stepDir (fs : FS) (d : List String) : Comp → List String
  | .root => []
  | .cur => d
  | .up => d.dropLast
  | .name s => (fs.link (d ++ [s])).getD (d ++ [s])

/-- The location a path denotes for a process whose current directory is `cwd`. -/
def resolve (fs : FS) (cwd : List String) (p : Path) : List String := p.foldl (stepDir fs) cwd

/-- `Path::canonicalize`: fails when nothing is there. -/
def canon (fs : FS) (cwd : List String) (p : Path) : Option (List String) :=
  if fs.exist (resolve fs cwd p) then some (resolve fs cwd p) else none

/-- `Path::strip_prefix` on absolute link-free paths. -/
def strip : List String → List String → Option (List String)
  | [], t => some t
  | r :: rs, t :: ts => if r = t then strip rs ts else none
  | _ :: _, [] => none

inductive IoErr
  | notFound | aboveRoot
  deriving DecidableEq

/-- `ogma/src/lang/impls/intrinsics/io.rs:19-35` `scrub_filepath` and `ogma-shell/lib.rs:213-233` `validate_path`: the
part of the path below the root. When the root cannot be canonicalised it is `.`, which no absolute path starts with. -/
def scrub (fs : FS) (cwd : List String) (root wd path : Path) : Except IoErr (List String) :=
  match canon fs cwd (join (join root wd) path) with
  | none => .error .notFound
  | some t => match canon fs cwd root with
    | none => .error .aboveRoot
    | some r => match strip r t with
      | none => .error .aboveRoot
      | some rel => .ok rel

/-- A scrubbed path as a path. -/
def names (l : List String) : Path := l.map .name

/-- `io.rs:221-225, 239-243`, `read_file` `:258-264`: the file `open` reads. The scrubbed path is relative and is handed
to the operating system as it is. -/
def openReads (fs : FS) (cwd : List String) (root wd path : Path) : Except IoErr (List String) :=
  (scrub fs cwd root wd path).map fun rel => resolve fs cwd (names rel)

/-- `ogma-shell/lib.rs:120`, `:193-211`: working directories of the tabs; `none`: not used yet. -/
abbrev Tabs := Nat → Option Path

/-- `lib.rs:193-196` `tab_wd`. -/
def tabWd (root : Path) (tabs : Tabs) (t : Nat) : Path := (tabs t).getD root

/-- `lib.rs:198-233` `handle_cd` (with a path), `change_working_dir`, `validate_path`: on an error the directory stays.
`validate_path` starts from the root when the tab has no directory yet; the directory shown afterwards is entered. -/
def cd (fs : FS) (cwd : List String) (root : Path) (tabs : Tabs) (t : Nat) (path : Path) : Tabs :=
  let wd : Path := match tabs t with | some w => w | none => []
  match scrub fs cwd root wd path with
  | .ok rel => fun u => if u = t then some (names rel) else tabs u
  | .error _ => fun u => if u = t then some (tabWd root tabs t) else tabs u

/-- `io.rs:86-110` `ls` with a path: the directory listed. -/
def lsReads (fs : FS) (cwd : List String) (wd path : Path) : List String := resolve fs cwd (join wd path)

/-! ### `save` -/

/-- Adding on `i32`; `none`: the panic of a build with overflow checks. -/
def addI32 (checked : Bool) (x y : Int) : Option Int :=
  let z := x + y
  if -2147483648 ≤ z ∧ z ≤ 2147483647 then some z
  else if checked then none
  else some ((z + 2147483648) % 4294967296 - 2147483648)

/-- `io.rs:309-317`: the value of a component. -/
def compVal : Comp → Int
  | .root => -2147483648
  | .cur => 0
  | .up => -1
  | .name _ => 1

/-- `io.rs:309-317`: the fold. -/
def depth (checked : Bool) : Path → Int → Option Int
  | [], x => some x
  | c :: cs, x => (addI32 checked x (compVal c)).bind (depth checked cs)

/-- `io.rs:303-327`: the path that is written to, or an error; `none`: panic. -/
def save (checked : Bool) (root wd arg : Path) : Option (Except IoErr Path) :=
  let p := join (join root wd) arg
  (depth checked p 0).map fun x => if x ≤ 0 then .error .aboveRoot else .ok p

/-! ### The file cache -/

inductive Ty
  | tab | str
  deriving DecidableEq

variable {V : Type}

/-- `ogma/src/rt/fscache.rs:24-27`: the key is the lower-cased path and the type. `lower` (`path_to_str`, `:114-116`) is a
parameter; a path is the text of a scrubbed path. -/
structure Entry (V : Type) where
  key : String
  ty : Ty
  /-- the type of the value held -/
  valTy : Ty
  val : V
  time : Nat

abbrev Cache (V : Type) := List (Entry V)

/-- `fscache.rs:46-61` `get`: a hit is used again from `now` on. -/
def cget (lower : String → String) (c : Cache V) (now : Nat) (p : String) (ty : Ty) : Cache V × Option V :=
  match c.find? fun e => e.key == lower p && e.ty == ty with
  | some e => (c.map fun e => if e.key == lower p && e.ty == ty then { e with time := now } else e,
      if e.valTy = ty then some e.val else none)
  | none => (c, none)

/-- `fscache.rs:64-71` `insert`. -/
def cinsert (lower : String → String) (c : Cache V) (now : Nat) (p : String) (ty : Ty) (v : V) : Cache V :=
  ⟨lower p, ty, ty, v, now⟩ :: c.filter fun e => !(e.key == lower p && e.ty == ty)

/-- `fscache.rs:73-75` `remove_expired`. -/
def cexpire (c : Cache V) (now age : Nat) : Cache V := c.filter fun e => decide (now - e.time < age)

/-- `fscache.rs:77-86` `remove_path_changes`. -/
def cremove (lower : String → String) (c : Cache V) (ps : List String) : Cache V :=
  if ps = [] then c else c.filter fun e => !((ps.map lower).contains e.key)

/-- What happens to the cache, with several evaluations at once (`io.rs:221-248`): a lookup; reading a file that was not
found in the cache; storing what was read; the watcher's removal; the cleaner. -/
inductive Ev (V : Type) : Type
  | lookup (p : String) (ty : Ty)
  /-- evaluation `i` reads the file: it finds `v` -/
  | read (i : Nat) (p : String) (ty : Ty) (v : V)
  | store (i : Nat)
  | changed (ps : List String)
  | expire (age : Nat)
  | tick

structure CState (V : Type) where
  cache : Cache V
  now : Nat
  /-- what each evaluation has read and not stored yet -/
  pending : Nat → Option (String × Ty × V)

def cstep (lower : String → String) (s : CState V) : Ev V → CState V
  | .lookup p ty => { s with cache := (cget lower s.cache s.now p ty).1 }
  | .read i p ty v => { s with pending := fun j => if j = i then some (p, ty, v) else s.pending j }
  | .store i => match s.pending i with
    | some (p, ty, v) => { s with
        cache := cinsert lower s.cache s.now p ty v
        pending := fun j => if j = i then none else s.pending j }
    | none => s
  | .changed ps => { s with cache := cremove lower s.cache ps }
  | .expire age => { s with cache := cexpire s.cache s.now age }
  | .tick => { s with now := s.now + 1 }

def crun (lower : String → String) (evs : List (Ev V)) : CState V :=
  evs.foldl (cstep lower) ⟨[], 0, fun _ => none⟩

end Verif.Io
