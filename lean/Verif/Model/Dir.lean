import Verif.Model.Table
/-! Model of the table `ls` makes of a directory (`ogma/src/lang/impls/intrinsics/io.rs:112-171`) and of the one
`benchmark` makes of a time (`diagnostics.rs:39-53`). -/
namespace Verif.Dir
open Verif.Tab

/-- The name of a file: characters, and bytes that are no part of one (`none`). -/
abbrev Name := List (Option Char)

/-- `OsStr::to_str`: the text, if it is one. -/
def toStr : Name → Option (List Char)
  | [] => some []
  | none :: _ => none
  | some c :: n => (toStr n).map (c :: ·)

/-- `Path::extension` of a path that ends in this name: what is after the last dot, if there is something before it.
Names are never `.` or `..`. -/
def extension (n : Name) : Option Name :=
  let after := n.reverse.takeWhile (· ≠ some '.')
  let before := n.reverse.dropWhile (· ≠ some '.')
  if before.length ≤ 1 then none else some after.reverse

/-- `std::fs::FileType`, as far as it is asked for. -/
inductive Kind
  | dir | file | other
  deriving DecidableEq

/-- A point in time in UTC, as `time::OffsetDateTime` gives it. -/
structure Stamp where
  year : Int
  month : Nat
  day : Nat
  hour : Nat
  minute : Nat
  deriving DecidableEq

/-- `std::fs::Metadata`. Not every system knows the time of the last change. -/
structure Meta where
  kind : Kind
  len : Nat
  modified : Option Stamp

/-- An entry of a directory. Its metadata may not be readable. -/
structure Item where
  name : Name
  info : Option Meta

/-- A decimal digit. -/
def digit (n : Nat) : Char := Char.ofNat (48 + n % 10)

/-- A number in two digits. -/
def two (n : Nat) : List Char := [digit (n / 10), digit n]

/-- `io.rs:167-171` `fmt_systime`: the format `[year].[month].[day] [hour][minute]`. The year has four digits, with a
sign if it is negative. -/
def stampText (s : Stamp) : List Char :=
  (if s.year < 0 then ['-'] else []) ++ two (s.year.natAbs / 100) ++ two (s.year.natAbs % 100) ++ '.' :: two s.month ++
    '.' :: two s.day ++ ' ' :: two s.hour ++ two s.minute

variable {N : Type}

/-- `io.rs:116` `o`. -/
def text (s : List Char) : Entry N := .obj (.str (String.ofList s))

/-- `io.rs:118-124`: the header. -/
def header : List (Entry N) :=
  [.obj (.str "name"), .obj (.str "type"), .obj (.str "size"), .obj (.str "ext"), .obj (.str "modified")]

/-- `io.rs:136-142`: the type. -/
def kindCell : Kind → Entry N
  | .dir => .obj (.str "dir")
  | .file => .obj (.str "file")
  | .other => .nil

/-- `io.rs:133-159`: the cells of an entry. `ofNat` makes a number of a size. -/
def itemCells (ofNat : Nat → N) (e : Item) : List (Entry N) :=
  text ((toStr e.name).getD []) :: match e.info with
    | some m => [kindCell m.kind, .num (ofNat m.len), (((extension e.name).bind toStr).map text).getD .nil,
        ((m.modified.map stampText).map text).getD .nil]
    | none => []

/-- `io.rs:162`: the comparison of the sort. The names are always strings. -/
def nameLe : Entry N → Entry N → Bool
  | .obj (.str a), .obj (.str b) => decide (a ≤ b)
  | _, _ => true

/-- `io.rs:112-165` `make_dir_table`. `none`: the directory cannot be read. Entries that cannot be read (`none` in the
list) are passed over. -/
def dirTable (ofNat : Nat → N) (listing : Option (List (Option Item))) : Option (Rows N) :=
  listing.map fun l => sortCol nameLe 0 ((l.filterMap id).foldl (fun t e => addRow t (itemCells ofNat e)) [header])

/-- `diagnostics.rs:39-53` `benchmark_table`, for a time of `nanos` nanoseconds. The text of the duration is a
parameter. `none`: the subtraction `us - ms * 1000` panics. -/
def benchTable (ofNat : Nat → N) (debug : Nat → List Char) (nanos : Nat) : Option (Rows N) :=
  let sub := nanos % 1000000000
  let ms := sub / 1000000
  let us := sub / 1000
  if ms * 1000 ≤ us then
    some [[.obj (.str "duration"), .obj (.str "seconds"), .obj (.str "milliseconds"), .obj (.str "microseconds")],
      [text (debug nanos), .num (ofNat (nanos / 1000000000)), .num (ofNat ms), .num (ofNat (us - ms * 1000))]]
  else none

end Verif.Dir
