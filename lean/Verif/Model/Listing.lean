import Verif.Model.Help
import Verif.Model.Enter
/-! Model of `def --list`: `ogma/src/lang/defs.rs:451-521` `construct_def_table`, `ogma/src/lang/impls/mod.rs:72-77`, `:263-282`. -/
namespace Verif.Listing
open Verif

abbrev Text := List Char

/-- `impls/mod.rs:105-117` `ImplEntry`, without category and help. -/
structure Item where
  name : String
  ty : Option Defs.Ty
  impl : Defs.Impl
deriving DecidableEq, Repr

/-- `impls/mod.rs:72-77`: the implementations of one name. -/
def itemsOf (n : String) (ks : Defs.Keys) : List Item :=
  ks.tys.map (fun x => ⟨n, some x.1, x.2⟩) ++ ks.agnostic.toList.map fun i => ⟨n, none, i⟩

/-- `impls/mod.rs:264-282` `iter`: all implementations. The order is that of two hash maps, so what is listed is any permutation of this. -/
def items (d : Defs.Defs) : List Item := d.impls.flatMap fun x => itemsOf x.1 x.2

/-- A row before it is put into the table (`defs.rs:496-502`). -/
structure Row where
  name : Text
  cat : Text
  input : Option Text
  loc : Text
  line : Option Nat
  code : Option Text
deriving DecidableEq, Repr

/-- A cell of the table. -/
inductive Cell
  | nil
  | num (n : Nat)
  | text (s : Text)
deriving DecidableEq, Repr

/-- `defs.rs:454-459`. -/
def location : Defs.Loc → Text
  | .file p _ => p.toList
  | .ogma => ['<', 'o', 'g', 'm', 'a', '>']
  | .shell => ['s', 'h', 'e', 'l', 'l']

/-- `defs.rs:461-466`. -/
def lineOf : Defs.Loc → Option Nat
  | .file _ l => some l
  | _ => none

/-- `&s[n..]`: what follows so many bytes; `none` is a panic. -/
def from_ : Nat → Text → Option Text
  | 0, s => some s
  | _ + 1, [] => none
  | n + 1, c :: s => if c.utf8Size ≤ n + 1 then from_ (n + 1 - c.utf8Size) s else none

/-- `defs.rs:468-475`; the outer `none` is a panic. -/
def code : Defs.Impl → Option (Option Text)
  | .intrinsic _ _ => some none
  | .definition _ src => (from_ 4 src.toList).map some

/-- `defs.rs:487-503`. The category is given. -/
def rowOf (cat : Item → Text) (x : Item) : Option Row :=
  (code x.impl).map fun c => ⟨x.name.toList, cat x, x.ty.map Help.typeText, location x.impl.loc, lineOf x.impl.loc, c⟩

def rows (cat : Item → Text) : List Item → Option (List Row)
  | [] => some []
  | x :: xs => (rowOf cat x).bind fun r => (rows cat xs).map (r :: ·)

/-- `defs.rs:508-516`: the first order. -/
def byInput (a b : Row) : Ordering :=
  match a.input, b.input with
  | some x, some y => compare x y
  | none, _ => .lt
  | some _, none => .gt

/-- `defs.rs:517`: the second order. -/
def byName (a b : Row) : Ordering := compare a.name b.name

def cellOf : Option Text → Cell
  | none => .nil
  | some s => .text s

def numCell : Option Nat → Cell
  | none => .nil
  | some n => .num n

def Row.cells (r : Row) : List Cell := [.text r.name, .text r.cat, cellOf r.input, .text r.loc, numCell r.line, cellOf r.code]

/-- `defs.rs:478-482`. -/
def header : List Cell := [.text ['n', 'a', 'm', 'e'], .text ['c', 'a', 't', 'e', 'g', 'o', 'r', 'y'], .text ['i', 'n', 'p', 'u', 't'],
  .text ['l', 'o', 'c', 'a', 't', 'i', 'o', 'n'], .text ['l', 'i', 'n', 'e'], .text ['c', 'o', 'd', 'e']]

/-- `slice::sort_by`, which may panic if what it is given is not an order. -/
abbrev Sorter := (Row → Row → Ordering) → List Row → Option (List Row)

/-- `defs.rs:452-521` `construct_def_table`, for the implementations in this order; `none` is a panic. -/
def table (sort : Sorter) (cat : Item → Text) (xs : List Item) : Option (List (List Cell)) :=
  (rows cat xs).bind fun rs => (sort byInput rs).bind fun rs => (sort byName rs).map fun rs => header :: rs.map Row.cells

end Verif.Listing
