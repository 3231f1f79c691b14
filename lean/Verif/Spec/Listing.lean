import Verif.Model.Listing
import Verif.Spec.Enter
/-! What C85 says about the list of definitions, and what is assumed of sorting. -/
namespace Verif.Listing
open Verif

/-- What is known of `slice::sort_by` whatever it is given: if it ends, nothing is lost. If it is given an order it ends, the result is in
order, and what is equal stays in place. -/
structure Sorts (sort : Sorter) : Prop where
  perm : ∀ cmp xs ys, sort cmp xs = some ys → ys.Perm xs
  sorted : ∀ cmp, [Std.TransCmp cmp] → ∀ xs, ∃ ys, sort cmp xs = some ys ∧ ys.Pairwise (fun a b => cmp a b ≠ .gt) ∧
    ∀ x, ys.filter (fun y => cmp x y == .eq) = xs.filter fun y => cmp x y == .eq

/-- A sort that never panics, and whose result is in every order that does not contradict the answers it was given. -/
structure Lenient (sort : Sorter) : Prop extends Sorts sort where
  ends : ∀ cmp xs, ∃ ys, sort cmp xs = some ys
  honest : ∀ cmp (le : Row → Row → Prop), (∀ a b c, le a b → le b c → le a c) → (∀ a b, cmp a b = .lt → le a b) → (∀ a b, cmp a b ≠ .lt → le b a) →
    ∀ xs ys, sort cmp xs = some ys → ys.Pairwise le

/-- The implementations stored, each once, in some order. -/
structure All (d : Defs.Defs) (xs : List Item) : Prop where
  once : xs.Nodup
  all : ∀ n k i, ⟨n, k, i⟩ ∈ xs ↔ d.entry n k = some i

/-- The row of an implementation: its name, the type of its input, where it is defined, and the text of a definition without the word `def`. -/
structure Shows (x : Item) (r : Row) : Prop where
  name : r.name = x.name.toList
  input : r.input = x.ty.map Help.typeText
  loc : r.loc = match x.impl.loc with
    | .ogma => "<ogma>".toList
    | .shell => "shell".toList
    | .file p _ => p.toList
  line : r.line = match x.impl.loc with
    | .file _ l => some l
    | _ => none
  code : match x.impl with
    | .intrinsic _ _ => r.code = none
    | .definition _ src => ∃ c, r.code = some c ∧ src.toList = "def ".toList ++ c

/-- A cell with this text, or an empty one. -/
def textOr : Option Text → Cell
  | some s => .text s
  | none => .nil

def numOr : Option Nat → Cell
  | some n => .num n
  | none => .nil

/-- The table has the header `name`, `category`, `input`, `location`, `line`, `code`, and below it these rows. -/
def Lists (t : List (List Cell)) (rs : List Row) : Prop :=
  t = ["name", "category", "input", "location", "line", "code"].map (fun s => Cell.text s.toList) ::
    rs.map fun r => [.text r.name, .text r.cat, textOr r.input, .text r.loc, numOr r.line, textOr r.code]

/-- In order: by name, and for one name first the implementation for any input, then by the type of input. -/
def Before (a b : Row) : Prop :=
  compare a.name b.name = .lt ∨ a.name = b.name ∧ (a.input = none ∨ ∃ x y, a.input = some x ∧ b.input = some y ∧ compare x y ≠ .gt)

/-- Where a stored definition comes from: the program, a line, or an item of a file. -/
inductive Origin (C : Parse.Env) (es : List Enter.Event) : Defs.Loc → String → Prop
  | program {n ty src} : (n, ty, src) ∈ Defs.derived → Origin C es .ogma src
  | line {text files} : Enter.Event.line text files ∈ es → Origin C es .shell (Prog.str text)
  | file {text files path content f item} : Enter.Event.line text files ∈ es → (path, some content) ∈ files →
      File.file C.cls (Enter.headRead C) content = .ok f → item ∈ f.types ++ f.impls → Origin C es (.file path item.line) (Prog.str item.code)
  | doc {docs path content f item} : Enter.Event.reload docs ∈ es → (path, content) ∈ docs →
      File.file C.cls (Enter.headRead C) content = .ok f → item ∈ f.types ++ f.impls → Origin C es (.file path item.line) (Prog.str item.code)

end Verif.Listing
