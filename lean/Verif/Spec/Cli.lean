import Verif.Model.Cli
import Verif.Spec.Batch
/-! What the command line should do. -/
namespace Verif.Cli
open Verif.Batch
variable {Pat Path Item D E : Type}

/-- These are the files of the patterns: each pattern is well formed, can be read and names some file; each file is there
once, however many patterns name it; they are in order. -/
structure FilesOf (w : World Pat Path Item D E) (ps : List Pat) (xs : List Path) : Prop where
  good : ∀ p ∈ ps, ∃ rs, w.glob p = some rs ∧ none ∉ rs ∧ rs ≠ []
  mem : ∀ x, x ∈ xs ↔ ∃ p ∈ ps, ∃ rs, w.glob p = some rs ∧ some x ∈ rs
  nodup : xs.Nodup
  sorted : xs.Pairwise fun x y => w.le x y = true

/-- The definitions once these files have been added. -/
inductive Loads (w : World Pat Path Item D E) : List Path → D → D → Prop
  | nil {d} : Loads w [] d d
  | cons {p ps d d1 d2} : w.load p d = some d1 → Loads w ps d1 d2 → Loads w (p :: ps) d d2

/-- All items of the batch succeed, each definition with those before it, each expression with all of them. -/
def Succeeds (c : Cfg Item D E) (d : D) : Prop := ∀ i it, c.items[i]? = some it → trueOutcome c d i it = .success

/-- All goes well: the patterns name files, the definition files load, the batch files parse, and all their items succeed. -/
def AllWell (w : World Pat Path Item D E) (defs files : List Pat) : Prop :=
  ∃ (ds fs : List Path) (d : D) (cs : List (Cfg Item D E)), FilesOf w defs ds ∧ FilesOf w files fs ∧ Loads w ds w.base d ∧ fs.map w.parse = cs.map some ∧ ∀ c ∈ cs, Succeeds c d

/-- What is known of the order of paths. -/
structure OrderedPaths (le : Path → Path → Bool) : Prop where
  total : ∀ x y, le x y = true ∨ le y x = true
  trans : ∀ x y z, le x y = true → le y z = true → le x z = true
  antisymm : ∀ x y, le x y = true → le y x = true → x = y

end Verif.Cli
