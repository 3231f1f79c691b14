import Verif.Model.Batch
/-! Model of the command line (`bin/main.rs`) on top of the model of the batch. -/
namespace Verif.Cli
open Verif.Batch

/-- What the program meets. `glob` is `glob::glob` (`bin/main.rs:30`): `none` if the pattern is malformed, otherwise the paths in turn,
`none` for one that could not be read. `load` is `Definitions::add_from_file` (`bin/main.rs:75`): `none` if it fails. `parse` is `bat::parse_file`
(`bin/main.rs:85`): `none` if the file can not be read or parsed; the batch comes with the meaning of its items. `le` is the order of
paths (`bin/main.rs:46`). -/
structure World (Pat Path Item D E : Type) where
  glob : Pat → Option (List (Option Path))
  le : Path → Path → Bool
  base : D
  load : Path → D → Option D
  parse : Path → Option (Cfg Item D E)

variable {Pat Path Item D E : Type}

/-- All are there, or it panics. -/
def everything {α : Type} : List (Option α) → Option (List α)
  | [] => some []
  | none :: _ => none
  | some x :: xs => (everything xs).map (x :: ·)

/-- `bin/main.rs:29-42`, the paths of one pattern; `none` is a panic. The code calls it with `panic_on_empty` set. -/
def matchesOf (w : World Pat Path Item D E) (p : Pat) : Option (List Path) :=
  (w.glob p).bind fun rs => (everything rs).bind fun ps => if ps.isEmpty then none else some ps

/-- `bin/main.rs:27-44`, the paths of all patterns. -/
def gather (w : World Pat Path Item D E) : List Pat → Option (List Path)
  | [] => some []
  | p :: ps => (matchesOf w p).bind fun xs => (gather w ps).map (xs ++ ·)

def insertPath (le : Path → Path → Bool) (x : Path) : List Path → List Path
  | [] => [x]
  | y :: ys => if le x y then x :: y :: ys else y :: insertPath le x ys

/-- `bin/main.rs:46` `sort`, as an insertion sort. -/
def sortPaths (le : Path → Path → Bool) : List Path → List Path
  | [] => []
  | x :: xs => insertPath le x (sortPaths le xs)

/-- `bin/main.rs:47` `dedup`: of equal neighbours only the first is kept. -/
def dedup [DecidableEq Path] : List Path → List Path
  | [] => []
  | [x] => [x]
  | x :: y :: ys => if x = y then dedup (y :: ys) else x :: dedup (y :: ys)

/-- `bin/main.rs:26-50` `expand_globs`. -/
def expandGlobs [DecidableEq Path] (w : World Pat Path Item D E) (ps : List Pat) : Option (List Path) :=
  (gather w ps).map fun xs => dedup (sortPaths w.le xs)

/-- `bin/main.rs:74-78`: the definition files are added one after the other. -/
def loadAll (w : World Pat Path Item D E) : List Path → D → Option D
  | [], d => some d
  | p :: ps, d => (w.load p d).bind (loadAll w ps)

/-- `bin/main.rs:82-101`: all files are parsed. -/
def parseAll (w : World Pat Path Item D E) : List Path → Option (List (Cfg Item D E))
  | [] => some []
  | p :: ps => (w.parse p).bind fun c => (parseAll w ps).map (c :: ·)

/-- `bin/main.rs:12-15` and `:70-101`: everything that happens before the first item is processed. -/
def setup [DecidableEq Path] (w : World Pat Path Item D E) (defs files : List Pat) : Option (D × List (Cfg Item D E)) :=
  (expandGlobs w defs).bind fun dp => (expandGlobs w files).bind fun fp =>
    (loadAll w dp w.base).bind fun d => (parseAll w fp).map fun cs => (d, cs)

/-- `bin/main.rs:147-164`: an error is seen if there is a failed item. -/
def errorsIn (rs : List (Outcome E)) : Bool := rs.any Outcome.isFailed

/-- `bin/main.rs:127-130`: a batch is processed with its own copy of the definitions. Its progress is a dummy, so nobody cancels. -/
def Processes (c : Cfg Item D E) (d : D) (rs : List (Outcome E)) : Prop :=
  ∃ as s, Act.cancel ∉ as ∧ run c (init d) as = some s ∧ s.fin.isSome = true ∧ rs = results c s

/-- `bin/main.rs:103-105`: the files are processed in turn, up to the first one with an error. The results of those that were
processed, and whether all went well. -/
inductive Files (d : D) : List (Cfg Item D E) → List (List (Outcome E)) → Bool → Prop
  | nil : Files d [] [] true
  | stop {c cs rs} : Processes c d rs → errorsIn rs = true → Files d (c :: cs) [rs] false
  | next {c cs rs rss b} : Processes c d rs → errorsIn rs = false → Files d cs rss b → Files d (c :: cs) (rs :: rss) b

/-- How the program ends: in the shell, by a panic, or by having processed files. -/
inductive End (E : Type)
  | shell
  | panicked
  | processed (results : List (List (Outcome E))) (fine : Bool)

/-- `bin/main.rs:9-24` `main`. With no file patterns it is the shell, once the definition patterns have been expanded. -/
inductive Main [DecidableEq Path] (w : World Pat Path Item D E) (defs files : List Pat) : End E → Prop
  | shell {dp} : expandGlobs w defs = some dp → expandGlobs w files = some [] → Main w defs files .shell
  | globs : (expandGlobs w defs = none ∨ expandGlobs w files = none) → Main w defs files .panicked
  | panicked {dp fp} : expandGlobs w defs = some dp → expandGlobs w files = some fp → fp ≠ [] → setup w defs files = none →
      Main w defs files .panicked
  | processed {fp d cs rss b} : expandGlobs w files = some fp → fp ≠ [] → setup w defs files = some (d, cs) → Files d cs rss b →
      Main w defs files (.processed rss b)

/-- `bin/main.rs:21-22`: the status given to the system; 101 is that of a panic. The shell's own status is not modelled. -/
def End.code : End E → Option Nat
  | .shell => none
  | .panicked => some 101
  | .processed _ true => some 0
  | .processed _ false => some 1

end Verif.Cli
