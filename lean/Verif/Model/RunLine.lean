import Verif.Model.Batch
import Verif.Model.Enter
/-! `run` in the shell: `ogma-shell/lib.rs:331-360` `parse_batch`, `:362-397` `process_batch`. The processing itself is in `Model/Batch.lean`, the
parsing of files in `Model/File.lean`. Reading a file is given, with the check of its path (`Model/Io.lean`). -/
namespace Verif.RunLine
open Verif

abbrev Text := List Char

/-- `lib.rs:336`. -/
def parFlag : Text := [' ', '-', '-', 'n', 'o', '-', 'p', 'a', 'r']
def failFlag : Text := [' ', '-', '-', 'n', 'o', '-', 'f', 'a', 's', 't', '-', 'f', 'a', 'i', 'l']

/-- `str::replace` by nothing. The number counts the characters of a match that are still to be left out. -/
def remove (f : Text) : Nat → Text → Text
  | _, [] => []
  | k + 1, _ :: r => remove f k r
  | 0, c :: r => if f.isPrefixOf (c :: r) then remove f (f.length - 1) r else c :: remove f 0 r

/-- `lib.rs:337-346`: the text without the flag, and whether it was there. -/
def cut (f text : Text) : Text × Bool := if Enter.contains f text then (remove f 0 text, true) else (text, false)

/-- What is asked for after `run `. -/
structure Asked where
  path : Text
  noPar : Bool
  noFast : Bool
deriving DecidableEq, Repr

/-- `lib.rs:337-346`. -/
def asked (text : Text) : Asked :=
  let x := cut parFlag text
  let y := cut failFlag x.1
  ⟨y.1, x.2, y.2⟩

/-- `lib.rs:349-358`: the flags take precedence over the file. -/
def settle (a : Asked) (b : File.Batch) : File.Batch :=
  { b with parallelise := if a.noPar then false else b.parallelise, failFast := if a.noFast then false else b.failFast }

/-- How a file cannot be processed. -/
inductive Bad
  | io
  | parse
deriving DecidableEq, Repr

/-- `lib.rs:331-360` `parse_batch`; `files`: the text of the file of this path in the working directory. -/
def load (k : File.Classes) (head : Text → Bool) (files : Text → Option Text) (text : Text) : Except Bad File.Batch :=
  match files (asked text).path with
  | none => .error .io
  | some s => match File.parseStr k head s with
    | .error _ => .error .parse
    | .ok b => .ok (settle (asked text) b)

def kindOf : File.Kind → Batch.Kind
  | .type_ => .type
  | .impl => .impl
  | .expr => .expr

/-- The batch with what the language does to its items. -/
def cfg {D E : Type} (b : File.Batch) (procDef : D → File.BatchItem → D × Option E) (procExpr : D → File.BatchItem → Option E) : Batch.Cfg File.BatchItem D E :=
  ⟨b.items, fun i => kindOf i.kind, b.parallelise, b.failFast, procDef, procExpr⟩

/-- What is said of the outcome of an item; `T` is a time. -/
inductive Mark (T : Type)
  | success (t : T)
  | error (t : T)
  | outstanding
  | cancelled
deriving DecidableEq, Repr

/-- A line of the report: of an item, or the error of one. -/
inductive Line (E T : Type)
  | item (line : Nat) (kind : File.Kind) (m : Mark T)
  | error (line : Nat) (kind : File.Kind) (e : E)
deriving DecidableEq, Repr

variable {E T : Type}

/-- `lib.rs:375-381`. -/
def mark : Batch.Outcome E × T → Mark T
  | (.success, t) => .success t
  | (.failed _, t) => .error t
  | (.outstanding, _) => .outstanding
  | (.cancelled, _) => .cancelled

/-- `lib.rs:386-389`. -/
def failure : Batch.Outcome E → Option E
  | .failed e => some e
  | _ => none

/-- `lib.rs:362-397` `process_batch`, once it is processed. -/
def report (items : List File.BatchItem) (outs : List (Batch.Outcome E × T)) : List (Line E T) :=
  (items.zip outs).map (fun x => .item x.1.line x.1.kind (mark x.2)) ++
    (items.zip outs).filterMap fun x => (failure x.2.1).map fun e => .error x.1.line x.1.kind e

end Verif.RunLine
