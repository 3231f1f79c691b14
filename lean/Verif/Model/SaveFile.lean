import Verif.Model.Print
/-! Model of how `save` writes a file (`ogma/src/lang/impls/intrinsics/io.rs:326-390`), call by call of the operating system,
each of which may fail, or be the last before the machine stops. -/
namespace Verif.SaveFile
open Verif.Print

/-- What the operating system answers when bytes are to be written: how many it took, that it was interrupted, or an
error. -/
inductive Resp
  | wrote (n : Nat)
  | interrupted
  | refused
deriving DecidableEq, Repr

/-- How it ended. `stopped`: the machine stopped. -/
inductive Res
  | ok
  | err
  | stopped
deriving DecidableEq, Repr

/-- Writes what is given, until all is taken or there is an error (`std::io::Write::write_all`, and the loop of
`BufWriter::flush_buf`). The answers are in `os`; after the last of them the machine stops. The results are the answers
that are left, the contents of the file, what was not taken, and how it ended. -/
def push {B : Type} : List Resp → List B → List B → List Resp × List B × List B × Res
  | os, file, [] => (os, file, [], .ok)
  | [], file, d => ([], file, d, .stopped)
  | .wrote n :: os, file, d => if n = 0 then (os, file, d, .err) else push os (file ++ d.take n) (d.drop n)
  | .interrupted :: os, file, d => push os file d
  | .refused :: os, file, d => (os, file, d, .err)

/-- A `std::io::BufWriter<File>`, with the answers to come. -/
structure Wtr (B : Type) where
  os : List Resp
  file : List B
  buf : List B

variable {B : Type}

/-- `BufWriter::flush_buf`. -/
def flushBuf (w : Wtr B) : Wtr B × Res :=
  let r := push w.os w.file w.buf
  (⟨r.1, r.2.1, r.2.2.1⟩, r.2.2.2)

/-- `BufWriter::write_all`, with room for `cap` bytes. -/
def writeAll (cap : Nat) (w : Wtr B) (s : List B) : Wtr B × Res :=
  if s.length < cap - w.buf.length then ({ w with buf := w.buf ++ s }, .ok)
  else
    let r := if s.length > cap - w.buf.length then flushBuf w else (w, .ok)
    match r.2 with
    | .ok =>
      if s.length ≥ cap then
        let p := push r.1.os r.1.file s
        (⟨p.1, p.2.1, r.1.buf⟩, p.2.2.2)
      else ({ r.1 with buf := r.1.buf ++ s }, .ok)
    | e => (r.1, e)

/-- `write!` of one text after the other, up to the first error (`?`). -/
def writePieces (cap : Nat) (w : Wtr B) : List (List B) → Wtr B × Res
  | [] => (w, .ok)
  | s :: ss =>
    let r := writeAll cap w s
    match r.2 with
    | .ok => writePieces cap r.1 ss
    | e => (r.1, e)

/-- `io.rs:390`: the texts, and `flush`. -/
def writeFlush (cap : Nat) (w : Wtr B) (ss : List (List B)) : Wtr B × Res :=
  let r := writePieces cap w ss
  match r.2 with
  | .ok => flushBuf r.1
  | e => (r.1, e)

/-- `io.rs:326-328`: makes the file, or empties it; writes; and the writer is dropped, which tries to write what is left
in it (`BufWriter::drop`) whatever that gives. `created`: whether directories and file could be made. The results are what the
file holds, and what is reported. -/
def saveFile (cap : Nat) (created : Bool) (os : List Resp) (old : Option (List B)) (ss : List (List B)) :
    Option (List B) × Res :=
  if created then
    let r := writeFlush cap ⟨os, [], []⟩ ss
    match r.2 with
    | .stopped => (some r.1.file, .stopped)
    | e => let d := flushBuf r.1
      (some d.1.file, if d.2 = .stopped then .stopped else e)
  else (old, .err)

/-- `io.rs:374-381`: the texts written for a row. -/
def rowTexts (special : Bool → Char → Bool) : Bool → List (Option (List Char)) → List (List Char)
  | _, [] => []
  | comma, c :: cs => (if comma then [[',']] else []) ++ saveCell special c :: rowTexts special true cs

/-- `io.rs:367-382`: the texts written for a table. -/
def tableTexts (special : Bool → Char → Bool) : Bool → List (List (Option (List Char))) → List (List Char)
  | _, [] => []
  | newline, r :: rs => (if newline then [['\n']] else []) ++ rowTexts special false r ++ tableTexts special true rs

end Verif.SaveFile
