import Verif.Model.Blk
/-! Model of messages that list things: flags and arguments a command does not take, parameters and fields
(`ogma/src/common/err.rs`). -/
namespace Verif.Msg
open Verif.Blk

abbrev Text := List Char

/-- `str::trim_end_matches`, in at most so many rounds. -/
def trimEnd (d : Text) : Nat → Text → Text
  | 0, s => s
  | n + 1, s => if d.isSuffixOf s then trimEnd d n (s.take (s.length - d.length)) else s

/-- `str::trim_end_matches` for a pattern that is not empty. -/
def trimEndMatches (d s : Text) : Text := trimEnd d s.length s

/-- `err.rs:273`, `:669`. -/
def delim : Text := [',', ' ']

/-- `err.rs:269-292` `unused_flags`: the description, and the flags the notes are at, in order. -/
def unusedFlags (flags : List String) : Text × List String :=
  let r := flags.reverse.foldl (fun (r : Text × List String) f => (r.1 ++ '`' :: f.toList ++ '`' :: delim, r.2 ++ [f]))
    ("not expecting flags: ".toList, [])
  (trimEndMatches delim r.1, r.2)

/-- `err.rs:294-319` `unused_args`: where the note is and what it says. A place is a start and an end in the line. -/
def unusedArgs (args : List (Nat × Nat)) : (Nat × Nat) × String :=
  (match args with
    | [] => (0, 0)
    | a :: as => as.foldl (fun a b => (min a.1 b.1, max a.2 b.2)) a,
   if args.length = 1 then "this argument is unnecessary" else "these arguments are unnecessary")

/-- `err.rs:236-249`: the parameters a definition takes, in `insufficient_args`; a parameter has a name and perhaps a type. -/
def paramList (ps : List (Text × Option Text)) : Text :=
  (ps.foldl (fun s p => s ++ p.1 ++ (p.2.elim [] fun t => ':' :: t) ++ [' ']) []).dropLast

/-- `err.rs:662-680`: the fields of a type, in `field_not_found`. -/
def fieldList (fs : List Text) : Text := trimEndMatches delim (fs.foldl (fun s f => s ++ f ++ delim) [])

variable {A R : Type}

/-- The block of a command when it ends with `eval` (`blk.rs:253-263`). It follows `Blk.run`. -/
def atEnd (checked : Bool) : Prog A R → Block A → Option (Block A)
  | .eval _, b => some b
  | .fail, _ => none
  | .flag n k, b => atEnd checked (k (getFlag n b).1) (getFlag n b).2
  | .arg k, b => match nextArg checked b with
    | .error _ => none
    | .ok (a, b') => atEnd checked (k a) b'
  | .len k, b => atEnd checked (k b.args.length) b
  | .peekNext k, b => atEnd checked (k b.args.getLast?) b
  | .peekLast k, b => atEnd checked (k b.args.head?) b

/-- `blk.rs:280-288`: the message about flags, if some are left. -/
def flagsMsg (b : Block A) : Option (Text × List String) := if b.flags ≠ [] then some (unusedFlags b.flags) else none

/-- `blk.rs:280-288`: the message about arguments, if no flag but arguments are left. -/
def argsMsg (place : A → Nat × Nat) (b : Block A) : Option ((Nat × Nat) × String) :=
  if b.flags ≠ [] then none else if b.args ≠ [] then some (unusedArgs (b.args.map place)) else none

/-- `ogma/src/eng/comp/params.rs:87-91`: the message if flags are given to a command that is a definition. -/
def defFlagsMsg (ts : List (Term A)) : Option (Option (Text × List String)) :=
  (getTerms (termEdges (flagsOf ts))).map fun fs => if fs ≠ [] then some (unusedFlags fs) else none

end Verif.Msg
