import Verif.Model.RunLine
/-! What C90 says about `run` in the shell. -/
namespace Verif.RunLine
open Verif

/-- A flag of `run`. -/
inductive Flag
  | noPar
  | noFastFail
deriving DecidableEq, Repr

def Flag.text : Flag → Text
  | .noPar => " --no-par".toList
  | .noFastFail => " --no-fast-fail".toList

/-- A path as written, with flags behind it. -/
def written (path : Text) (fs : List Flag) : Text := path ++ fs.flatMap Flag.text

/-- The path does not have the text of a flag in it. -/
def Plain (path : Text) : Prop := ∀ f : Flag, ¬ f.text <:+: path

/-- The batch of a file with these flags. -/
structure Flagged (fs : List Flag) (b b' : File.Batch) : Prop where
  items : b'.items = b.items
  par : b'.parallelise = true ↔ b.parallelise = true ∧ .noPar ∉ fs
  fast : b'.failFast = true ↔ b.failFast = true ∧ .noFastFail ∉ fs

/-- The word for an outcome. -/
inductive Says {E T : Type} : Batch.Outcome E → Mark T → Prop
  | success (t : T) : Says .success (.success t)
  | failed (e : E) (t : T) : Says (.failed e) (.error t)
  | outstanding : Says .outstanding .outstanding
  | cancelled : Says .cancelled .cancelled

/-- A report: for each item, in order, a line with its line in the file, its kind and its outcome; then for each item that failed, in order, its error,
and nothing else. -/
structure Tells {E T : Type} (items : List File.BatchItem) (outs : List (Batch.Outcome E)) (ls : List (Line E T)) : Prop where
  heads : ∀ (i : Nat) (it : File.BatchItem) (o : Batch.Outcome E), items[i]? = some it → outs[i]? = some o →
    ∃ m, ls[i]? = some (.item it.line it.kind m) ∧ Says o m
  errors : ∃ js : List Nat, js.Pairwise (· < ·) ∧ (∀ j : Nat, j ∈ js ↔ ∃ e, outs[j]? = some (.failed e)) ∧ ls.length = items.length + js.length ∧
    ∀ (n j : Nat), js[n]? = some j → ∃ it e, items[j]? = some it ∧ outs[j]? = some (.failed e) ∧ ls[items.length + n]? = some (.error it.line it.kind e)

end Verif.RunLine
