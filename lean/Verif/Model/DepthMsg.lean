/-! Model of the message when inferring types goes too deep (`ogma/src/eng/comp/infer.rs:325-422`). -/
namespace Verif.DepthMsg

/-- Which type is tried at a place: the input of an expression, or the output of a command. -/
inductive Which
  | input
  | output
  deriving DecidableEq

/-- A place where types are tried. -/
structure Place where
  node : Nat
  which : Which
  deriving DecidableEq

/-- A note of the message: where, and the text. -/
structure Note where
  node : Nat
  text : Option String
  deriving DecidableEq

/-- `infer.rs:356-358`, `:393-395`: the text for a place. -/
def advice : Which → String
  | .input => "annotate the input type for this expression"
  | .output => "trying to infer output for this command"

/-- `infer.rs:409-421` `add_trace`. -/
def addTrace (notes : List Note) (n : Nat) (msg : String) : List Note :=
  match notes with
  | [] => [⟨n, some msg⟩]
  | prv :: rest => ⟨n, prv.text⟩ :: ⟨prv.node, some "sub-inferencing failed"⟩ :: rest

/-- The error of `inference_depth` (`err.rs:564-574`) has no notes; each place it passes, from the innermost outwards, adds
one (`infer.rs:95-105, 158-168`). -/
def bubble (inside : List Place) : List Note := inside.foldl (fun ns p => addTrace ns p.node (advice p.which)) []

end Verif.DepthMsg
