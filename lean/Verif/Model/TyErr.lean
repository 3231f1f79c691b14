import Verif.Model.TyGraph
/-! Model of the messages about conflicting types (`ogma/src/eng/comp/resolve_tg.rs:23-148, 173-244`). -/
namespace Verif.TyErr
open Verif.Ty

/-- A note at the text of a node. -/
structure Note where
  node : Nat
  text : String
  deriving DecidableEq

variable {T : Type} [DecidableEq T]

/-- `tygraph.rs:933-944`: the types of a set, with spaces between. -/
def showSet (sh : T → String) : List T → String
  | [] => ""
  | [t] => sh t
  | t :: u :: ts => sh t ++ " " ++ showSet sh (u :: ts)

/-- `resolve_tg.rs:43-145`: the notes of `ty_resolution_err`. `Conflict::UnknownSrc` is never made. -/
def resolutionNotes (sh : T → String) (e : Edge) : Conflict T → List Note
  | .overpoweringInferred => [⟨e.src, "this node is only inferred"⟩, ⟨e.dst, "but this node has stronger type guarantees"⟩]
  | .conflictingKnown src dst => match e.flow with
    | .ii | .io => [⟨e.src, "the source node has a known input type of `" ++ sh src ++ "`"⟩,
        ⟨e.dst, "but the flow target expects a `" ++ sh dst ++ "` input"⟩]
    | .oi | .oo => [⟨e.src, "the source node returns a `" ++ sh src ++ "`"⟩,
        ⟨e.dst, "but the flow target already returns a `" ++ sh dst ++ "`"⟩]
  | .unmatchedObligation src dst => match e.flow with
    | .ii | .io => [⟨e.src, "this node has input type `" ++ sh src ++ "`"⟩,
        ⟨e.dst, "but this node is obliged to use input `" ++ sh dst ++ "`"⟩]
    | .oi | .oo => [⟨e.src, "this node returns a `" ++ sh src ++ "`"⟩,
        ⟨e.dst, "but this node is obliged to return `" ++ sh dst ++ "`"⟩]
  | .unmatchedInferred src dst => match e.flow with
    | .ii | .io => [
        ⟨e.src, if src.length = 1 then "this node has input type `" ++ showSet sh src ++ "`"
          else "this node supports input types: " ++ showSet sh src⟩,
        ⟨e.dst, if dst.length = 1 then "but this node is inferred to use input `" ++ showSet sh dst ++ "`"
          else "but this node is inferred to use inputs: " ++ showSet sh dst⟩]
    | .oi | .oo => [⟨e.src, "this node returns a `" ++ showSet sh src ++ "`"⟩,
        ⟨e.dst, "but this node is inferred to return `" ++ showSet sh dst ++ "`"⟩]

/-- `resolve_tg.rs:188-241`: the notes of `conflict_err`, for a change applied to the node `n`. -/
def changeNotes (sh : T → String) (n : Nat) : Conflict T → List Note
  | .overpoweringInferred => [⟨n, "trying to apply type inference to already known type"⟩]
  | .conflictingKnown src dst => [⟨n, "this node is trying to have a type `" ++ sh src ++ "` applied to it"⟩,
      ⟨n, "but it is already known to use type `" ++ sh dst ++ "`"⟩]
  | .unmatchedObligation src dst => [⟨n, "this node is trying to have a type `" ++ sh src ++ "` applied to it"⟩,
      ⟨n, "but it is already obligated to use type `" ++ sh dst ++ "`"⟩]
  | .unmatchedInferred src dst => [
      ⟨n, if src.length = 1 then "this node has input type `" ++ showSet sh src ++ "`"
        else "this node could have any of these types applied to it: " ++ showSet sh src⟩,
      ⟨n, if dst.length = 1 then "but it is inferred to use type `" ++ showSet sh dst ++ "`"
        else "but it is inferred to use only types: " ++ showSet sh dst⟩]

end Verif.TyErr
