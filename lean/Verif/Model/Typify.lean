import Verif.Model.Prog
import Verif.Model.Trace
/-! Model of `typify`: the text of an argument with the types that are known (`ogma/src/eng/annotate.rs`). -/
namespace Verif.Typify
open Verif Verif.Exp Verif.Prog
open Verif.Trace (Text)

variable {T : Type} [DecidableEq T]

/-- What is read besides the syntax graph: the type of this name, the name of a type (`annotate.rs:118-130`, `Display`), and the
types of a node (`graphs/tygraph.rs`). -/
structure Known (T : Type) where
  get : String → T
  name : T → Text
  kn : Nat → Ty.Side → Ty.Kn T

/-- `annotate.rs:96-102` `fmt_ty`. -/
def fmtTy (name : T → Text) : Option T → Text
  | some t => ':' :: name t
  | none => [':', '?']

/-- Only if it is wanted. -/
def onlyIf (v : Bool) (w : Text) : Text := if v then w else []

/-- `eng/graphs/astgraph.rs:1057-1064` `first_op`: `neighbors` lists the newest first. `none` where the code panics. -/
def firstOp (g : Graph) (e : Nat) : Option Nat := (((outEdges g e).map (·.dst)).filter (at' g isOp)).getLast?

/-- `astgraph.rs:912-920` `next`. -/
def nextOp (g : Graph) (op : Nat) : Option Nat :=
  ((((outEdges g (parent g op)).map (·.dst)).filter (at' g isOp)).takeWhile (· ≠ op)).getLast?

/-- The edge is keyed by this type. -/
def keyIs (get : String → T) (t : T) : Rel → Bool
  | .keyed (some s) => get s = t
  | _ => false

/-- `astgraph.rs:520-537` `get_impl`, of the edges from the operation, the newest first; the oldest of those for all types if there is none for
this type. -/
def implFor (g : Graph) (get : String → T) (op : Nat) (t : T) : Option Nat :=
  match (outEdges g op).find? (fun e => keyIs get t e.rel) with
  | some e => some e.dst
  | none => (((outEdges g op).filter (·.rel = .keyed none)).getLast?).map (·.dst)

/-- `annotate.rs:80-83`: the arguments of the implementation, none if it is not known which one. The outer `none` where the code
panics. -/
def argsFor (g : Graph) (get : String → T) (op : Nat) (t : Option T) : Option (List Nat) :=
  match t.bind (implFor g get op) with
  | some c => getTerms g c false
  | none => some []

/-- Two texts after each other. -/
def both (a b : Option Text) : Option Text :=
  match a, b with
  | some a, some b => some (a ++ b)
  | _, _ => none

/-- `annotate.rs:85-88`. -/
def fmtArgs (f : Nat → Option Text) : List Nat → Option Text
  | [] => some []
  | a :: as => both ((f a).map fun w => ' ' :: w) (fmtArgs f as)

/-- `annotate.rs:90-94`. -/
def fmtNext (f : Nat → Option Text) : Option Nat → Option Text
  | some m => (f m).map fun w => ' ' :: '|' :: w
  | none => some []

/-- The text of an identifier, `annotate.rs:24-29`. -/
def identText (x : String) : Text := if x.toList = [] then ['\'', '\''] else x.toList

mutual
/-- `annotate.rs:12-59` `fmt`. `none` where the code panics, or would not end. -/
def fmt (g : Graph) (K : Known T) (v : Bool) : Nat → Nat → Option Text
  | 0, _ => none
  | fuel + 1, n =>
    match g.nodes[n]? with
    | some (.arg (.ident x)) => some (identText x ++ onlyIf v (fmtTy K.name (K.kn n .out).ty))
    | some (.arg (.num x)) => some (x.toList ++ onlyIf v (fmtTy K.name (K.kn n .out).ty))
    | some (.pound c) => some ('#' :: c :: fmtTy K.name (K.kn n .out).ty)
    | some (.arg (.var x)) => some ('$' :: (x.toList ++ fmtTy K.name (K.kn n .out).ty))
    | some .expr => ((firstOp g n).bind fun op => fmtOp g K v fuel op).map fun w =>
        '{' :: (w ++ ' ' :: '}' :: fmtTy K.name (K.kn n .out).ty)
    | some (.op _) => fmtOp g K v fuel n
    | _ => none
/-- `annotate.rs:61-94` `fmt_op`. -/
def fmtOp (g : Graph) (K : Known T) (v : Bool) : Nat → Nat → Option Text
  | 0, _ => none
  | fuel + 1, op =>
    match g.nodes[op]? with
    | some (.op f) =>
      both (some (fmtTy K.name (K.kn op .inp).ty ++ ' ' :: f.toList ++ onlyIf v (fmtTy K.name (K.kn op .out).ty)))
        (both ((argsFor g K.get op (K.kn op .inp).ty).bind fun as => fmtArgs (fun a => fmt g K v fuel a) as)
          (fmtNext (fun m => fmtOp g K v fuel m) (nextOp g op)))
    | _ => none
end

/-- `annotate.rs:6-10` `types`. Edges lead to higher nodes (`Up`), and a node has no more blocks than there are nodes, so these are rounds
enough. -/
def types (g : Graph) (K : Known T) (v : Bool) (n : Nat) : Option Text := fmt g K v (g.nodes.length * (g.nodes.length + 2) + 1) n

end Verif.Typify
