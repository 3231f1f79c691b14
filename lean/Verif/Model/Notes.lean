import Verif.Model.Prog
/-! Model of the syntax graph with the annotated types that are collected while it is built
(`ogma/src/eng/graphs/astgraph.rs:104-396`, the argument `chgs`). The definitions follow those of `Model/Expand.lean`, which leave
them out. -/
namespace Verif.Prog
open Verif Verif.Exp

/-- An annotated type: the node and the side it is for (`Chg::ObligeInput`, `Chg::ObligeOutput`). -/
abbrev Ann := Nat × Ty.Side × String

def ann (n : Nat) (sd : Ty.Side) : Option String → List Ann
  | some t => [(n, sd, t)]
  | none => []

/-- `:174-243`, the blocks of an expression; the types are collected at `:193-198`. -/
def addBlksN (D : Defs) (root : Nat) : List Exp.Blk → Graph → Queue → List Ann → Except Exp.Err (Graph × Queue × List Ann)
  | [], g, q, ns => .ok (g, q, ns)
  | .mk op inTy outTy terms :: bs, g, q, ns =>
    match op with
    | none => .error .panic
    | some op =>
      let n := g.nodes.length
      match checkTy D inTy with
      | .error x => .error x
      | .ok () =>
        match checkTy D outTy with
        | .error x => .error x
        | .ok () =>
          match addTerms D n terms ((g.add (.op op)).link root n .normal) q with
          | .error x => .error x
          | .ok (g, q) => addBlksN D root bs g q (ns ++ ann n .inp inTy ++ ann n .out outTy)

/-- `:163-244`; the type of the expression is collected at `:170-172`. -/
def flatLoopN (D : Defs) : Nat → Queue → Graph → List Ann → Except Exp.Err (Graph × List Ann)
  | _, [], g, ns => .ok (g, ns)
  | 0, _ :: _, _, _ => .error .panic
  | f + 1, (root, e) :: q, g, ns =>
    match addBlksN D root e.blks g q (ns ++ ann root .out e.out) with
    | .error x => .error x
    | .ok (g, q, ns) => flatLoopN D f q g ns

/-- `:128-247` `flatten_expr`. -/
def flattenN (D : Defs) (e : Expr) (g : Graph) (ns : List Ann) : Except Exp.Err (Graph × List Ann) :=
  match checkTy D e.out with
  | .error x => .error x
  | .ok () => flatLoopN D (countE e) [(g.nodes.length, e)] (g.add .expr) ns

/-- `:304-355`: one implementation. -/
def addImplN (D : Defs) (op : Nat) (name : String) (ps : List (String × String)) (g : Graph) (ns : List Ann) (im : Impl) :
    Except Exp.Err (Graph × List Ann × Bool) :=
  match im.defn with
  | none => .ok (linkCmd (g.add (.intrinsic name im.ty)) op g.nodes.length im.ty, ns, true)
  | some (params, e) =>
    if im.ty.any fun t => (name, t) ∈ ps then .ok (g, ns, false)
    else
      match checkParams D params with
      | .error x => .error x
      | .ok () =>
        let c := g.nodes.length
        match flattenN D e (g.add (.defn name im.ty)) ns with
        | .error x => .error x
        | .ok (g, ns) => .ok (linkCmd (noteId (g.link c (c + 1) .normal) c name im.ty) op c im.ty, ns, true)

/-- `:304-393`. -/
def addImplsN (D : Defs) (op : Nat) (name : String) (ps : List (String × String)) :
    List Impl → Graph → List Ann → Bool → Except Exp.Err (Graph × List Ann × Bool)
  | [], g, ns, b => .ok (g, ns, b)
  | im :: ims, g, ns, b =>
    match addImplN D op name ps g ns im with
    | .error x => .error x
    | .ok (g, ns, c) => addImplsN D op name ps ims g ns (b || c)

/-- `:277-396` `expand_def`. -/
def expandDefN (D : Defs) (g : Graph) (ns : List Ann) (op : Nat) : Except Exp.Err (Graph × List Ann × Bool) :=
  match (g.nodes[op]?).bind Node.opName with
  | none => .error .panic
  | some name =>
    match D.impls name with
    | [] => .error (.opNotFound name)
    | ims => addImplsN D op name (parentIds g op) ims g ns false

/-- `:269-272`. -/
def expandOpsN (D : Defs) : List Nat → Graph → List Ann → Bool → Except Exp.Err (Graph × List Ann × Bool)
  | [], g, ns, b => .ok (g, ns, b)
  | op :: ops, g, ns, b =>
    match expandDefN D g ns op with
    | .error x => .error x
    | .ok (g, ns, c) => expandOpsN D ops g ns (b || c)

/-- `:250-275` `expand_defs`. -/
def expandDefsN (D : Defs) (g : Graph) (ns : List Ann) : Except Exp.Err (Graph × List Ann × Bool) := expandOpsN D (openOps g) g ns false

/-- `:114-120`. -/
def initLoopN (D : Defs) : Nat → Graph → List Ann → Except Exp.Err (Graph × List Ann)
  | left, g, ns =>
    match expandDefsN D g ns with
    | .error x => .error x
    | .ok (g, ns, false) => .ok (g, ns)
    | .ok (g, ns, true) =>
      match left with
      | 0 => .error .endless
      | left + 1 => initLoopN D left g ns

/-- `:104-123` `init`. -/
def initN (D : Defs) (e : Expr) : Except Exp.Err (Graph × List Ann) :=
  match flattenN D e ⟨[], [], []⟩ [] with
  | .error x => .error x
  | .ok (g, ns) => initLoopN D 128 g ns

/-- `comp/mod.rs:58-63`: the annotated types, then those without a name. -/
def notesOf {T : Type} (Y : Types T) (ns : List Ann) (anon : List T) : List (Note T) :=
  ns.map (fun a => .oblige a.1 a.2.1 (Y.get a.2.2)) ++ anon.map .anon

end Verif.Prog
