import Verif.Model.Nom
/-! Model of the syntax graph: flattening an expression and expanding the definitions it uses
(`ogma/src/eng/graphs/astgraph.rs`). Tags and the collected type annotations are left out; that an annotated type exists
is checked. -/
namespace Verif.Exp

/-- `ast.rs` `Argument`: an identifier, a number, as written, or a variable, without `$`. -/
inductive Word
  | ident (x : String)
  | num (x : String)
  | var (x : String)
  deriving DecidableEq

mutual
/-- `lang/syntax/ast.rs` `Expression`: the annotated output type and the blocks. -/
inductive Expr
  | mk (out : Option String) (blks : List Blk)
/-- `ast.rs` `BlockParts`; the operation is `none` if it is a path of several components. -/
inductive Blk
  | mk (op : Option String) (inTy outTy : Option String) (terms : List Term)
/-- `ast.rs` `Term` and `Argument`. -/
inductive Term
  | flag (f : String)
  | plain (x : Word)
  | pound (c : Char)
  | expr (e : Expr)
end

def Expr.out : Expr → Option String
  | .mk o _ => o

def Expr.blks : Expr → List Blk
  | .mk _ b => b

/-- `ast.rs` `Parameter`. -/
structure Param where
  name : String
  ty : Option String

/-- `lang/impls/mod.rs` `ImplEntry`: the input type it is for, and the definition unless it is intrinsic. -/
structure Impl where
  ty : Option String
  defn : Option (List Param × Expr)

/-- What is defined: the implementations of a command in the order of `iter_op` (`impls/mod.rs:269-282`), none if there is
no such command, and the names of types. -/
structure Defs where
  impls : String → List Impl
  isTy : String → Bool

inductive Err
  | opNotFound (op : String)
  | typeNotFound (t : String)
  | unknownLiteral (c : Char)
  | endless
  | panic
  deriving DecidableEq

/-- `astgraph.rs:21-46` `AstNode`. -/
inductive Node
  | op (name : String)
  | intrinsic (name : String) (ty : Option String)
  | defn (name : String) (ty : Option String)
  | flag (f : String)
  | arg (x : Word)
  | pound (c : Char)
  | expr
  deriving DecidableEq

/-- `:63-77` `Relation`. -/
inductive Rel
  | normal
  | keyed (ty : Option String)
  | term (i : Nat)
  deriving DecidableEq

structure Edge where
  src : Nat
  dst : Nat
  rel : Rel
  deriving DecidableEq

/-- The graph, nodes and edges in the order in which they are added, and the recursion detector (`:410-414`): the nodes of
typed definitions. -/
structure Graph where
  nodes : List Node
  edges : List Edge
  ids : List (Nat × String × String)
  deriving DecidableEq

def Graph.add (g : Graph) (n : Node) : Graph := { g with nodes := g.nodes ++ [n] }

def Graph.link (g : Graph) (a b : Nat) (r : Rel) : Graph := { g with edges := g.edges ++ [⟨a, b, r⟩] }

/-- `:405-408` `map_ty_tag`. -/
def checkTy (D : Defs) : Option String → Except Err Unit
  | none => .ok ()
  | some t => if D.isTy t then .ok () else .error (.typeNotFound t)

/-- Expressions still to be flattened, with their node (`:149-161`). -/
abbrev Queue := List (Nat × Expr)

/-- `:200-242`, the terms of a block. -/
def addTerms (D : Defs) (op : Nat) : List Term → Graph → Queue → Except Err (Graph × Queue)
  | [], g, q => .ok (g, q)
  | t :: ts, g, q =>
    match t with
    | .flag f => addTerms D op ts ((g.add (.flag f)).link op g.nodes.length .normal) q
    | .plain x => addTerms D op ts ((g.add (.arg x)).link op g.nodes.length .normal) q
    | .pound c =>
      if c ∈ ['n', 't', 'f', 'b', 'i'] then addTerms D op ts ((g.add (.pound c)).link op g.nodes.length .normal) q
      else .error (.unknownLiteral c)
    | .expr e =>
      match checkTy D e.out with
      | .ok () => addTerms D op ts ((g.add .expr).link op g.nodes.length .normal) (q ++ [(g.nodes.length, e)])
      | .error x => .error x

/-- `:174-243`, the blocks of an expression. -/
def addBlks (D : Defs) (root : Nat) : List Blk → Graph → Queue → Except Err (Graph × Queue)
  | [], g, q => .ok (g, q)
  | .mk op inTy outTy terms :: bs, g, q =>
    match op with
    | none => .error .panic
    | some op =>
      let n := g.nodes.length
      match checkTy D inTy with
      | .error x => .error x
      | .ok () =>
        match checkTy D outTy with
        | .error x => .error x
        | .ok () =>
          match addTerms D n terms ((g.add (.op op)).link root n .normal) q with
          | .error x => .error x
          | .ok (g, q) => addBlks D root bs g q

/-- `:163-244`: first in, first out. The number of rounds is bounded by the number of expressions, see `flatten`. -/
def flatLoop (D : Defs) : Nat → Queue → Graph → Except Err Graph
  | _, [], g => .ok g
  | 0, _ :: _, _ => .error .panic
  | f + 1, (root, e) :: q, g =>
    match addBlks D root e.blks g q with
    | .error x => .error x
    | .ok (g, q) => flatLoop D f q g

mutual
/-- The number of expressions in an expression. -/
def countE : Expr → Nat
  | .mk _ bs => 1 + countBs bs
def countBs : List Blk → Nat
  | [] => 0
  | b :: bs => countB b + countBs bs
def countB : Blk → Nat
  | .mk _ _ _ ts => countTs ts
def countTs : List Term → Nat
  | [] => 0
  | t :: ts => countT t + countTs ts
def countT : Term → Nat
  | .expr e => countE e
  | _ => 0
end

/-- `:128-247` `flatten_expr`; the node of the expression is the next free one. -/
def flatten (D : Defs) (e : Expr) (g : Graph) : Except Err Graph :=
  match checkTy D e.out with
  | .error x => .error x
  | .ok () => flatLoop D (countE e) [(g.nodes.length, e)] (g.add .expr)

/-- The nodes with an edge to a node. -/
def preds (g : Graph) (n : Nat) : List Nat := (g.edges.filter (·.dst = n)).map (·.src)

/-- `:444-451` `all_simple_paths` from the first node: all paths of bounded length. Edges lead to nodes with higher indices
(`edges_up`), so every path is simple and none is longer than the index of its end. A path without nodes in between is left
out by the code; it has no definition on it. -/
def paths (g : Graph) : Nat → Nat → List (List Nat)
  | 0, n => if n = 0 then [[0]] else []
  | k + 1, n => if n = 0 then [[0]] else (preds g n).flatMap fun p => (paths g k p).map (· ++ [n])

/-- `:444-462` `parent_ids`. -/
def parentIds (g : Graph) (n : Nat) : List (String × String) :=
  (paths g n n).flatMap fun p => p.flatMap fun d => (g.ids.filter (·.1 = d)).map (·.2)

def Node.isFlag : Node → Bool
  | .flag _ => true
  | _ => false

/-- The terms of an operation, flags or the others, in order (`:362-389`: `edges` lists the newest first, and it is
reversed). -/
def termsOf (g : Graph) (op : Nat) (flags : Bool) : List Nat :=
  ((g.edges.filter fun e => e.src = op ∧ e.rel = .normal).map (·.dst)).filter fun n =>
    (match g.nodes[n]? with
      | some x => x.isFlag
      | none => false) == flags

/-- `:365-389`: `Term(i as u8)`. -/
def linkTerms (cmd : Nat) : List (Nat × Nat) → Graph → Graph
  | [], g => g
  | (t, i) :: ts, g => linkTerms cmd ts (g.link t cmd (.term (i % 256)))

/-- `:359-389`: the operation and its terms are linked to the implementation. -/
def linkCmd (g : Graph) (op cmd : Nat) (ty : Option String) : Graph :=
  linkTerms cmd (termsOf g op false).zipIdx (linkTerms cmd (termsOf g op true).zipIdx (g.link op cmd (.keyed ty)))

/-- `:850-866` `Parameter::from_ast`. -/
def checkParams (D : Defs) : List Param → Except Err Unit
  | [] => .ok ()
  | p :: ps =>
    if p.ty = some "Expr" then checkParams D ps
    else
      match checkTy D p.ty with
      | .error x => .error x
      | .ok () => checkParams D ps

/-- `:348-351`, `:421-423` `add_id`. -/
def noteId (g : Graph) (c : Nat) (name : String) : Option String → Graph
  | some t => { g with ids := g.ids ++ [(c, name, t)] }
  | none => g

/-- `:304-355`: one implementation; whether it is added. `ps` are the definitions the operation is inside of. -/
def addImpl (D : Defs) (op : Nat) (name : String) (ps : List (String × String)) (g : Graph) (im : Impl) :
    Except Err (Graph × Bool) :=
  match im.defn with
  | none => .ok (linkCmd (g.add (.intrinsic name im.ty)) op g.nodes.length im.ty, true)
  | some (params, e) =>
    if im.ty.any fun t => (name, t) ∈ ps then .ok (g, false)
    else
      match checkParams D params with
      | .error x => .error x
      | .ok () =>
        let c := g.nodes.length
        match flatten D e (g.add (.defn name im.ty)) with
        | .error x => .error x
        | .ok g => .ok (linkCmd (noteId (g.link c (c + 1) .normal) c name im.ty) op c im.ty, true)

def addImpls (D : Defs) (op : Nat) (name : String) (ps : List (String × String)) :
    List Impl → Graph → Bool → Except Err (Graph × Bool)
  | [], g, b => .ok (g, b)
  | im :: ims, g, b =>
    match addImpl D op name ps g im with
    | .error x => .error x
    | .ok (g, c) => addImpls D op name ps ims g (b || c)

def Node.opName : Node → Option String
  | .op n => some n
  | _ => none

/-- `:277-396` `expand_def`. The definitions that the operation is inside of do not change while it is expanded, so they
are found first. -/
def expandDef (D : Defs) (g : Graph) (op : Nat) : Except Err (Graph × Bool) :=
  match (g.nodes[op]?).bind Node.opName with
  | none => .error .panic
  | some name =>
    match D.impls name with
    | [] => .error (.opNotFound name)
    | ims => addImpls D op name (parentIds g op) ims g false

/-- `:399-402` `op_expanded`. -/
def opExpanded (g : Graph) (op : Nat) : Bool :=
  g.edges.any fun e => e.src == op && (match e.rel with
    | .keyed _ => true
    | _ => false)

/-- `:259-265`: the operations that are not expanded. -/
def openOps (g : Graph) : List Nat :=
  (List.range g.nodes.length).filter fun n => ((g.nodes[n]?).bind Node.opName).isSome && !opExpanded g n

def expandOps (D : Defs) : List Nat → Graph → Bool → Except Err (Graph × Bool)
  | [], g, b => .ok (g, b)
  | op :: ops, g, b =>
    match expandDef D g op with
    | .error x => .error x
    | .ok (g, c) => expandOps D ops g (b || c)

/-- `:250-275` `expand_defs`. -/
def expandDefs (D : Defs) (g : Graph) : Except Err (Graph × Bool) := expandOps D (openOps g) g false

/-- `:114-120`, with how often the loop may still run. -/
def initLoop (D : Defs) : Nat → Graph → Except Err Graph
  | left, g =>
    match expandDefs D g with
    | .error x => .error x
    | .ok (g, false) => .ok g
    | .ok (g, true) =>
      match left with
      | 0 => .error .endless
      | left + 1 => initLoop D left g

/-- `:104-123` `init`, with `LOOPLIM` (`:93`). -/
def init (D : Defs) (e : Expr) : Except Err Graph :=
  match flatten D e ⟨[], [], []⟩ with
  | .error x => .error x
  | .ok g => initLoop D 128 g

/-- `:520-537` `get_impl`: of the edges from the operation, the newest first. -/
def getImpl (g : Graph) (op : Nat) (ty : String) : Option Nat :=
  let es := (g.edges.filter (·.src = op)).reverse
  match es.find? (·.rel = .keyed (some ty)) with
  | some e => some e.dst
  | none => ((es.filter (·.rel = .keyed none)).getLast?).map (·.dst)

/-- `:563-571`: the vector is filled in, growing as needed. -/
def fill : List (Nat × Nat) → List (Option Nat) → List (Option Nat)
  | [], v => v
  | (i, n) :: es, v =>
    let v := if v.length ≤ i then v ++ List.replicate (i + 1 - v.length) none else v
    fill es (v.set i (some n))

/-- `:555-561`: an argument or flag that is linked by this edge, with its index. -/
def pickTerm (g : Graph) (flags : Bool) (e : Edge) : Option (Nat × Nat) :=
  match e.rel, g.nodes[e.src]? with
  | .term i, some n => if n.isFlag == flags then some (i, e.src) else none
  | _, _ => none

/-- `:552-575` `get_terms`: `none` where the code panics. -/
def getTerms (g : Graph) (cmd : Nat) (flags : Bool) : Option (List Nat) :=
  (fill ((g.edges.filter (·.dst = cmd)).reverse.filterMap (pickTerm g flags)) []).mapM id

end Verif.Exp
