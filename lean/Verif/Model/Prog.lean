import Verif.Model.Expand
import Verif.Model.Cmds
/-! Model of what the compiler reads of the syntax graph (`ogma/src/eng/graphs/astgraph.rs:509-1078`), and of how it starts
(`ogma/src/eng/graphs/tygraph.rs:133-379`, `ogma/src/eng/comp/mod.rs:32-68`). -/
namespace Verif.Prog
open Verif Verif.Comp

/-! ### The syntax graph -/

/-- The edges from a node. `petgraph` lists the newest first. -/
def outEdges (g : Exp.Graph) (n : Nat) : List Exp.Edge := (g.edges.filter (·.src = n)).reverse

/-- The edges to a node. -/
def inEdges (g : Exp.Graph) (n : Nat) : List Exp.Edge := (g.edges.filter (·.dst = n)).reverse

def isOp : Exp.Node → Bool
  | .op _ => true
  | _ => false

def isExpr : Exp.Node → Bool
  | .expr => true
  | _ => false

def isDef : Exp.Node → Bool
  | .defn _ _ => true
  | _ => false

/-- Literals, other than `#i`, and variables. -/
def isLit : Exp.Node → Bool
  | .arg _ => true
  | .pound c => c ≠ 'i'
  | _ => false

/-- `astgraph.rs:586-603` `is_arg_node`, of what is below an operation. -/
def isArg : Exp.Node → Bool
  | .arg _ => true
  | .pound _ => true
  | .expr => true
  | _ => false

/-- `:811-813` `is_key`. -/
def isKey : Exp.Rel → Bool
  | .keyed _ => true
  | _ => false

def isTerm : Exp.Rel → Bool
  | .term _ => true
  | _ => false

/-- The node is of this kind. -/
def at' (g : Exp.Graph) (p : Exp.Node → Bool) (n : Nat) : Bool := (g.nodes[n]?).any p

/-- All nodes of a kind (`:627-645`). -/
def numbered (g : Exp.Graph) (p : Exp.Node → Bool) : List Nat := (List.range g.nodes.length).filter (at' g p)

/-- Where the first edge comes from. The code panics if there is none. -/
def srcOf (es : List Exp.Edge) : Nat := (es.head?.map (·.src)).getD 0

/-- `:912-930` `next`, `:1057-1064` `first_op`, `tygraph.rs:220-235`: the blocks of an expression, in the order written. -/
def blocks (g : Exp.Graph) (e : Nat) : List Nat := (((outEdges g e).map (·.dst)).filter (at' g isOp)).reverse

/-- `astgraph.rs:902-909` `parent`. -/
def parent (g : Exp.Graph) (op : Nat) : Nat := srcOf ((inEdges g op).filter fun e => e.rel = .normal ∧ at' g isExpr e.src)

/-- `:959-966` `op`. -/
def opOf (g : Exp.Graph) (a : Nat) : Nat := srcOf ((inEdges g a).filter (·.rel = .normal))

/-- `:986-993` `parent`. -/
def owner (g : Exp.Graph) (d : Nat) : Nat := srcOf ((inEdges g d).filter fun e => isKey e.rel)

/-- `:1028-1035` `expr`. -/
def body (g : Exp.Graph) (d : Nat) : Nat := ((outEdges g d).head?.map (·.dst)).getD 0

/-- `:942-950` `cmds`. -/
def impls (g : Exp.Graph) (op : Nat) : List Exp.Edge := (outEdges g op).filter fun e => isKey e.rel

/-- `:540-548` `get_args` and `get_flags`, of the first implementation; all have the same (`same_terms`). -/
def terms (g : Exp.Graph) (op : Nat) (flags : Bool) : List Nat :=
  (((impls g op).head?).bind fun e => Exp.getTerms g e.dst flags).getD []

/-- There is a path (`petgraph::algo::has_path_connecting`) of at most this length. -/
def reaches (g : Exp.Graph) : Nat → Nat → Nat → Bool
  | 0, a, b => a == b
  | k + 1, a, b => a == b || (outEdges g a).any fun e => reaches g k e.dst b

/-- The edge to a node other than from its arguments. -/
def above (g : Exp.Graph) (n : Nat) : Option Exp.Edge := ((inEdges g n).filter fun e => !isTerm e.rel).head?

/-- `:606-622` `path_from_root`; the first argument bounds its length. -/
def pathTo (g : Exp.Graph) : Nat → Nat → List Nat
  | 0, n => [n]
  | k + 1, n => if n = 0 then [0] else match above g n with
    | none => [n]
    | some e => pathTo g k e.src ++ [n]

/-- The last step to the end of an edge. -/
def mark (g : Exp.Graph) (e : Exp.Edge) : Loc.Mark :=
  if at' g isExpr e.src then .blk ((blocks g e.src).idxOf e.dst)
  else if at' g isOp e.src && at' g isArg e.dst then .arg e.dst
  else .body e.dst

/-- Where a node is, for the graph of local variables (`locals_graph.rs:78-134`): blocks have their position, the others their
number. Flags and implementations get no variables; they are placed as the expressions of definitions are. -/
def placeOf (g : Exp.Graph) : Nat → Nat → Loc.Node
  | 0, _ => []
  | k + 1, n => if n = 0 then [] else match above g n with
    | none => []
    | some e => mark g e :: placeOf g k e.src

/-! ### Types -/

/-- The types: of this name, those of literals, and all of them. -/
structure Types (T : Type) where
  get : String → T
  str : T
  num : T
  bool : T
  nil : T
  all : List T

variable {T : Type} [DecidableEq T]

/-- `astgraph.rs:850-866` `from_ast`. -/
def paramTy (Y : Types T) : Option String → Blk.PTy T
  | none => .any
  | some t => if t = "Expr" then .expr else .ty (Y.get t)

/-- The parameters of a definition. The code keeps them with its node; here they are looked up. A command has at most one
implementation for a type (`impls/mod.rs`). -/
def paramsOf (D : Exp.Defs) (f : String) (ty : Option String) : List Exp.Param :=
  match (D.impls f).find? fun im => im.ty = ty ∧ im.defn.isSome with
  | some ⟨_, some (ps, _)⟩ => ps
  | _ => []

/-- An implementation; `fn` numbers the built-in ones. -/
def cmdAt (Y : Types T) (fn : String → Option String → Nat) (g : Exp.Graph) (e : Exp.Edge) : Option (Option T × Cmd) :=
  match e.rel, g.nodes[e.dst]? with
  | .keyed t, some (.intrinsic f ty) => some (t.map Y.get, .intrinsic (fn f ty))
  | .keyed t, some (.defn _ _) => some (t.map Y.get, .defn e.dst)
  | _, _ => none

def paramsAt (D : Exp.Defs) (Y : Types T) (g : Exp.Graph) (d : Nat) : List (String × Blk.PTy T) :=
  match g.nodes[d]? with
  | some (.defn f ty) => (paramsOf D f ty).map fun p => (p.name, paramTy Y p.ty)
  | _ => []

/-- What the compiler reads of the syntax graph. -/
def ast (D : Exp.Defs) (Y : Types T) (fn : String → Option String → Nat) (g : Exp.Graph) : Ast T where
  places := (List.range g.nodes.length).map fun n => placeOf g (n + 1) n
  exprs := numbered g isExpr
  ops := numbered g isOp
  blocks := blocks g
  parent := parent g
  args op := terms g op false
  opOf := opOf g
  cmds op := (impls g op).filterMap (cmdAt Y fn g)
  owner := owner g
  body := body g
  params := paramsAt D Y g
  flagged op := terms g op true ≠ []
  lits := numbered g isLit
  var n := match g.nodes[n]? with
    | some (.arg (.var x)) => some x
    | _ => none
  under a b := reaches g g.nodes.length a b
  path n := pathTo g n n

/-! ### The type graph -/

/-- `tygraph.rs:155-196`, `astgraph.rs:796-804`: the type of a literal. -/
def leafTy (Y : Types T) : Exp.Node → Option T
  | .arg (.ident _) => some Y.str
  | .arg (.num _) => some Y.num
  | .pound c => if c = 'n' then some Y.nil else if c = 't' ∨ c = 'f' then some Y.bool else if c = 'b' then some Y.str else none
  | _ => none

/-- `tygraph.rs:180-196`: the type an implementation is for. -/
def keyTy (g : Exp.Graph) (n : Nat) : Option String :=
  (inEdges g n).findSome? fun e => match e.rel with
    | .keyed t => t
    | _ => none

/-- `HashSet::insert`. -/
def setInsert (t : T) (ts : List T) : List T := if t ∈ ts then ts else ts ++ [t]

/-- `:350-373` `reduce_inferred_sets_given_def_constraints`: the types the implementations are for, unless there is one for all. -/
def keys (Y : Types T) : List Exp.Edge → List T → Option (List T)
  | [], ts => some ts
  | e :: es, ts => match e.rel with
    | .keyed (some t) => keys Y es (setInsert (Y.get t) ts)
    | _ => none

/-- `:350-373`, an operation. -/
def reduced (Y : Types T) (es : List Exp.Edge) : Ty.Kn T :=
  if 1 < Y.all.length then match keys Y es [] with
    | some ts => .inferred ts
    | none => .inferred Y.all
  else .inferred Y.all

/-- `:133-152` `build`, `:155-196` `apply_ast_types`, `:350-373`, `:375-379` `set_root_input_ty`: what is known of the input ... -/
def knInp (Y : Types T) (g : Exp.Graph) (root : T) (n : Nat) : Ty.Kn T :=
  if n = 0 then .known root
  else match g.nodes[n]? with
    | none => .inferred Y.all
    | some x => match leafTy Y x, keyTy g n with
      | _, some t => .known (Y.get t)
      | some _, none => .any
      | none, none => if isOp x then reduced Y (impls g n) else .inferred Y.all

/-- ... and of the output of a node. -/
def knOut (Y : Types T) (g : Exp.Graph) (n : Nat) : Ty.Kn T :=
  match (g.nodes[n]?).bind (leafTy Y) with
  | some t => .known t
  | none => .inferred Y.all

def knStart (Y : Types T) (g : Exp.Graph) (root : T) (n : Nat) : Ty.Side → Ty.Kn T
  | .inp => knInp Y g root n
  | .out => knOut Y g n

/-- `:236-250`: from each block to the next. -/
def pairs : List Nat → List Ty.Edge
  | a :: b :: l => pairs (b :: l) ++ [⟨a, b, .oi⟩]
  | _ => []

/-- `:212-270` `apply_ast_edges`, without those of definitions. -/
def flowEdges (g : Exp.Graph) : List Ty.Edge :=
  ((numbered g isExpr).filterMap fun e => (blocks g e).head?.map fun op => ⟨e, op, .ii⟩) ++
  ((numbered g isExpr).filterMap fun e => (blocks g e).getLast?.map fun op => ⟨op, e, .oo⟩) ++
  ((numbered g isExpr).flatMap fun e => pairs (blocks g e)) ++
  ((numbered g fun x => x = .pound 'i').flatMap fun n => [⟨opOf g n, n, .ii⟩, ⟨opOf g n, n, .io⟩])

/-- `:315-347` `link_def_arg_terms_with_ii_inner`, the arguments that are linked: those that all definitions evaluate at the
call. -/
def callArgs (pss : List (List (Blk.PTy T))) (as : List Nat) : List Nat :=
  (as.zipIdx.filter fun x => pss.all fun ps => (ps[x.2]?).any atCall).map (·.1)

/-- `:272-305` `apply_ast_edges_defs`. -/
def defEdges (A : Ast T) (g : Exp.Graph) (s : Ty.State T) (d : Nat) : Ty.State T :=
  let op := A.owner d
  let all := impls g op
  let keyedNone := all.any fun e => e.dst = d ∧ e.rel = .keyed none
  let s := { s with edges := s.edges ++ [⟨d, A.body d, .ii⟩, ⟨A.body d, d, .oo⟩] ++
    (if keyedNone then [⟨op, d, .ii⟩] else []) ++ (if keyedNone || all.length == 1 then [⟨d, op, .oo⟩] else []) }
  if all.all fun e => at' g isDef e.dst then
    (callArgs (all.map fun e => (A.params e.dst).map (·.2)) (A.args op)).foldl (link1 op) s
  else s

/-- `comp/mod.rs:116-123` `init_tg`. -/
def typeGraph (A : Ast T) (Y : Types T) (g : Exp.Graph) (root : T) : Ty.State T :=
  (numbered g isDef).foldl (defEdges A g) ⟨knStart Y g root, flowEdges g, [], []⟩

/-! ### The compiler -/

/-- `comp/mod.rs:32-68` `compile_with_seed_vars`, the compiler before the annotated types are applied; they do not affect the
graph of locals, so the variables given with the program are put there first. -/
def start (A : Ast T) (Y : Types T) (g : Exp.Graph) (root : T) (seeds : List (String × T)) : S T where
  tg := typeGraph A Y g root
  lg := Loc.seed A.places (seeds.map (·.1))
  slots := seeds.map (·.2)
  steps := []
  exprs := []
  callsite := []
  outs := []
  depth := 0

/-- The types that are annotated: of an operation or an expression (`astgraph.rs:170-198`), or types without a name
(`comp/mod.rs:61-62`). -/
inductive Note (T : Type)
  | oblige (n : Nat) (sd : Ty.Side) (t : T)
  | anon (t : T)

def Note.chg : Note T → Chg T
  | .oblige n sd t => .ty (.oblige n sd t)
  | .anon t => .ty (.anonTy t)

/-- `comp/mod.rs:58-64`: the annotated types are applied; with an expression without blocks the code panics before that
(`locals_graph.rs:119`, `astgraph.rs:1055`). -/
def begins (A : Ast T) (Y : Types T) (g : Exp.Graph) (root : T) (seeds : List (String × T)) (notes : List (Note T)) : Except Err (S T) :=
  if (A.exprs.any fun e => (A.blocks e).isEmpty) then .error .crash
  else match applyAll A (start A Y g root seeds) false (notes.map Note.chg) with
    | .ok r => .ok r.1
    | .error e => .error e

end Verif.Prog
