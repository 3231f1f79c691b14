/-! Model of the graph of local variables (`ogma/src/eng/graphs/locals_graph.rs`). -/
namespace Verif.Loc

/-- A step down the syntax tree: to the `j`th block of an expression, the `i`th argument of a block, or the body of the
`k`th definition a block may call. -/
inductive Mark
  | blk (j : Nat)
  | arg (i : Nat)
  | body (k : Nat)
  deriving DecidableEq

/-- A node of the syntax graph is the way to it, innermost step first: `[]` is the root expression, `blk j :: p` a block
of the expression `p`, `arg i :: q` an argument of the block `q` (and an expression, if the argument is one),
`body k :: q` the expression of a definition. The code numbers nodes; only their edges matter here. -/
abbrev Node := List Mark

/-- `locals_graph.rs:86-134` `init_edges`, the flow edges, backwards: blocks get variables from the block before or else
from the expression, arguments from their block; nothing crosses into the body of a definition. -/
def par : Node → Option Node
  | [] => none
  | .blk 0 :: p => some p
  | .blk (j + 1) :: p => some (.blk j :: p)
  | .arg _ :: q => some q
  | .body _ :: _ => none

/-- `init_edges`, the seal edges: a block asks the block before or else the expression; an argument asks its block and
whatever its block asks. -/
def sealEdges : Node → List Node
  | [] => []
  | .blk 0 :: p => [p]
  | .blk (j + 1) :: p => [.blk j :: p]
  | .arg _ :: q => q :: (par q).toList
  | .body _ :: _ => []

/-- `:15-19`: the entry of a name: which local, and where it was defined. -/
structure Loc where
  loc : Nat
  defined : Node
  deriving DecidableEq

/-- `:5`. -/
abbrev Map := String → Option Loc

/-- `ogma/src/eng/var.rs:8-11`: a variable with its place in the environment, or a pointer to an argument. Types and tags
are left out. -/
inductive Local
  | var (slot : Nat)
  | ptr (to : Node)
  deriving DecidableEq

/-- `:58-63`. The indices of locals are `u32`; here they are unbounded. -/
structure State where
  maps : Node → Map
  isSealed : Node → Bool
  seals : Node → List Node
  locals : List Local
  count : Nat

/-- `:500-516` `accrete`, name by name. -/
def accrete (src dst : Map) (n : Node) : Map := fun k =>
  match src k, dst k with
  | none, d => d
  | some v, none => some v
  | some v, some d => if d.defined ≠ n then some v else some d

def setMap (m : Node → Map) (n : Node) (x : Map) : Node → Map := fun n' => if n' = n then x else m n'

/-- `:319-324` `neighbours_flow`. -/
def kids (nodes : List Node) (n : Node) : List Node := nodes.filter fun m => par m = some n

/-- `:339-346` the loop of `flow`. The first argument bounds the number of rounds. -/
def flowLoop (nodes : List Node) : Nat → List (Node × Node) → (Node → Map) → (Node → Map)
  | 0, _, m => m
  | _ + 1, [], m => m
  | f + 1, (a, b) :: st, m =>
    flowLoop nodes f (((kids nodes b).map fun c => (b, c)).reverse ++ st) (setMap m b (accrete (m a) (m b) b))

/-- `:333-347` `flow`: no more rounds than there are nodes. -/
def flow (nodes : List Node) (n : Node) (m : Node → Map) : Node → Map :=
  flowLoop nodes nodes.length (((kids nodes n).map fun c => (n, c)).reverse) m

/-- `:76-92, 107, 131` `build`: arguments and the root expression are sealed. -/
def build : State where
  maps _ _ := none
  isSealed n := match n with
    | [] => true
    | .arg _ :: _ => true
    | _ => false
  seals := sealEdges
  locals := []
  count := 0

/-- `:366-375`, `:377-388`: put a new local into the map of a node. -/
def define (s : State) (name : String) (l : Local) (n : Node) : State :=
  { s with
    maps := setMap s.maps n fun k => if k = name then some ⟨s.locals.length, n⟩ else s.maps n k
    locals := s.locals ++ [l] }

/-- `:357-375` `add_new_var`. -/
def addVar (s : State) (name : String) (n : Node) : State :=
  { define s name (.var s.count) n with count := s.count + 1 }

/-- `:139-170` `seed`: variables of the root, then one `flow`. The variables were numbered from 0 (`var.rs:134-141`). -/
def seed (nodes : List Node) (names : List String) : State :=
  let s := names.foldl (fun s name => addVar s name []) build
  { s with maps := flow nodes [] s.maps }

/-- `:28-50` `Chg`, and `seal` (`:408-410`). -/
inductive Chg
  | newVar (name : String) (n : Node)
  | newLazy (name : String) (to : Node) (n : Node)
  | seal (op : Node)
  | breakEdge (op arg : Node)
  | sealExpr (e : Node)

/-- `:279-316` `apply_chg`. -/
def apply (nodes : List Node) (s : State) : Chg → State
  | .newVar name n => let s := addVar s name n; { s with maps := flow nodes n s.maps }
  | .newLazy name to n => let s := define s name (.ptr to) n; { s with maps := flow nodes n s.maps }
  | .seal op => { s with isSealed := fun n => n = op || s.isSealed n }
  | .breakEdge op arg => { s with seals := fun n => if n = arg then (s.seals n).filter (· ≠ op) else s.seals n }
  | .sealExpr e => { s with isSealed := fun n => n = e || s.isSealed n }

def run (nodes : List Node) (names : List String) (h : List Chg) : State := h.foldl (apply nodes) (seed nodes names)

/-- Seal edges lead to smaller nodes. -/
def size : Node → Nat
  | [] => 0
  | .blk j :: p => j + 1 + size p
  | .arg _ :: p => 1 + size p
  | .body _ :: p => 1 + size p

/-- `:391-404` `sealed`: the node and everything its seal edges lead to is sealed. The code visits the nodes in
breadth-first order; the first argument bounds the way. -/
def sealedIn (s : State) : Nat → Node → Bool
  | 0, n => s.isSealed n
  | f + 1, n => s.isSealed n && (s.seals n).all (sealedIn s f)

def isSealedAt (s : State) (n : Node) : Bool := sealedIn s (size n) n

/-- `:176-183` `get_`. -/
def getAny (s : State) (n : Node) (k : String) : Option Local := (s.maps n k).bind fun l => s.locals[l.loc]?

/-- `:202-207` `get_opt`, `:187-196` `get`; `none`: not yet known. -/
def get (s : State) (n : Node) (k : String) : Option (Option Local) :=
  if isSealedAt s n then some (getAny s n k) else none

/-- `:221-243` `new_var`: the variable the node already defines, or `none` for a change. -/
def newVar (s : State) (n : Node) (k : String) : Option (Option Local) :=
  ((s.maps n k).filter fun l => l.defined = n).map fun l => s.locals[l.loc]?

end Verif.Loc
