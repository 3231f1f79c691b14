import Verif.Model.Nom
import Verif.Model.Map
/-! Model of the partition graph: `ogma/src/lang/defs2/partitions/{mod,node,item,partset}.rs` and the
lookups of `ogma/src/lang/defs2/mod.rs:182-330`. Ids are natural numbers (`u32` in the code). Glob
compilation (`globset`) is a parameter. -/
namespace Verif.Part

/-- `mod.rs:22-27` `Item`. Part sets are their id lists. -/
inductive Item
  | boundary (exports children : List Nat)
  | type_ (imports : List Nat)
  | impl (imports : List Nat)
deriving DecidableEq, Repr

/-- `mod.rs:15-20` `Node`. -/
structure Node where
  name : String
  parent : Option Nat
  item : Item
deriving DecidableEq, Repr

/-- `item.rs:12-22`. -/
def Item.isBoundary : Item → Bool
  | .boundary _ _ => true
  | _ => false
def Item.isType : Item → Bool
  | .type_ _ => true
  | _ => false
def Item.isImpl : Item → Bool
  | .impl _ => true
  | _ => false

/-- `item.rs:24-38`. -/
def Item.exports : Item → List Nat
  | .boundary es _ => es
  | _ => []
def Item.imports : Item → List Nat
  | .boundary _ _ => []
  | .type_ is => is
  | .impl is => is
/-- The children of a boundary. -/
def Item.children : Item → List Nat
  | .boundary _ cs => cs
  | _ => []

/-- `mod.rs:35` `Partitions`: a flat list of nodes. -/
abbrev Parts := List Node

/-- A reported error or a panic. -/
inductive Bad
  | err | panic
deriving DecidableEq, Repr

/-- `mod.rs:62-81` `new`. -/
def new : Parts := [⟨"<root>", none, .boundary [] []⟩, ⟨"<shell>", none, .boundary [] []⟩,
  ⟨"<plugins>", none, .boundary [] []⟩]

/-- A test on a node; `false` for an id that is not there (the code would panic). -/
def is (ps : Parts) (p : Node → Bool) (i : Nat) : Bool := (ps[i]?).any p

/-- `mod.rs:222-227` `children`: panics when the node is not a boundary. -/
def children (ps : Parts) (b : Nat) : Except Bad (List Nat) :=
  match ps[b]? with
  | some n => if n.item.isBoundary then .ok n.item.children else .error .panic
  | none => .error .panic

/-- `node.rs:20-26`. -/
def eqBoundary (name : String) (n : Node) : Bool := n.item.isBoundary && n.name == name
def eqType (name : String) (n : Node) : Bool := n.item.isType && n.name == name

def addChild (c : Nat) (n : Node) : Node :=
  match n.item with
  | .boundary es cs => { n with item := .boundary es (cs ++ [c]) }
  | _ => n

/-- `mod.rs:174-189` `add_node`. -/
def addNode (ps : Parts) (parent : Nat) (name : String) (item : Item) : Parts × Nat :=
  (List.modify (ps ++ [⟨name, some parent, item⟩]) parent (addChild ps.length), ps.length)

def partFirst (c : Char) : Bool := c == '_' || c.isAlpha
def partChar (c : Char) : Bool := c == '-' || c == '_' || c.isAlphanum

/-- `mod.rs:606-638` `is_valid_part_name`. -/
def validName (n : String) : Bool :=
  match n.toList with
  | [] => false
  | c :: cs => partFirst c && cs.all partChar

/-- `mod.rs:199-220` `get_or_create_boundary_path`. A component that is not UTF-8 is the empty name: it
matches no boundary and is not valid. -/
def boundaryPath : Parts → List String → Nat → Except Bad (Parts × Nat)
  | ps, [], a => .ok (ps, a)
  | ps, p :: path, a =>
    (children ps a).bind fun cs =>
      match cs.find? (is ps (eqBoundary p)) with
      | some b => boundaryPath ps path b
      | none =>
        if validName p then
          let (ps, b) := addNode ps a p (.boundary [] [])
          boundaryPath ps path b
        else .error .err

/-- `mod.rs:229-244` `add_type`. -/
def addType (ps : Parts) (parent : Nat) (name : String) : Except Bad (Parts × Nat) :=
  (children ps parent).bind fun cs =>
    if cs.any (is ps (eqType name)) then .error .err else .ok (addNode ps parent name (.type_ []))

/-- `mod.rs:246-256` `add_impl`. -/
def addImpl (ps : Parts) (parent : Nat) (name : String) : Parts × Nat := addNode ps parent name (.impl [])

/-! ### Part sets -/

/-- `Vec::dedup`. -/
def dedup : List Nat → List Nat
  | [] => []
  | a :: l => match dedup l with
    | [] => [a]
    | b :: l => if a = b then b :: l else a :: b :: l

def rank : Item → Nat
  | .boundary _ _ => 0
  | .type_ _ => 1
  | .impl _ => 2

/-- `partset.rs:73-93` `node_cmp`, as "not greater". -/
def nodeLe (a b : Node) : Bool :=
  decide (a.name < b.name) || (a.name == b.name && decide (rank a.item ≤ rank b.item))

/-- `nodeLe` on ids. An id that is not there (a panic in the code) is put last. -/
def idLe (ps : Parts) (a b : Nat) : Bool :=
  match ps[a]?, ps[b]? with
  | some a, some b => nodeLe a b
  | none, some _ => false
  | _, none => true

/-- `partset.rs:22-32` `from_vec`: the sorts are stable. -/
def fromVec (ids : List Nat) (ps : Parts) : List Nat :=
  if ids.isEmpty then []
  else (dedup (ids.mergeSort (fun a b => decide (a ≤ b)))).mergeSort (idLe ps)

/-- `slice::partition_point` by bisection of `lo..hi`. -/
def bisect (l : List Nat) (p : Nat → Bool) : Nat → Nat → Nat → Nat
  | 0, lo, _ => lo
  | fuel + 1, lo, hi =>
    if lo < hi then
      let mid := (lo + hi) / 2
      match l[mid]? with
      | some x => if p x then bisect l p fuel (mid + 1) hi else bisect l p fuel lo mid
      | none => lo
    else lo
def partitionPoint (l : List Nat) (p : Nat → Bool) : Nat := bisect l p l.length 0 l.length

/-- `partset.rs:44-57` `find`. -/
def setFind (ps : Parts) (s : List Nat) (name : String) : List Nat :=
  let lwr := partitionPoint s (is ps fun n => decide (n.name < name))
  let upr := partitionPoint s (is ps fun n => decide (n.name ≤ name))
  (s.take upr).drop lwr

/-! ### Exports and imports -/

/-- `globset`: a pattern gives a test on names, or is invalid. -/
abbrev Glob := String → Option (String → Bool)

/-- `mod.rs:436-456` `glob_find`. -/
def globFind (g : Glob) (ps : Parts) (parent : Nat) (pat : String) : Except Bad (List Nat) :=
  match g pat with
  | none => .error .err
  | some m => (children ps parent).map fun cs => cs.filter (is ps fun n => m n.name)

/-- `mod.rs:269-286`: the ids to export, one glob after the other. -/
def exportIds (g : Glob) (ps : Parts) (b : Nat) : List String → List Nat → Except Bad (List Nat)
  | [], xs => .ok xs
  | e :: es, xs =>
    (globFind g ps b e).bind fun ys =>
      let ys := ys.filter fun n => !is ps (·.item.isBoundary) n
      if ys.isEmpty then .error .err else exportIds g ps b es (xs ++ ys)

def setExports (xs : List Nat) (n : Node) : Node :=
  match n.item with
  | .boundary _ cs => { n with item := .boundary xs cs }
  | _ => n

/-- `mod.rs:258-294` `add_exports`. -/
def addExports (g : Glob) (ps : Parts) (b : Nat) (es : List String) : Except Bad Parts :=
  if es.isEmpty then .ok ps
  else match ps[b]? with
    | some n =>
      if n.item.isBoundary then
        (exportIds g ps b es n.item.exports).map fun xs => ps.modify b (setExports (fromVec xs ps))
      else .error .panic
    | none => .error .panic

/-- `file.rs` `Prefix`. -/
inductive Prefix
  | none | root | plugins
deriving DecidableEq, Repr

/-- `file.rs` `Import`. -/
structure Import where
  pre : Prefix
  path : List String
  glob : String
deriving DecidableEq, Repr

/-- `mod.rs:371-421` `find_boundary`. -/
def findBoundary (ps : Parts) : Nat → List String → Except Bad Nat
  | a, [] => .ok a
  | a, p :: path =>
    if p = ".." then
      match ps[a]? with
      | some n => match n.parent with
        | some x => findBoundary ps x path
        | none => .error .err
      | none => .error .panic
    else
      (children ps a).bind fun cs =>
        match cs.find? (is ps (eqBoundary p)) with
        | some b => findBoundary ps b path
        | none => .error .err

/-- `mod.rs:350-354`. -/
def importFrom (this : Nat) (i : Import) : Nat :=
  match i.pre with
  | .none => this
  | .root => 0
  | .plugins => 2

/-- `mod.rs:344-369` `resolve_import`. -/
def resolveImport (g : Glob) (ps : Parts) (this : Nat) (i : Import) : Except Bad (List Nat) :=
  (findBoundary ps (importFrom this i) i.path).bind fun bnd =>
    match ps[bnd]? with
    | some n =>
      if n.item.isBoundary then
        (globFind g ps bnd i.glob).map fun xs =>
          (xs.filter (· != this)).filter fun x => is ps (·.item.isBoundary) x || n.item.exports.contains x
      else .error .panic
    | none => .error .panic

/-- `mod.rs:320-342` `resolve_imports`. -/
def resolveImports (g : Glob) (ps : Parts) (this : Nat) : List Import → List Nat → Except Bad (List Nat)
  | [], v => .ok v
  | i :: is, v =>
    (resolveImport g ps this i).bind fun x => if x.isEmpty then .error .err else resolveImports g ps this is (v ++ x)

def setImports (xs : List Nat) (n : Node) : Node :=
  match n.item with
  | .boundary _ _ => n
  | .type_ _ => { n with item := .type_ xs }
  | .impl _ => { n with item := .impl xs }

/-- `mod.rs:296-318` `add_imports`. -/
def addImports (g : Glob) (ps : Parts) (b : Nat) (is : List Import) (to : List Nat) : Except Bad Parts :=
  if is.isEmpty then .ok ps
  else (resolveImports g ps b is []).map fun xs =>
    to.foldl (fun qs n => qs.modify n (setImports (fromVec xs ps))) ps

/-! ### Extending the graph -/

/-- The parts of a parsed file that matter here. -/
structure FileDef where
  imports : List Import
  exports : List String
  types : List String
  impls : List String
deriving DecidableEq, Repr

/-- What the first phase collects for the others. -/
structure Acc where
  ps : Parts
  exports : AMap Nat (List String)
  imports : List (Nat × List Import × List Nat)

def addTypes : Parts → Nat → List String → Except Bad (Parts × List Nat)
  | ps, _, [] => .ok (ps, [])
  | ps, b, n :: ns => (addType ps b n).bind fun (ps, i) => (addTypes ps b ns).map fun (ps, is) => (ps, i :: is)

def addImpls : Parts → Nat → List String → Parts × List Nat
  | ps, _, [] => (ps, [])
  | ps, b, n :: ns =>
    let (ps, i) := addImpl ps b n
    let (ps, is) := addImpls ps b ns
    (ps, i :: is)

/-- `mod.rs:108-152`: one file of the partition `b`. -/
def addFileDef (b : Nat) (s : Acc) (f : FileDef) : Except Bad Acc :=
  let exports := if f.exports.isEmpty then s.exports
    else AMap.insert s.exports b ((AMap.get s.exports b).getD [] ++ f.exports)
  (addTypes s.ps b f.types).map fun (ps, ts) =>
    let (ps, is) := addImpls ps b f.impls
    let ns := ts ++ is
    ⟨ps, exports, if ns.isEmpty || f.imports.isEmpty then s.imports else s.imports ++ [(b, f.imports, ns)]⟩

def addFiles (b : Nat) : Acc → List FileDef → Except Bad Acc
  | s, [] => .ok s
  | s, f :: fs => (addFileDef b s f).bind fun s => addFiles b s fs

/-- `mod.rs:96-153`: the first phase, over the partitions in path order. -/
def phase1 : Acc → List (List String × List FileDef) → Except Bad Acc
  | s, [] => .ok s
  | s, (p, fs) :: m =>
    (boundaryPath s.ps p 0).bind fun (ps, b) => (addFiles b { s with ps := ps } fs).bind fun s => phase1 s m

/-- `mod.rs:158-160`. -/
def phase2 (g : Glob) : Parts → List (Nat × List String) → Except Bad Parts
  | ps, [] => .ok ps
  | ps, (b, es) :: l => (addExports g ps b es).bind fun ps => phase2 g ps l

/-- `mod.rs:163-165`. -/
def phase3 (g : Glob) : Parts → List (Nat × List Import × List Nat) → Except Bad Parts
  | ps, [] => .ok ps
  | ps, (b, is, ns) :: l => (addImports g ps b is ns).bind fun ps => phase3 g ps l

/-- `mod.rs:95-168` `extend_root`. The exports are visited in the order `order` gives, since the code
iterates a hash map there. -/
def extendRoot (g : Glob) (order : List (Nat × List String) → List (Nat × List String)) (ps : Parts)
    (m : List (List String × List FileDef)) : Except Bad Parts :=
  (phase1 ⟨ps, [], []⟩ m).bind fun s => (phase2 g s.ps (order s.exports)).bind fun ps => phase3 g ps s.imports

/-! ### Lookups -/

/-- Where a path starts (`mod.rs:493-513`). -/
inductive Start
  | plugins | root | rel
deriving DecidableEq, Repr

/-- `str::split('/')`. -/
def splitSlash : List Char → List (List Char)
  | [] => [[]]
  | c :: cs =>
    if c = '/' then [] :: splitSlash cs
    else match splitSlash cs with
      | [] => [[c]]
      | w :: ws => (c :: w) :: ws

def parsePath : List Char → Start × List String
  | '/' :: '/' :: r => (.plugins, (splitSlash r).map String.ofList)
  | '/' :: r => (.root, (splitSlash r).map String.ofList)
  | r => (.rel, (splitSlash r).map String.ofList)

/-- `mod.rs:517-535`: one component applied to all the current items. -/
def walk1 (ps : Parts) (bs : List Nat) (x : String) : List Nat :=
  if x = ".." then bs.filterMap fun n => (ps[n]?).bind (·.parent)
  else ((bs.filterMap fun n => (ps[n]?).bind fun n => if n.item.isBoundary then some n.item.children else none).flatten).filter
    (is ps fun n => n.name == x)

/-- `mod.rs:498-513`: the first component of a relative path. -/
def firstStep (ps : Parts) (within : Nat) (imports : List Nat) (fst : String) : Except Bad (List Nat) :=
  if fst = ".." then
    match ps[within]? with
    | some n => .ok n.parent.toList
    | none => .error .panic
  else (children ps within).map fun cs => cs.filter (is ps fun n => n.name == fst) ++ setFind ps imports fst

/-- `mod.rs:490-544` `find`. -/
def find (ps : Parts) (within : Nat) (imports : List Nat) (path : Start × List String) : Except Bad (List Nat) :=
  let start : Except Bad (List Nat × List String) := match path with
    | (.plugins, cs) => .ok ([2], cs)
    | (.root, cs) => .ok ([0], cs)
    | (.rel, []) => .error .panic
    | (.rel, c :: cs) => (firstStep ps within imports c).map fun bs => (bs, cs)
  start.map fun (bs, cs) => dedup ((cs.foldl (walk1 ps) bs).mergeSort fun a b => decide (a ≤ b))

/-- `mod.rs:546-554` `bnd_and_imports`. -/
def bndAndImports (ps : Parts) (i : Nat) : Except Bad (Nat × List Nat) :=
  match ps[i]? with
  | none => .error .panic
  | some n => match n.parent with
    | none => .ok (0, [])
    | some x => .ok (x, n.item.imports)

/-- `mod.rs:464-488` `find_types`, `find_impls`, from the scope of item `i`. -/
def lookup (ps : Parts) (kind : Item → Bool) (i : Nat) (path : List Char) : Except Bad (List Nat) :=
  (bndAndImports ps i).bind fun (b, is') => (find ps b is' (parsePath path)).map fun xs =>
    xs.filter (is ps fun n => kind n.item)

/-! ### Choosing among the candidates, `defs2/mod.rs` -/

/-- The result of a lookup. -/
inductive Choice (α : Type)
  | found (a : α)
  | ambiguous
  | notFound
deriving DecidableEq, Repr

/-- `defs2/mod.rs:205-249`: the loop of `Impls::get` over the candidates, each with its input type. -/
def chooseLoop {T α : Type} [DecidableEq T] (t : T) : List (Option T × α) → Option α → Option α → Choice α
  | [], found, ambig => match found, ambig with
    | some x, _ => .found x
    | none, some x => .found x
    | none, none => .notFound
  | (some u, a) :: cs, found, ambig =>
    if u = t then match found with
      | some _ => .ambiguous
      | none => chooseLoop t cs (some a) ambig
    else chooseLoop t cs found ambig
  | (none, a) :: cs, found, ambig => match ambig with
    | some _ => .ambiguous
    | none => chooseLoop t cs found (some a)

def chooseImpl {T α : Type} [DecidableEq T] (t : T) (cs : List (Option T × α)) : Choice α :=
  chooseLoop t cs none none

/-- `defs2/mod.rs:276-308` `Types::get`. -/
def chooseType {α : Type} : List α → Choice α
  | [] => .notFound
  | [a] => .found a
  | _ :: _ :: _ => .ambiguous

end Verif.Part
