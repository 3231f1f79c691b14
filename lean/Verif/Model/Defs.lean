import Verif.Model.Map
/-! Model of the stores of commands and types: `ogma/src/lang/impls/mod.rs`,
`ogma/src/lang/types.rs:276-400`, `ogma/src/lang/defs.rs`. Definitions arrive parsed; help messages and
categories are left out. -/
namespace Verif.Defs

/-- `ast.rs` `Location`. -/
inductive Loc
  | ogma
  | shell
  | file (path : String) (line : Nat)
deriving DecidableEq, Repr

/-- `types.rs:63-77` `Type`. Defined types are equal when their names are (`types.rs:510-527`), so a
type used as a key or as the type of a field is its name. -/
inductive Ty
  | nil | bool | num | str | tab | tabRow
  | def_ (name : String)
deriving DecidableEq, Repr

/-- What an intrinsic does: a built-in function, or building a variant of a type. -/
inductive Fn
  | builtin (name : String)
  | ctor (ty : String) (variant : Nat)
deriving DecidableEq, Repr

/-- `mod.rs:12-25` `Implementation`. A definition is its source text. -/
inductive Impl
  | intrinsic (loc : Loc) (f : Fn)
  | definition (loc : Loc) (src : String)
deriving DecidableEq, Repr

/-- `mod.rs:18-25` `location`. -/
def Impl.loc : Impl → Loc
  | .intrinsic l _ => l
  | .definition l _ => l

/-- `mod.rs:60-64` `Keys`. -/
structure Keys where
  tys : AMap Ty Impl
  agnostic : Option Impl
deriving DecidableEq, Repr

/-- `mod.rs:66-70` `Keys::get_impl`. -/
def Keys.getImpl (k : Keys) (t : Ty) : Option Impl :=
  match k.tys.get t with
  | some i => some i
  | none => k.agnostic

/-- `mod.rs:79-88` `Keys::retain`. -/
def Keys.retain (k : Keys) (p : Impl → Bool) : Keys :=
  ⟨AMap.retain k.tys fun _ i => p i, k.agnostic.filter p⟩

/-- `mod.rs:90-92` `Keys::is_empty`. -/
def Keys.isEmpty (k : Keys) : Bool := k.tys.isEmpty && k.agnostic.isNone

/-- A field of a type, `types.rs:429-439`. -/
structure Field where
  name : String
  ty : Ty
  params : List Ty
deriving DecidableEq, Repr

/-- `types.rs:416-420` `TypeVariant`. -/
inductive Shape (F : Type)
  | sum (vs : List (String × List F))
  | product (fs : List F)
deriving DecidableEq, Repr

/-- `types.rs:405-413` `TypeDef`, without source and help. -/
structure TypeDef where
  loc : Loc
  name : String
  shape : Shape Field
deriving DecidableEq, Repr

/-- An entry of the type map: a primitive type or a definition. -/
inductive TyEntry
  | prim (t : Ty)
  | def_ (d : TypeDef)
deriving DecidableEq, Repr

def TyEntry.ty : TyEntry → Ty
  | .prim t => t
  | .def_ d => .def_ d.name

/-- `defs.rs:13-16` `Definitions`. -/
structure Defs where
  impls : AMap String Keys
  types : AMap String TyEntry
deriving DecidableEq, Repr

/-- `mod.rs:122-124` `contains_op`. -/
def Defs.containsOp (d : Defs) (op : String) : Bool := AMap.has d.impls op

/-- `mod.rs:166-168` `get_impl`. -/
def Defs.getImpl (d : Defs) (op : String) (t : Ty) : Option Impl :=
  (AMap.get d.impls op).bind (·.getImpl t)

/-- The entry for exactly this key, as looked up at `mod.rs:232-235`. -/
def Defs.entry (d : Defs) (op : String) : Option Ty → Option Impl
  | some t => (AMap.get d.impls op).bind fun k => AMap.get k.tys t
  | none => (AMap.get d.impls op).bind (·.agnostic)

/-- `self.0.entry(name).or_default()` followed by setting one key, `mod.rs:191-208, 248-259`. -/
def setImpl (m : AMap String Keys) (op : String) (t : Option Ty) (i : Impl) : AMap String Keys :=
  let k := (AMap.get m op).getD ⟨[], none⟩
  AMap.insert m op (match t with
    | some t => { k with tys := AMap.insert k.tys t i }
    | none => { k with agnostic := some i })

/-- The result of an operation: a new store, a reported error, or a panic. -/
inductive Out
  | ok (d : Defs)
  | err (d : Defs)
  | panic
deriving DecidableEq, Repr

/-- `mod.rs:178-213` `insert_intrinsic`. In a build with debug assertions (`checked`) replacing an entry
panics; `none` is that panic. -/
def insertIntrinsic (checked : Bool) (d : Defs) (op : String) (t : Option Ty) (i : Impl) : Option Defs :=
  if checked && (d.entry op t).isSome then none
  else some { d with impls := setImpl d.impls op t i }

/-- Is the entry one that may not be redefined? (`mod.rs:236-241`) -/
def Impl.fixed : Impl → Bool
  | .intrinsic _ _ => true
  | .definition l _ => l == .ogma

/-- `mod.rs:216-261` `insert_impl`. -/
def insertImpl (d : Defs) (op : String) (t : Option Ty) (loc : Loc) (src : String) : Out :=
  if ((d.entry op t).filter Impl.fixed).isSome then .err d
  else .ok { d with impls := setImpl d.impls op t (.definition loc src) }

/-- What `clear` keeps (`mod.rs:288-292`, `types.rs:387-394`). -/
def Loc.kept (onlyFiles : Bool) : Loc → Bool
  | .ogma => true
  | .shell => onlyFiles
  | .file _ _ => false

/-- `mod.rs:286-296` `Implementations::clear`. -/
def clearImpls (m : AMap String Keys) (onlyFiles : Bool) : AMap String Keys :=
  AMap.retain (AMap.mapVals m fun k => k.retain fun i => i.loc.kept onlyFiles) fun _ k => !k.isEmpty

/-- `types.rs:386-395` `Types::clear`. -/
def clearTypes (m : AMap String TyEntry) (onlyFiles : Bool) : AMap String TyEntry :=
  AMap.retain m fun _ e => match e with
    | .def_ d => d.loc.kept onlyFiles
    | .prim _ => true

/-- `defs.rs:213-218` `Definitions::clear`. -/
def Defs.clear (d : Defs) (onlyFiles : Bool) : Defs :=
  ⟨clearImpls d.impls onlyFiles, clearTypes d.types onlyFiles⟩

/-- A field as written: the names of its type and type parameters. -/
structure RawField where
  name : String
  ty : String
  params : List String
deriving DecidableEq, Repr

/-- `types.rs:323-345` `get_using_str`. -/
def tyOf (m : AMap String TyEntry) (n : String) : Option Ty := (AMap.get m n).map TyEntry.ty

/-- All results, or none. -/
def allSome {α β : Type} (f : α → Option β) : List α → Option (List β)
  | [] => some []
  | a :: as => (f a).bind fun b => (allSome f as).map (b :: ·)

/-- `types.rs:488-508` `from_parsed_fields`. -/
def parsedFields (m : AMap String TyEntry) (fs : List RawField) : Option (List Field) :=
  allSome (fun f => (tyOf m f.ty).bind fun t => (allSome (tyOf m) f.params).map fun ps => ⟨f.name, t, ps⟩) fs

/-- `types.rs:442-470` `from_parsed_def`. -/
def parsedShape (m : AMap String TyEntry) : Shape RawField → Option (Shape Field)
  | .sum vs => (allSome (fun v => (parsedFields m v.2).map fun fs => (v.1, fs)) vs).map .sum
  | .product fs => (parsedFields m fs).map .product

/-- The constructors a type adds: operation name and variant (`mod.rs:347-362`). -/
def ctors (d : TypeDef) : List (String × Nat) :=
  match d.shape with
  | .sum vs => vs.zipIdx.map fun (v, i) => (d.name ++ "::" ++ v.1, i)
  | .product _ => [(d.name, 0)]

/-- `mod.rs:323-364` `add_typedef_init_impls`. -/
def addCtors (checked : Bool) (d : Defs) (loc : Loc) (ty : String) : List (String × Nat) → Option Defs
  | [] => some d
  | (op, i) :: cs =>
    (insertIntrinsic checked d op none (.intrinsic loc (.ctor ty i))).bind fun d => addCtors checked d loc ty cs

/-- `types.rs:325-357, 368-378` `Types::insert`. -/
def insertType (checked : Bool) (d : Defs) (loc : Loc) (name : String) (sh : Shape RawField) : Out :=
  match parsedShape d.types sh with
  | none => .err d
  | some sh =>
    if AMap.has d.types name then .err d
    else
      let td : TypeDef := ⟨loc, name, sh⟩
      match addCtors checked { d with types := AMap.insert d.types name (.def_ td) } loc name (ctors td) with
      | some d => .ok d
      | none => .panic

/-- A definition request after parsing. `ops` are the operations its body mentions, at any depth. -/
inductive Req
  | help
  | list
  | clear
  | impl (name : String) (inTy : Option String) (ops : List String) (src : String)
  | type_ (name : String) (sh : Shape RawField)
  | malformed
deriving DecidableEq, Repr

/-- `defs.rs:281-430` `process_definition`: `process_impl` (`defs.rs:307-385`), `process_ty`
(`defs.rs:387-430`), with `assert_all_ops_defined` (`defs.rs:432-450`). -/
def process (checked : Bool) (d : Defs) (loc : Loc) : Req → Out
  | .help => .err d
  | .list => .ok d
  | .clear => .ok (d.clear false)
  | .malformed => .err d
  | .impl name inTy ops src =>
    if !ops.all d.containsOp then .err d
    else match inTy with
      | none => insertImpl d name none loc src
      | some t => match tyOf d.types t with
        | none => .err d
        | some t => insertImpl d name (some t) loc src
  | .type_ name sh => insertType checked d loc name sh

/-- `defs.rs:192-211` `add_from_str`: the file's types then its commands, stopping at the first error
with what was added so far. -/
def addFile (checked : Bool) (path : String) (d : Defs) : List (Nat × Req) → Out
  | [] => .ok d
  | (line, r) :: rs =>
    match process checked d (.file path line) r with
    | .ok d => addFile checked path d rs
    | o => o

/-- What a session can do to its definitions. -/
inductive Op
  | shell (r : Req)
  | load (path : String) (items : List (Nat × Req))
  | clear (onlyFiles : Bool)
deriving DecidableEq, Repr

def step (checked : Bool) (d : Defs) : Op → Out
  | .shell r => process checked d .shell r
  | .load p is => addFile checked p d is
  | .clear b => .ok (d.clear b)

/-- A session; `none` is a panic. -/
def run (checked : Bool) : Defs → List Op → Option Defs
  | d, [] => some d
  | d, o :: os =>
    match step checked d o with
    | .ok d => run checked d os
    | .err d => run checked d os
    | .panic => none

/-- The built-in commands, `intrinsics/*.rs` `add_intrinsics`: the name and the input type. -/
def builtins : List (String × Option Ty) := [
  ("+", some .num), ("+", some .str), ("+", some .tab), ("*", some .num), ("×", some .num), ("-", some .num),
  ("/", some .num), ("÷", some .num), ("ceil", some .num), ("floor", some .num), ("is-finite", some .num),
  ("root", some .num),
  ("cmp", some .nil), ("cmp", some .bool), ("cmp", some .num), ("cmp", some .str), ("cmp", some (.def_ "Ord")),
  ("cmp", none), ("eq", some .nil), ("eq", some .bool), ("eq", some .num), ("eq", some .str),
  ("eq", some (.def_ "Ord")), ("eq", none), ("max", none), ("min", none),
  ("benchmark", none), ("typify", none),
  ("ls", some .tab), ("ls", none), ("open", none), ("save", none),
  ("and", none), ("if", none), ("not", some .bool), ("or", none),
  ("append", some .tab), ("append-row", some .tab), ("dedup", some .str), ("dedup", some .tab),
  ("filter", some .str), ("filter", some .tab), ("fold", some .tab), ("fold-while", some .tab),
  ("grp", some .tab), ("grp-by", some .tab), ("map", some .tab), ("pick", some .tab), ("ren", some .tab),
  ("ren-with", some .tab), ("rev", some .str), ("rev", some .tab), ("skip", some .str), ("skip", some .tab),
  ("sort", some .tab), ("sort-by", some .tab), ("take", some .str), ("take", some .tab),
  ("get", some .tabRow), ("get", none), (".", none), ("\\", none), ("len", some .str), ("len", some .tab),
  ("let", none), ("nth", some .str), ("nth", some .tab), ("rand", none), ("range", none), ("Table", none),
  ("to-str", some .bool), ("to-str", some .num), ("to-str", some .str), ("to-str", none), ("Tuple", none)]

/-- The derived commands of `defs.rs:44-176`: name, input type, operations used, source. -/
def derived : List (String × Option Ty × String) := [
  ("=", none, "def = (rhs) { eq $rhs }"), ("!=", none, "def != (rhs) { eq $rhs | not }"),
  (">", none, "def > (rhs) { cmp $rhs | = Ord::Gt }"),
  (">=", none, "def >= (rhs) { cmp $rhs | or { = Ord::Gt } { = Ord::Eq } }"),
  ("<", none, "def < (rhs) { cmp $rhs | = Ord::Lt }"),
  ("<=", none, "def <= (rhs) { cmp $rhs | or { = Ord::Lt } { = Ord::Eq } }"),
  ("last", some .tab, "def last Table (expr:Expr) { nth {len | - 1} $expr }"),
  ("last", some .str, "def last Str () { nth {len | - 1} }"),
  ("abs", some .num, "def abs Num () { if {< 0} {* -1} #i }"),
  ("mod", some .num, "def mod Num (denom) { - {/ $denom | floor | * $denom} }"),
  ("empty", none, "def empty () { len | = 0 }"),
  ("skip-hdrs", some .tab, "def skip-hdrs Table (num:Num) { ren-with --Str $num {\\#i} | skip $num }")]

/-- `types.rs:286-322` `init_std`. -/
def baseTypes : AMap String TyEntry := [
  ("Nil", .prim .nil), ("Bool", .prim .bool), ("Num", .prim .num), ("Str", .prim .str), ("Table", .prim .tab),
  ("TableRow", .prim .tabRow),
  ("Ord", .def_ ⟨.ogma, "Ord", .sum [("Lt", []), ("Eq", []), ("Gt", [])]⟩)]

/-- `defs.rs:26-177` `Definitions::new`: the intrinsics, the constructors of `Ord`, the derived
commands. -/
def base : Defs :=
  let m := builtins.foldl (fun m (n, t) => setImpl m n t (.intrinsic .ogma (.builtin n))) []
  let m := [("Ord::Lt", 0), ("Ord::Eq", 1), ("Ord::Gt", 2)].foldl
    (fun m (n, i) => setImpl m n none (.intrinsic .ogma (.ctor "Ord" i))) m
  let m := derived.foldl (fun m (n, t, src) => setImpl m n t (.definition .ogma src)) m
  ⟨m, baseTypes⟩

end Verif.Defs
