import Verif.Model.Lang
import Verif.Model.Prog
import Verif.Model.Tuple
import Verif.Model.Read
/-! The built-in commands by name, and what they read of the program. -/
namespace Verif.Lang
open Verif Verif.Comp Verif.Prog

/-- `intrinsics/{arithmetic,cmp,diagnostics,io,logic,morphism,pipeline}.rs` `add_intrinsics`: the commands, with the type of
input they are for. -/
def installed : List (String × Option String × Lang.Cmd) := [
  ("+", some "Num", .num .add), ("+", some "Str", .addStr), ("+", some "Table", .addTab),
  ("*", some "Num", .num .mul), ("×", some "Num", .num .mul), ("-", some "Num", .num .sub),
  ("/", some "Num", .num .div), ("÷", some "Num", .num .div),
  ("ceil", some "Num", .ceil), ("floor", some "Num", .floor), ("is-finite", some "Num", .isFinite), ("root", some "Num", .root),
  ("cmp", some "Nil", .cmpNil), ("cmp", some "Bool", .cmpBool), ("cmp", some "Num", .cmpNum), ("cmp", some "Str", .cmpStr),
  ("cmp", some "Ord", .cmpOrd), ("cmp", none, .cmp),
  ("eq", some "Nil", .eqNil), ("eq", some "Bool", .eqBool), ("eq", some "Num", .eqNum), ("eq", some "Str", .eqStr),
  ("eq", some "Ord", .eqOrd), ("eq", none, .eq),
  ("max", none, .num .max), ("min", none, .num .min),
  ("benchmark", none, .benchmark), ("typify", none, .typify),
  ("ls", some "Table", .lsTab), ("ls", none, .ls), ("open", none, .open_), ("save", none, .save),
  ("and", none, .and_), ("if", none, .if_), ("not", some "Bool", .not_), ("or", none, .or_),
  ("append", some "Table", .append), ("append-row", some "Table", .appendRow),
  ("dedup", some "Str", .dedupStr), ("dedup", some "Table", .dedupTab),
  ("filter", some "Str", .filterStr), ("filter", some "Table", .filterTab),
  ("fold", some "Table", .fold), ("fold-while", some "Table", .foldWhile), ("grp", some "Table", .grp), ("grp-by", some "Table", .grpBy),
  ("map", some "Table", .map), ("pick", some "Table", .pick), ("ren", some "Table", .ren), ("ren-with", some "Table", .renWith),
  ("rev", some "Str", .revStr), ("rev", some "Table", .revTab), ("skip", some "Str", .skipStr), ("skip", some "Table", .skipTab),
  ("sort", some "Table", .sort), ("sort-by", some "Table", .sortBy), ("take", some "Str", .takeStr), ("take", some "Table", .takeTab),
  ("get", some "TableRow", .getRow), ("get", none, .get), (".", none, .dot), ("\\", none, .input),
  ("len", some "Str", .lenStr), ("len", some "Table", .lenTab), ("let", none, .let_),
  ("nth", some "Str", .nthStr), ("nth", some "Table", .nthTab), ("rand", none, .rand), ("range", none, .range), ("Table", none, .table),
  ("to-str", some "Bool", .toStrBool), ("to-str", some "Num", .toStrNum), ("to-str", some "Str", .toStrStr), ("to-str", none, .toStr),
  ("Tuple", none, .tuple)]

/-- Commands: the name, the type of input they are for, and which it is. -/
abbrev Cmds := List (String × Option String × Lang.Cmd)

/-- The number of a command. -/
def number (L : Cmds) (f : String) (ty : Option String) : Nat := L.findIdx fun x => x.1 == f && x.2.1 == ty

/-- The command of this number. -/
def numbered (L : Cmds) (i : Nat) : Option Lang.Cmd := (L[i]?).map (·.2.2)

/-- A flag. -/
def flagAt : Option Exp.Node → Option String
  | some (.flag f) => some f
  | _ => none

/-- A literal that is a string. -/
def textAt : Option Exp.Node → Option String
  | some (.arg (.ident x)) => some x
  | some (.pound 'b') => some "\n"
  | _ => none

/-- `comp/mod.rs:617-635`: the flags of a block, in the order written. -/
def flagsOf (g : Exp.Graph) (op : Nat) : List String := (terms g op true).filterMap fun n => flagAt g.nodes[n]?

/-- `arg.rs:360-381` `extract_literal`, for strings. -/
def textOf (g : Exp.Graph) (op k : Nat) : Option String := ((terms g op false)[k]?).bind fun a => textAt g.nodes[a]?

/-- What the commands depend on, for a program. -/
def World.on {N : Type} (W : World N) (L : Cmds) (g : Exp.Graph) : World N :=
  { W with cmd := numbered L, flags := flagsOf g, text := textOf g }

/-- The values of literals (`arg.rs:223-240`), given what numbers are written as. -/
def literal {N : Type} (num : String → N) (g : Exp.Graph) (n : Nat) : Tab.Value N :=
  match g.nodes[n]? with
  | some (.arg (.ident x)) => .str x
  | some (.arg (.num x)) => .num (num x)
  | some (.pound 't') => .bool true
  | some (.pound 'f') => .bool false
  | some (.pound 'b') => .str "\n"
  | _ => .nil

/-- The types: `get` gives those with a name. -/
def typesOf (get : String → Tab.Ty) (all : List Tab.Ty) : Types Tab.Ty := ⟨get, .str, .num, .bool, .nil, all⟩

/-! ### Defined types -/

def toTab : Defs.Ty → Tab.Ty
  | .nil => .nil
  | .bool => .bool
  | .num => .num
  | .str => .str
  | .tab => .tab
  | .tabRow => .tabRow
  | .def_ n => .def_ n

def ofTab : Tab.Ty → Defs.Ty
  | .nil => .nil
  | .bool => .bool
  | .num => .num
  | .str => .str
  | .tab => .tab
  | .tabRow => .tabRow
  | .def_ n => .def_ n

/-- `types.rs:417-420` `TypeVariant`. -/
def shapeAs : Defs.Shape Defs.Field → Shape
  | .sum vs => .sum (vs.map fun v => v.2.map fun f => toTab f.ty)
  | .product fs => .product (fs.map fun f => (f.name, toTab f.ty))

/-- The definition of a type: one that is stored, or a tuple of types (`types.rs:830-902`). -/
def shapeOf (d : Defs.Defs) (name : String) : Shape :=
  match AMap.get d.types name with
  | some (.def_ td) => shapeAs td.shape
  | _ => match Tuple.parseName name.toList d.types with
    | some (.tuple ts) => .product ((Tuple.tupleFields ts).map fun p => (p.1, toTab p.2.key))
    | _ => .sum []

/-- `types.rs:819-828`: the name of a tuple type. -/
def nameTuple (us : List Tab.Ty) : String := String.ofList (Tuple.tyname (.tuple (us.map fun u => .base (ofTab u))))

/-- The surroundings, with these definitions of types. -/
def World.typed {N : Type} (W : World N) (d : Defs.Defs) : World N := { W with shape := shapeOf d, tupleName := nameTuple }

/-! ### Stored definitions -/

/-- `types.rs:109-123`: the name of a type. -/
def tyName (t : Defs.Ty) : String := String.ofList (Tuple.baseName t)

/-- The type of this name (`types.rs:366-368` `get_using_str`). -/
def typeNamed (d : Defs.Defs) (n : String) : Option Tab.Ty :=
  ((Tuple.parseName n.toList d.types).map fun t => toTab t.key) <|> (Defs.tyOf d.types n).map toTab

/-- What an entry of the store does for this type of input: a command of the above, or the constructor of a type
(`impls/mod.rs:323-364`). -/
def cmdAt (ty : Option String) : Defs.Impl → Option Lang.Cmd
  | .intrinsic _ (.ctor t k) => some (.ctor t k)
  | .intrinsic _ (.builtin n) => (installed.find? fun x => x.1 == n && x.2.1 == ty).map (·.2.2)
  | .definition _ _ => none

/-- The parameters and body of a definition, from its text. It was parsed when it was defined, with the commands known then (`defs.rs:352`):
`ks` has the environment for each text. -/
def bodyAt (ks : String → Parse.Env) : Defs.Impl → Option (List Exp.Param × Exp.Expr)
  | .intrinsic _ _ => none
  | .definition _ src => match Parse.definitionImpl (ks src) src.toList with
    | .ok _ df => some (df.params.map readParam, readE df.body)
    | _ => none

/-- `impls/mod.rs:63-80` `Keys`: the entries for one name, in one of the orders they may come in. -/
def entriesOf (ks : Defs.Keys) : List (Option String × Defs.Impl) :=
  ks.agnostic.toList.map (fun i => (none, i)) ++ ks.tys.map fun x => (some (tyName x.1), x.2)

/-- The stored commands that are not definitions. -/
def cmdsOf (d : Defs.Defs) : Cmds :=
  d.impls.flatMap fun x => (entriesOf x.2).filterMap fun y => (cmdAt y.1 y.2).map fun c => (x.1, y.1, c)

/-- The implementations of a name. -/
def implsOf (ks : String → Parse.Env) : Option Defs.Keys → List Exp.Impl
  | none => []
  | some k => (entriesOf k).map fun y => ⟨y.1, bodyAt ks y.2⟩

/-- The store, as the syntax graph is made from it. -/
def defsOf (ks : String → Parse.Env) (d : Defs.Defs) : Exp.Defs where
  impls f := implsOf ks (AMap.get d.impls f)
  isTy t := (Defs.tyOf d.types t).isSome

/-- The types in the store; names that are not known are not used (`isTy`). -/
def storedTypes (d : Defs.Defs) : Types Tab.Ty :=
  typesOf (fun n => ((Defs.tyOf d.types n).map toTab).getD .nil) (d.types.map fun e => toTab e.2.ty)

end Verif.Lang
