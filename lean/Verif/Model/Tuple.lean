import Verif.Model.Nom
import Verif.Model.Defs
/-! Model of tuple types (`ogma/src/lang/types.rs:803-953`), of building record values
(`ogma/src/lang/impls/mod.rs:366-391`, `intrinsics/pipeline.rs:889-914`) and of reading their fields
(`intrinsics/pipeline.rs:113-120, 160-259`). -/
namespace Verif.Tuple
open Verif.Nom Verif.Defs

/-- A type with its structure: a primitive or defined type, or a tuple of types. -/
inductive TTy
  | base (t : Ty)
  | tuple (ts : List TTy)
deriving Repr

/-- `types.rs:808-818` `tyname`, on the types that are not tuples. -/
def baseName : Ty → List Char
  | .nil => ['N', 'i', 'l']
  | .bool => ['B', 'o', 'o', 'l']
  | .num => ['N', 'u', 'm']
  | .str => ['S', 't', 'r']
  | .tab => ['T', 'a', 'b', 'l', 'e']
  | .tabRow => ['T', 'a', 'b', 'l', 'e', 'R', 'o', 'w']
  | .def_ n => n.toList

mutual
/-- `types.rs:808-829` `tyname`, `name`: `"U_"`, each member with a `-` after it, the last character
replaced by `_`. -/
def tyname : TTy → List Char
  | .base t => baseName t
  | .tuple ts => (['U', '_'] ++ members ts).dropLast ++ ['_']
def members : List TTy → List Char
  | [] => []
  | t :: ts => tyname t ++ ['-'] ++ members ts
end

/-- The type as the rest of the program sees it: tuples are definitions, equal when their names are
(`types.rs:510-527`). -/
def TTy.key : TTy → Ty
  | .base t => t
  | .tuple ts => .def_ (String.ofList (tyname (.tuple ts)))

/-- `types.rs:839-847`: the fields of a tuple type. -/
def tupleFields (ts : List TTy) : List (String × TTy) :=
  ts.zipIdx.map fun (t, i) => ("t" ++ toString i, t)

/-- `types.rs:923-926` `Split`. -/
inductive Split
  | tuple (ss : List Split)
  | ty (n : List Char)
deriving Repr

/-- `types.rs:942-948` `parse_split`, with `parse_tuple` (`types.rs:935-941`) inside. The fuel bounds the
nesting, which is at most the length of the input. -/
def parseSplit : Nat → Parser Split
  | 0, _ => .err
  | n + 1, i =>
    if ['U', '_'].isPrefixOf i then
      ((tag ['U', '_'] i).bind fun i _ => (sepList1 (chr '-') (parseSplit n) i).bind fun i ss =>
        (chr '_' i).bind fun i _ => .ok i (.tuple ss))
    else
      (takeTill1 (fun c => c == '-' || c == '_') i).map .ty

/-- `types.rs:950-953` `Split::parse`: a tuple, with nothing after it. -/
def parseTop (i : List Char) : Option Split :=
  if ['U', '_'].isPrefixOf i then
    match parseSplit (i.length + 1) i with
    | .ok [] s => some s
    | _ => none
  else none

mutual
/-- `types.rs:908-919` `convert_split`. -/
def convert (tys : AMap String TyEntry) : Split → Option TTy
  | .tuple ss => (convertAll tys ss).map .tuple
  | .ty n => (tyOf tys (String.ofList n)).map .base
def convertAll (tys : AMap String TyEntry) : List Split → Option (List TTy)
  | [] => some []
  | s :: ss => (convert tys s).bind fun t => (convertAll tys ss).map (t :: ·)
end

/-- `types.rs:904-906` `parse_name`. -/
def parseName (i : List Char) (tys : AMap String TyEntry) : Option TTy := (parseTop i).bind (convert tys)

/-! ### Records -/

/-- `types.rs:131-150` `OgmaData`: the type, the variant and the data. -/
structure Data (V : Type) where
  ty : Ty
  variant : Option Nat
  data : List V

/-- An argument of a command once compiled: the type it returns and how it evaluates. -/
structure Arg (E V : Type) where
  ty : Ty
  eval : V → Except E V

/-- Errors at compile time. -/
inductive CErr
  | tooFew | tooMany | wrongType | fieldNotFound | notProduct
deriving DecidableEq, Repr

/-- `impls/mod.rs:372-380`: the arguments are taken in field order, each must return the field's type.
`blk.eval` finds arguments left over (`eng/blk.rs:280-298`). -/
def takeArgs {E V : Type} : List Ty → List (Arg E V) → Except CErr (List (Arg E V))
  | [], [] => .ok []
  | [], _ :: _ => .error .tooMany
  | _ :: _, [] => .error .tooFew
  | t :: ts, a :: as =>
    if a.ty = t then (takeArgs ts as).map (a :: ·) else .error .wrongType

/-- `impls/mod.rs:383-386`: the values of the arguments on the same input, in order. -/
def evalArgs {E V : Type} (input : V) : List (Arg E V) → Except E (List V)
  | [] => .ok []
  | a :: as => (a.eval input).bind fun v => (evalArgs input as).map (v :: ·)

/-- `impls/mod.rs:366-391` `typedef_init`. -/
def typedefInit {E V : Type} (ty : Ty) (variant : Nat) (fields : List Field) (args : List (Arg E V)) :
    Except CErr (V → Except E (Data V)) :=
  (takeArgs (fields.map (·.ty)) args).map fun as input =>
    (evalArgs input as).map fun vs => ⟨ty, some variant, vs⟩

/-- `pipeline.rs:889-914` `tuple_intrinsic`. -/
def tupleIntrinsic {E V : Type} (args : List (Arg E V)) (tys : List TTy) :
    Except CErr (V → Except E (Data V)) :=
  if args.length < 2 then .error .tooFew
  else .ok fun input => (evalArgs input args).map fun vs => ⟨(TTy.tuple tys).key, none, vs⟩

/-- `pipeline.rs:165-194` `FieldAccessor::construct`: the position of the first field with the name. -/
def fieldIdx {α : Type} (fields : List (String × α)) (name : String) : Except CErr (Nat × α) :=
  match fields.findIdx? (·.1 == name) with
  | some i => match fields[i]? with
    | some f => .ok (i, f.2)
    | none => .error .fieldNotFound
  | none => .error .fieldNotFound

/-- `Vec::remove`: the element and what is left. -/
def vecRemove {V : Type} : Nat → List V → Option (V × List V)
  | _, [] => none
  | 0, v :: vs => some (v, vs)
  | i + 1, v :: vs => (vecRemove i vs).map fun (x, xs) => (x, v :: xs)

/-- `pipeline.rs:196-203` `FieldAccessor::get`: an owned value gives up its field, a shared one is
cloned. `none` is the panic of an index out of bounds. -/
def fieldGet {V : Type} (owned : Bool) (idx : Nat) (d : Data V) : Option V :=
  if owned then (vecRemove idx d.data).map (·.1) else d.data[idx]?

end Verif.Tuple
