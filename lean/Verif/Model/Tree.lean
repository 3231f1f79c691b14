import Verif.Model.Lang
import Verif.Model.LangProg
/-! How the shell shows a result: `ogma-shell/lib.rs:400-421` `write_result`, `ogma/src/output/print.rs:122-140`, and data of defined types as
trees, `ogma/src/lang/types.rs:627-670`.
External are the trees themselves, their texts (`kserd::Kserd`) and which names they take; and `print_table`, which is modelled in `Model/Print.lean`. -/
namespace Verif.Tree
open Verif

variable {N : Type}

/-- `kserd::Kserd`, as far as it is used: a plain value, or one with an identity that is `()` or has named parts. -/
inductive K (N : Type) : Type
  | unit
  | bool (b : Bool)
  | num (n : N)
  | str (s : String)
  | named (id : String)
  | parts (id : String) (fs : List (String × K N))

/-- `BTreeMap::insert`: in the order of the names; a value of the same name is replaced. -/
def put {α : Type} (n : String) (x : α) : List (String × α) → List (String × α)
  | [] => [(n, x)]
  | (m, y) :: r => if n < m then (n, x) :: (m, y) :: r else if m < n then (m, y) :: put n x r else (m, x) :: r

/-- The name of a variant and the names of its fields, if it has fields (`types.rs:416-439`); of a type with fields only the name is that of the
type. `none`: there is no such variant. -/
abbrev Names := String → Nat → Option (String × Option (List String))

mutual
/-- `types.rs:627-646` `into_kserd`; `none` is a panic: of `vars[..]`, or of `unwrap` (`print.rs:139`) since a name is not taken as an
identity. -/
def tree (okId : String → Bool) (L : Names) : Tab.Value N → Option (K N)
  | .nil => some .unit
  | .bool b => some (.bool b)
  | .num n => some (.num n)
  | .str s => some (.str s)
  | .tab _ => some (.str "<table>")
  | .row _ _ => some (.str "<table row>")
  | .ogma t k vs => match L t k with
    | none => none
    | some (id, none) => if okId id then some (.named id) else none
    | some (id, some ns) => (parts okId L ns vs []).bind fun fs => if okId id then some (.parts id fs) else none
/-- `types.rs:648-670` `add_kserd_fields`; `none` also if there is no field of this number. -/
def parts (okId : String → Bool) (L : Names) : List String → List (Tab.Value N) → List (String × K N) → Option (List (String × K N))
  | _, [], m => some m
  | [], _ :: _, _ => none
  | n :: ns, v :: vs, m => (tree okId L v).bind fun x => parts okId L ns vs (put n x m)
end

/-- What is written for a result. -/
inductive Out (N : Type) : Type
  | text (s : String)
  | num (n : N)
  | table (rows : Tab.Rows N)
  | tree (k : K N)

/-- `ogma-shell/lib.rs:407-417`: a result that is not an error. -/
def result (okId : String → Bool) (L : Names) : Tab.Value N → Option (Out N)
  | .nil => some (.text "()")
  | .bool b => some (.text (if b then "true" else "false"))
  | .num n => some (.num n)
  | .str s => some (.text s)
  | .tab rs => some (.table rs)
  | .row _ _ => some (.text "<table row>")
  | .ogma t k vs => (tree okId L (.ogma t k vs)).map .tree

/-- `print.rs:122-134` `fmt_cell`: a cell of a table. -/
def cell (okId : String → Bool) (L : Names) : Tab.Entry N → Option (Out N)
  | .nil => some (.text "-")
  | .num n => some (.num n)
  | .obj .nil => some (.text "-")
  | .obj (.num n) => some (.num n)
  | .obj (.bool b) => some (.text (if b then "true" else "false"))
  | .obj (.str s) => some (.text s)
  | .obj (.tab rs) => some (.text ("<table [" ++ toString rs.length ++ "," ++ toString (rs.head?.map List.length |>.getD 0) ++ "]>"))
  | .obj (.row _ _) => some (.text "<table row>")
  | .obj (.ogma t k vs) => (tree okId L (.ogma t k vs)).map .tree

/-- The names of the stored types and of tuples (`types.rs:830-902`). `braces`: a variant without fields was written with empty braces. -/
def namesOf (braces : String → Nat → Bool) (d : Defs.Defs) : Names := fun t k =>
  match AMap.get d.types t with
  | some (.def_ td) => match td.shape with
    | .sum vs => vs[k]?.map fun v => (v.1, if v.2.isEmpty && !braces t k then none else some (v.2.map (·.name)))
    | .product fs => some (td.name, some (fs.map (·.name)))
  | _ => match Tuple.parseName t.toList d.types with
    | some (.tuple ts) => some (t, some ((Tuple.tupleFields ts).map (·.1)))
    | _ => none

end Verif.Tree
