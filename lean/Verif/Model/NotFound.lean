import Verif.Model.Defs
/-! Model of the message about a command that is not there for an input type (`ogma/src/common/err.rs:183-217`). -/
namespace Verif.NotFound
open Verif.Defs

/-- `types.rs:109-123`: how a type is shown. -/
def tyText : Ty → String
  | .nil => "Nil"
  | .bool => "Bool"
  | .num => "Number"
  | .str => "String"
  | .tab => "Table"
  | .tabRow => "TableRow"
  | .def_ n => n

/-- `err.rs:189-191` `tystr`. -/
def tyStr : Option Ty → String
  | some t => tyText t
  | none => "<any>"

/-- `impls/mod.rs:72-77`, `:269-282` `iter_op`: the input types of a command's implementations, in one of the orders. -/
def keysOf (d : Defs) (op : String) : List (Option Ty) :=
  match AMap.get d.impls op with
  | some k => k.tys.map (fun x => some x.1) ++ (match k.agnostic with
    | some _ => [none]
    | none => [])
  | none => []

/-- `err.rs:195-205`: the help. `keys` are the input types in the order they come in. -/
def helpText (op : String) (recursion : Bool) (keys : List (Option Ty)) : String :=
  if recursion then "recursion is not supported.
          for alternatives, please see <https://daedalus.report/d/docs/ogma.book/11%20(no)%20recursion.md?pwd-raw=docs>"
  else if keys.isEmpty then "view a list of definitions using `def --list`"
  else keys.foldl (fun s t => s ++ " " ++ tyStr t) ("`" ++ op ++ "` is implemented for the following input types:")

/-- `err.rs:211`: the note. -/
def noteText (op : String) (inTy : Option Ty) : String := "`" ++ op ++ "` not defined for input `" ++ tyStr inTy ++ "`"

/-- `comp/mod.rs:449-457`, with `get_impl` of the graph, which has the implementations of the definitions: the note and
the help if the command is not there for its input. -/
def compileMsg (d : Defs) (op : String) (t : Ty) (keys : List (Option Ty)) : Option (String × String) :=
  match d.getImpl op t with
  | some _ => none
  | none => some (noteText op (some t), helpText op false keys)

/-- `defs.rs:432-449` `assert_all_ops_defined`: the note and the help for the first command, in the order they are looked
at, that is not defined. `order` gives the order of the implementations. -/
def defMsg (d : Defs) (order : String → List (Option Ty)) (name : String) : List String → Option (String × String)
  | [] => none
  | op :: ops =>
    if d.containsOp op then defMsg d order name ops
    else some (noteText op none, helpText op (decide (op = name)) (order op))

end Verif.NotFound
