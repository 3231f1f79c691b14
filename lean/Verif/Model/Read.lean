import Verif.Model.Parse
import Verif.Model.Expand
/-! What is parsed, as it is put into the syntax graph (`ogma/src/lang/syntax/ast.rs:314-328`, `:389-404` `parts`,
`ogma/src/eng/graphs/astgraph.rs:174-230`). -/
namespace Verif.Prog
open Verif

/-- The text a tag covers. -/
def str (s : Parse.Str) : String := String.ofList s

/-- `ast.rs:581-587` `is_op`: a path is an operation if it is on its last component. Parsed paths are on their first
(`parse/mod.rs:434-438`), and have more than one (`:492-496`). -/
def readOp : Parse.Op → Option String
  | .single t => some (str t)
  | .path _ [t] => some (str t)
  | .path _ _ => none

mutual
/-- `astgraph.rs:164-174`, `:222-229`: the blocks of an expression and its annotated output type. -/
def readE : Parse.Expr → Exp.Expr
  | .mk bs out => .mk (out.map str) (readBs bs)
/-- `astgraph.rs:174`. -/
def readBs : List Parse.Blk → List Exp.Blk
  | [] => []
  | b :: bs => readB b :: readBs bs
/-- `ast.rs:314-328`. -/
def readB : Parse.Blk → Exp.Blk
  | .mk inTy o outTy ts => .mk (readOp o) (inTy.map str) (outTy.map str) (readTs ts)
/-- `astgraph.rs:200`. -/
def readTs : List Parse.Term → List Exp.Term
  | [] => []
  | t :: ts => readT t :: readTs ts
/-- `astgraph.rs:208-230`. -/
def readT : Parse.Term → Exp.Term
  | .flag s => .flag (str s)
  | .arg a => readA a
/-- A field access is an expression with a block of the operation `.` (`ast.rs:348-404`, `parse/mod.rs:579-597`, `:618-635`). -/
def readA : Parse.Arg → Exp.Term
  | .ident s => .plain (.ident (str s))
  | .num s => .plain (.num (str s))
  | .pound c => .pound c
  | .var s => .plain (.var (str s))
  | .expr e => .expr (readE e)
  | .dot lhs rhs out => .expr (.mk none [.mk (some ".") none (out.map str) [readA lhs, .plain (.ident (str rhs))]])
end

/-- `ast.rs:453-458`. -/
def readParam (p : Parse.Param) : Exp.Param := ⟨str p.name, p.ty.map str⟩

end Verif.Prog
