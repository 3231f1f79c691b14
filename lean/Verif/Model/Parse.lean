import Verif.Model.File
/-! Model of the parser for expressions and definitions (`ogma/src/lang/syntax/parse/mod.rs`). Positions
(`Tag`) are left out: only the text of each part is kept. Errors are kept apart only as far as the parser
itself does, into recoverable ones (`err`) and final ones (`fail`). -/
namespace Verif.Parse
open Verif.Nom Verif.File

abbrev Str := List Char

/-- `ast.rs:530-535` `Op`: one name, or a path of names. -/
inductive Op
  | single (t : Str)
  | path (rooted : Bool) (cs : List Str)
deriving DecidableEq, Repr

mutual
/-- `ast.rs:177-185` `Expression`: the blocks of a pipeline, and the type after its closing brace. -/
inductive Expr
  | mk (blocks : List Blk) (out : Option Str)
/-- `ast.rs:257-267` `PrefixBlock`. -/
inductive Blk
  | mk (inTy : Option Str) (op : Op) (outTy : Option Str) (terms : List Term)
/-- `ast.rs:414-420` `Term`. -/
inductive Term
  | flag (s : Str)
  | arg (a : Arg)
/-- `ast.rs:423-435` `Argument`. A number is kept as its text. `dot` is the expression which has one
`DotOperatorBlock`: these blocks arise nowhere else. -/
inductive Arg
  | ident (s : Str)
  | num (s : Str)
  | pound (c : Char)
  | var (s : Str)
  | expr (e : Expr)
  | dot (lhs : Arg) (rhs : Str) (out : Option Str)
end

/-- What the parser is given: the character classes of Unicode, which texts `Number::from_str` reads
(with the names `inf`, `∞`, `-inf`, `-∞`, `nan`, `mod.rs:769-774`), and which commands are defined
(`Definitions::impls().contains_op`). -/
structure Env where
  cls : Classes
  isNum : Str → Bool
  known : Str → Bool

/-- `mod.rs:279-284` `ws`: the parser between optional white space. -/
def ws {α : Type} (p : Parser α) : Parser α := fun i =>
  (p (skip isMulti i)).bind fun r a => .ok (skip isMulti r) a

/-- The loop of `nom::multi::many0`. The fuel is more than the length of the input: each turn consumes
something. -/
def manyLoop {α : Type} (f : Parser α) : Nat → List Char → List α → PR (List α)
  | 0, _, _ => .err
  | n + 1, i, acc =>
    match f i with
    | .err => .ok i acc
    | .fail => .fail
    | .ok i1 a => if i1.length = i.length then .err else manyLoop f n i1 (acc ++ [a])

/-- `nom::multi::many0`. -/
def many0 {α : Type} (f : Parser α) : Parser (List α) := fun i => manyLoop f (i.length + 1) i []

/-- `mod.rs:780-782` `breakon`. -/
def breakon (c : Char) : Bool := c == '|' || c == '{' || c == '}' || c == ':' || isWs c

/-- `mod.rs:784-786` `breakon_s`. -/
def breakonS (i : List Char) : Bool :=
  match i with
  | [] => false
  | c :: _ => breakon c

/-- `mod.rs:325-335` `opt_ty`. -/
def optTy (k : Env) : Parser (Option Str) :=
  opt fun i => (chr ':' i).bind fun i _ => cut (opIdent k.cls) i

/-- `mod.rs:503-520` `spec_op`: the symbols, in the order they are tried. -/
def specOps : List Str :=
  [['\\'], ['+'], ['-'], ['*'], ['×'], ['/'], ['÷'], ['='], ['!', '='], ['>', '='], ['<', '='], ['>'],
   ['<'], ['.']]

/-- `mod.rs:503-520` `spec_op`. -/
def specOp : Parser Str := fun i =>
  match specOps.find? (·.isPrefixOf i) with
  | some t => .ok (i.drop t.length) t
  | none => .err

/-- `mod.rs:471-474`: the loop of `tmp_op_parser`. Each turn consumes at least `::`. -/
def opTail (k : Env) : Nat → List Char → Str → PR Str
  | 0, i, acc => .ok i acc
  | n + 1, i, acc =>
    match (tag [':', ':'] i).bind fun i _ => opIdent k.cls i with
    | .ok r t => opTail k n r (acc ++ [':', ':'] ++ t)
    | _ => .ok i acc

/-- `mod.rs:464-480` `tmp_op_parser`. -/
def opName (k : Env) : Parser Str := fun i =>
  (opIdent k.cls i).bind fun i t => opTail k i.length i t

/-- `mod.rs:440-460`: no path ends in a slash or a wrong component. -/
def pathEnd {α : Type} (i : List Char) (x : α) : PR α :=
  match i with
  | '/' :: _ => .err
  | i => .ok i x

/-- `mod.rs:431-461` `path`: whether it starts at the root, and the components. -/
def path (k : Env) : Parser (Bool × List Str) := fun i =>
  let rooted := (tag ['/'] i).isOk
  let i := if rooted then i.drop 1 else i
  (sepList1 (tag ['/']) (opName k) i).bind fun i cs => pathEnd i (rooted, cs)

/-- `mod.rs:483-500` `op`. -/
def op (k : Env) : Parser Op := fun i =>
  match specOp i with
  | .ok r t => .ok r (.single t)
  | _ => (path k i).map fun (rooted, cs) =>
    match cs with
    | [t] => .single t
    | cs => .path rooted cs

/-- `mod.rs:549-557` `known_op`. -/
def knownOp (k : Env) (i : List Char) : Bool :=
  match op k i with
  | .ok _ (.single t) => k.known t
  | _ => false

/-- `mod.rs:741`: `wrapped_str`. -/
def wrapped (q : Char) : Parser Str := fun i =>
  (chr q i).bind fun i _ =>
    (chr q (i.dropWhile (· != q))).map fun _ => i.takeWhile (· != q)

/-- `mod.rs:737-763` `ident`. -/
def ident : Parser Str := fun i =>
  match i with
  | ':' :: _ => .fail
  | '"' :: _ => wrapped '"' i
  | '\'' :: _ => wrapped '\'' i
  | i => takeTill1 breakon i

/-- `mod.rs:765-778` `num`: the dot is no break character in the first place. -/
def num (k : Env) : Parser Str := fun i =>
  (takeTill1 breakon i).bind fun r s => if k.isNum s then .ok r s else .err

/-- `mod.rs:733-735` `flag`. -/
def flag : Parser Str := fun i => (tag ['-', '-'] i).bind fun i _ => ident i

/-- `mod.rs:606-614` `infix_rhs_ident`. -/
def infixRhs (k : Env) : Parser Str := fun i =>
  match i with
  | '"' :: _ => ident i
  | '\'' :: _ => ident i
  | i => opIdent k.cls i

/-- `mod.rs:579-598` `maybe_infix` with `mod.rs:618-635` `dot_infixed`. Each turn consumes the dot. -/
def infixLoop (k : Env) : Nat → List Char → Arg → PR Arg
  | 0, i, lhs => .ok i lhs
  | n + 1, i, lhs =>
    match i with
    | '.' :: r =>
      (cut (infixRhs k) r).bind fun i rhs => (optTy k i).bind fun i out =>
        infixLoop k n i (.dot lhs rhs out)
    | i => .ok i lhs

/-- `mod.rs:562-576` `term`. -/
def term (k : Env) (arg : Parser Arg) : Parser Term := fun i =>
  if ['-', '-'].isPrefixOf i then (flag i).map .flag
  else ((arg i).bind fun i a => infixLoop k i.length i a).map .arg

/-- `mod.rs:409-429` `block`. -/
def block (k : Env) (arg : Parser Arg) : Parser Blk := fun i =>
  (optTy k i).bind fun i inTy =>
  (op k (skip isMulti i)).bind fun i o =>
  (optTy k i).bind fun i outTy =>
  (many0 (ws (term k arg)) i).map fun ts => .mk inTy o outTy ts

/-- `mod.rs:375-379`: the blocks after pipes. Each turn consumes the pipe. -/
def pipes (b : Parser Blk) : Nat → List Char → List Blk → PR (List Blk)
  | 0, i, acc => .ok i acc
  | n + 1, i, acc =>
    match i with
    | '|' :: r => (b r).bind fun i x => pipes b n i (acc ++ [x])
    | i => .ok i acc

/-- `mod.rs:361-407` `expr`. -/
def expr (b : Parser Blk) : Parser Expr := fun i =>
  (ws b i).bind fun i x =>
  (pipes (ws b) i.length i [x]).bind fun i bs =>
    match ws b i with
    | .ok r y => .ok r (.mk (bs ++ [y]) none)
    | _ => .ok i (.mk bs none)

/-- Sets the type after the closing brace (`mod.rs:670`). -/
def Expr.setOut : Expr → Option Str → Expr
  | .mk bs _, t => .mk bs t

/-- `mod.rs:645-727` `arg`, `var`. The test for break characters comes before those for `$` and `#`, which are
no break characters. -/
def arg (k : Env) (b : Parser Blk) : Parser Arg := fun i =>
  match i with
  | '{' :: r =>
    if (skip isMulti r).head? = some '}' then .fail
    else
      (cut (fun i => (ws (expr b) i).bind fun i e => (chr '}' i).map fun _ => e) r).bind fun i e =>
        (optTy k i).map fun t => .expr (e.setOut t)
  | ':' :: _ => .fail
  | '$' :: r => (opIdent k.cls r).map .var
  | '#' :: r =>
    (cut (opIdent k.cls) r).bind fun i c =>
      match c with
      | [ch] => if ch.utf8Size = 1 then .ok i (.pound ch) else .fail
      | _ => .fail
  | i =>
    if breakonS i then .err
    else
      match num k i with
      | .ok r s => .ok r (.num s)
      | _ =>
        if knownOp k i then (ws b i).map fun x => .expr (.mk [x] none)
        else (ident i).map .ident

/-- Blocks nested up to a depth: `block` and `arg` call each other. -/
def blockN (k : Env) : Nat → Parser Blk
  | 0 => fun _ => .err
  | n + 1 => block k (arg k (blockN k n))

/-- `mod.rs:337-359` `no_trailing_input`. -/
def noTrailing {α : Type} (p : Parser α) : Parser α := fun i =>
  (p i).bind fun r a => if (trim r).isEmpty then .ok [] a else .fail

/-- `mod.rs:82-98` `expression`. Every nested block is in a shorter text, which bounds the depth
(`blockN_enough`). -/
def expression (k : Env) : Parser Expr := fun i => noTrailing (expr (blockN k (i.length + 1))) i

/-- `ast.rs:453-458` `Parameter`. -/
structure Param where
  name : Str
  ty : Option Str
deriving DecidableEq, Repr

/-- `ast.rs:462-475` `DefinitionImpl`. -/
structure DefImpl where
  name : Str
  inTy : Option Str
  params : List Param
  body : Expr

/-- `mod.rs:821-835` `def_op`. -/
def defOp (k : Env) : Parser Str := fun i =>
  (ws (fun i => (tag ['d', 'e', 'f', ' '] i).bind fun i _ => op k i) i).bind fun i o =>
    match o with
    | .single t => .ok i t
    | .path _ _ => .fail

/-- `mod.rs:861-872` `def_param`. -/
def defParam (k : Env) : Parser Param := fun i =>
  (opIdent k.cls i).bind fun i name =>
    match i with
    | ':' :: r => (opIdent k.cls r).map fun t => ⟨name, some t⟩
    | i => .ok i ⟨name, none⟩

/-- `mod.rs:837-859` `def_params`. -/
def defParams (k : Env) : Parser (List Param) := fun i =>
  (chr '(' i).bind fun i _ =>
  (many0 (ws (defParam k)) i).bind fun i ps =>
  (chr ')' i).bind fun i _ =>
    if (ps.map (·.name)).Nodup then .ok i ps else .err

/-- `mod.rs:789-819` `def_impl_inner`. -/
def definitionImpl (k : Env) : Parser DefImpl := fun i =>
  let b := blockN k (i.length + 1)
  (defOp k i).bind fun i name =>
  (ws (opt (opIdent k.cls)) i).bind fun i inTy =>
  (defParams k i).bind fun i ps =>
  (noTrailing (ws fun i =>
    (chr '{' i).bind fun i _ => (ws (expr b) i).bind fun i e => (chr '}' i).map fun _ => e) i).map
    fun e => ⟨name, inTy, ps, e⟩

/-- `ast.rs:510-517` `Field`. -/
structure Field where
  name : Str
  ty : Str
  params : List Str
deriving DecidableEq, Repr

/-- `ast.rs:492-507` `TypeVariant`; a variant has fields or not. -/
inductive TyBody
  | sum (vs : List (Str × Option (List Field)))
  | product (fs : List Field)
deriving DecidableEq, Repr

/-- `ast.rs:479-488` `DefinitionType`. -/
structure DefTy where
  name : Str
  body : TyBody
deriving DecidableEq, Repr

/-- `nom::multi::many1`. -/
def many1 {α : Type} (f : Parser α) : Parser (List α) := fun i =>
  (f i).bind fun i a => manyLoop f (i.length + 1) i [a]

/-- `nom::multi::separated_list0`. -/
def sepList0 {α β : Type} (sep : Parser β) (f : Parser α) : Parser (List α) := fun i =>
  match f i with
  | .err => .ok i []
  | .fail => .fail
  | .ok i a => sepLoop sep f i.length i [a]

/-- `mod.rs:920-944` `defty_field`. -/
def deftyField (k : Env) : Parser Field := fun i =>
  (opIdent k.cls i).bind fun i name =>
  (cut (chr ':') i).bind fun i _ =>
  (cut (opIdent k.cls) i).bind fun i ty =>
    match i with
    | '<' :: r =>
      (cut (fun i => (many1 (ws (opIdent k.cls)) i).bind fun i ps => (ws (chr '>') i).map fun _ => ps) r).map
        fun ps => ⟨name, ty, ps⟩
    | i => .ok i ⟨name, ty, []⟩

/-- `mod.rs:916-918` `defty_fields`. -/
def deftyFields (k : Env) : Parser (List Field) := fun i =>
  (chr '{' i).bind fun i _ =>
  (many0 (ws (deftyField k)) i).bind fun i fs =>
  (chr '}' i).map fun _ => fs

/-- `mod.rs:908-914` `defty_variant`. -/
def deftyVariant (k : Env) : Parser (Str × Option (List Field)) := fun i =>
  (ws (opIdent k.cls) i).bind fun i name =>
  (opt (ws (deftyFields k)) i).map fun fs => (name, fs)

/-- `mod.rs:874-906` `def_type_inner`, `defty_name`, `defty_variants`. -/
def definitionType (k : Env) : Parser DefTy := fun i =>
  (ws (fun i => (tag ['d', 'e', 'f', '-', 't', 'y', ' '] i).bind fun i _ => opIdent k.cls i) i).bind
    fun i name =>
  (match ws (tag [':', ':']) i with
    | .ok i _ => (sepList0 (ws (chr '|')) (ws (deftyVariant k)) i).map TyBody.sum
    | _ => (deftyFields k i).map TyBody.product).bind fun i ty =>
  if (skip isMulti i).isEmpty then .ok i ⟨name, ty⟩ else .err

/-- `mod.rs:57-64` `ParseSuccess`. -/
inductive Parsed
  | impl (d : DefImpl)
  | ty (d : DefTy)
  | expr (e : Expr)

/-- `mod.rs:69-79` `parse`. -/
def parse (k : Env) : Parser Parsed := fun i =>
  if ['d', 'e', 'f', ' '].isPrefixOf i then (definitionImpl k i).map .impl
  else if ['d', 'e', 'f', '-', 't', 'y', ' '].isPrefixOf i then (definitionType k i).map .ty
  else (expression k i).map .expr

end Verif.Parse
