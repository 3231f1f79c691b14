import Verif.Model.Parse
/-! Model of the positions in parsed input: the parser of `Model/Parse.lean` with the `Tag`s it makes
(`ogma/src/lang/syntax/parse/mod.rs`, `ogma/src/lang/syntax/ast.rs`), the language server's search for the part at
a position (`ogma-ls/completion.rs:199-520`) and the colouring of the input line in the shell
(`ogma-shell/lib.rs:482-572`). A position counts bytes. -/
namespace Verif.Tags
open Verif.Nom Verif.File
open Verif.Parse (Env Str ws many0 many1 sepList0 specOp knownOp wrapped pathEnd)

/-- The number of bytes of a text. -/
def size : Str → Nat
  | [] => 0
  | c :: cs => c.utf8Size + size cs

/-- A text without its first bytes. Slicing inside a character or past the end panics (`none`). -/
def dropBytes : Nat → Str → Option Str
  | 0, l => some l
  | _ + 1, [] => none
  | n + 1, c :: l => if c.utf8Size ≤ n + 1 then dropBytes (n + 1 - c.utf8Size) l else none

/-- The first bytes of a text. -/
def takeBytes : Nat → Str → Option Str
  | 0, _ => some []
  | _ + 1, [] => none
  | n + 1, c :: l =>
    if c.utf8Size ≤ n + 1 then (takeBytes (n + 1 - c.utf8Size) l).map (c :: ·) else none

/-- `ast.rs:21-32` `Tag_`, without the line it is in and the file of that line. -/
structure Span where
  start : Nat
  stop : Nat
deriving DecidableEq, Repr

/-- `&line[a..b]`. -/
def slice (line : Str) (a b : Nat) : Option Str :=
  if b < a then none else (dropBytes a line).bind (takeBytes (b - a))

/-- `ast.rs:59-63` `Tag::str`. -/
def Span.str (line : Str) (s : Span) : Option Str := slice line s.start s.stop

/-- `self.line.offset(i)`: where the remaining input starts in the line. -/
def off (w i : Str) : Nat := size w - size i

/-- `mod.rs:36-46` `Line::create_tag` of a text at the start of the remaining input. -/
def mkTag (w i t : Str) : Span := ⟨off w i, off w i + size t⟩

/-- `ast.rs:530-535` `Op`. -/
inductive LOp
  | single (t : Span)
  | path (rooted : Bool) (cs : List Span)
deriving DecidableEq, Repr

mutual
/-- `ast.rs:177-185` `Expression`. -/
inductive LExpr
  | mk (tag : Span) (blocks : List LBlk) (out : Option Span)
/-- `ast.rs:257-267` `PrefixBlock`. -/
inductive LBlk
  | mk (inTy : Option Span) (op : LOp) (outTy : Option Span) (terms : List LTerm)
/-- `ast.rs:414-420` `Term`. -/
inductive LTerm
  | flag (t : Span)
  | arg (a : LArg)
/-- `ast.rs:423-435` `Argument`. `dot` is the expression which has one `DotOperatorBlock` (`ast.rs:335-345`); its tag is
that of the block (`mod.rs:588-592`). -/
inductive LArg
  | ident (t : Span)
  | num (t : Span)
  | pound (c : Char) (t : Span)
  | var (t : Span)
  | expr (e : LExpr)
  | dot (tag op : Span) (lhs : LArg) (rhs : Span) (out : Option Span)
end

def LExpr.tag : LExpr → Span
  | .mk t _ _ => t

/-- `ast.rs:442-448` `Argument::tag`. -/
def LArg.tag : LArg → Span
  | .ident t => t
  | .num t => t
  | .pound _ t => t
  | .var t => t
  | .expr e => e.tag
  | .dot t _ _ _ _ => t

/-- `ast.rs:373-386` `DotOperatorBlock::block_tag`: where it starts. A variable is tagged without its `$`. -/
def dotStart : LArg → Nat
  | .var t => t.start - 1
  | a => a.tag.start

/-- The end of a tag, or of the type after it. -/
def endOf (stop : Nat) : Option Span → Nat
  | none => stop
  | some t => t.stop

/-- `ast.rs:373-386` `DotOperatorBlock::block_tag`. -/
def dotTag (lhs : LArg) (rhs : Span) (out : Option Span) : Span := ⟨dotStart lhs, endOf rhs.stop out⟩

/-- `mod.rs:519-545` `op_ident`. -/
def lName (k : Env) (w : Str) : Parser Span := fun i => (opIdent k.cls i).map (mkTag w i)

/-- `mod.rs:325-335` `opt_ty`. -/
def lOptTy (k : Env) (w : Str) : Parser (Option Span) :=
  opt fun i => (chr ':' i).bind fun i _ => cut (lName k w) i

/-- `mod.rs:471-474`: the loop of `tmp_op_parser`; keeps the last part. -/
def lOpTail (k : Env) (w : Str) : Nat → List Char → Span → PR Span
  | 0, i, t => .ok i t
  | n + 1, i, t =>
    match (tag [':', ':'] i).bind fun i _ => lName k w i with
    | .ok r e => lOpTail k w n r e
    | _ => .ok i t

/-- `mod.rs:464-480` `tmp_op_parser`: one tag from the first part to the last. -/
def lOpName (k : Env) (w : Str) : Parser Span := fun i =>
  (lName k w i).bind fun i t => (lOpTail k w i.length i t).map fun e => ⟨t.start, e.stop⟩

/-- `mod.rs:431-461` `path`. -/
def lPath (k : Env) (w : Str) : Parser (Bool × List Span) := fun i =>
  let rooted := (tag ['/'] i).isOk
  let i := if rooted then i.drop 1 else i
  (sepList1 (tag ['/']) (lOpName k w) i).bind fun i cs => pathEnd i (rooted, cs)

/-- One component is a plain command (`mod.rs:493-497`). -/
def opOf : Bool × List Span → LOp
  | (_, [t]) => .single t
  | (rooted, cs) => .path rooted cs

/-- `mod.rs:483-500` `op`. -/
def lOp (k : Env) (w : Str) : Parser LOp := fun i =>
  match specOp i with
  | .ok r t => .ok r (.single (mkTag w i t))
  | _ => (lPath k w i).map opOf

/-- `mod.rs:741`: `wrapped_str`. The tag is without the quotes. -/
def lWrapped (w : Str) (q : Char) : Parser Span := fun i =>
  (chr q i).bind fun i _ =>
    (chr q (i.dropWhile (· != q))).map fun _ => mkTag w i (i.takeWhile (· != q))

/-- `mod.rs:737-763` `ident`. -/
def lIdent (w : Str) : Parser Span := fun i =>
  match i with
  | ':' :: _ => .fail
  | '"' :: _ => lWrapped w '"' i
  | '\'' :: _ => lWrapped w '\'' i
  | i => (takeTill1 Parse.breakon i).map (mkTag w i)

/-- `mod.rs:765-778` `num`. -/
def lNum (k : Env) (w : Str) : Parser Span := fun i => (Parse.num k i).map (mkTag w i)

/-- `mod.rs:733-735` `flag`. The tag is without the dashes. -/
def lFlag (w : Str) : Parser Span := fun i => (tag ['-', '-'] i).bind fun i _ => lIdent w i

/-- `mod.rs:606-614` `infix_rhs_ident`. -/
def lInfixRhs (k : Env) (w : Str) : Parser Span := fun i =>
  match i with
  | '"' :: _ => lIdent w i
  | '\'' :: _ => lIdent w i
  | i => lName k w i

/-- `mod.rs:579-598` `maybe_infix` with `mod.rs:618-635` `dot_infixed`. -/
def lInfixLoop (k : Env) (w : Str) : Nat → List Char → LArg → PR LArg
  | 0, i, lhs => .ok i lhs
  | n + 1, i, lhs =>
    match i with
    | '.' :: r =>
      (cut (lInfixRhs k w) r).bind fun i' rhs => (lOptTy k w i').bind fun i' out =>
        lInfixLoop k w n i' (.dot (dotTag lhs rhs out) (mkTag w i ['.']) lhs rhs out)
    | i => .ok i lhs

/-- `mod.rs:562-576` `term`. -/
def lTerm (k : Env) (w : Str) (arg : Parser LArg) : Parser LTerm := fun i =>
  if ['-', '-'].isPrefixOf i then (lFlag w i).map .flag
  else ((arg i).bind fun i a => lInfixLoop k w i.length i a).map .arg

/-- `mod.rs:409-429` `block`. -/
def lBlock (k : Env) (w : Str) (arg : Parser LArg) : Parser LBlk := fun i =>
  (lOptTy k w i).bind fun i inTy =>
  (lOp k w (skip isMulti i)).bind fun i o =>
  (lOptTy k w i).bind fun i outTy =>
  (many0 (ws (lTerm k w arg)) i).map fun ts => .mk inTy o outTy ts

/-- `mod.rs:375-379`: the blocks after pipes. -/
def lPipes (b : Parser LBlk) : Nat → List Char → List LBlk → PR (List LBlk)
  | 0, i, acc => .ok i acc
  | n + 1, i, acc =>
    match i with
    | '|' :: r => (b r).bind fun i x => lPipes b n i (acc ++ [x])
    | i => .ok i acc

/-- `mod.rs:361-407` `expr`. The tag goes from the input it was given to what remains. -/
def lExpr (w : Str) (b : Parser LBlk) : Parser LExpr := fun input =>
  (ws b input).bind fun i x =>
  (lPipes (ws b) i.length i [x]).bind fun i bs =>
    match ws b i with
    | .ok r y => .ok r (.mk ⟨off w input, off w r⟩ (bs ++ [y]) none)
    | _ => .ok i (.mk ⟨off w input, off w i⟩ bs none)

/-- `mod.rs:669-677`: the tag of an expression in braces, which start at the given position, with its type. -/
def LExpr.braced : LExpr → Nat → Option Span → LExpr
  | .mk t bs _, start, out => .mk ⟨start, endOf (t.stop + 1) out⟩ bs out

/-- `mod.rs:698-700`: the tag of a special literal includes the `#`. -/
def poundTag (t : Span) : Span := ⟨t.start - 1, t.stop⟩

/-- `mod.rs:645-727` `arg`, `var`. -/
def lArg (k : Env) (w : Str) (b : Parser LBlk) : Parser LArg := fun i =>
  match i with
  | '{' :: r =>
    if (skip isMulti r).head? = some '}' then .fail
    else
      (cut (fun i => (ws (lExpr w b) i).bind fun i e => (chr '}' i).map fun _ => e) r).bind fun i' e =>
        (lOptTy k w i').map fun t => .expr (e.braced (off w i) t)
  | ':' :: _ => .fail
  | '$' :: r => (lName k w r).map .var
  | '#' :: r =>
    (cut (opIdent k.cls) r).bind fun i c =>
      match c with
      | [ch] => if ch.utf8Size = 1 then .ok i (.pound ch (poundTag (mkTag w r c))) else .fail
      | _ => .fail
  | i =>
    if Parse.breakonS i then .err
    else
      match lNum k w i with
      | .ok r s => .ok r (.num s)
      | _ =>
        if knownOp k i then
          (ws b i).bind fun r x => .ok r (.expr (.mk ⟨off w i, off w r⟩ [x] none))
        else (lIdent w i).map .ident

/-- Blocks nested up to a depth. -/
def lBlockN (k : Env) (w : Str) : Nat → Parser LBlk
  | 0 => fun _ => .err
  | n + 1 => lBlock k w (lArg k w (lBlockN k w n))

/-- `mod.rs:82-98` `expression`. -/
def expression (k : Env) : Parser LExpr := fun i =>
  Parse.noTrailing (lExpr i (lBlockN k i (i.length + 1))) i

/-- `ast.rs:453-458` `Parameter`. -/
structure LParam where
  name : Span
  ty : Option Span
deriving DecidableEq, Repr

/-- `ast.rs:462-475` `DefinitionImpl`. -/
structure LDefImpl where
  name : Span
  inTy : Option Span
  params : List LParam
  body : LExpr

/-- `mod.rs:821-835` `def_op`. -/
def lDefOp (k : Env) (w : Str) : Parser Span := fun i =>
  (ws (fun i => (tag ['d', 'e', 'f', ' '] i).bind fun i _ => lOp k w i) i).bind fun i o =>
    match o with
    | .single t => .ok i t
    | .path _ _ => .fail

/-- `mod.rs:861-872` `def_param`. -/
def lDefParam (k : Env) (w : Str) : Parser LParam := fun i =>
  (lName k w i).bind fun i name =>
    match i with
    | ':' :: r => (lName k w r).map fun t => ⟨name, some t⟩
    | i => .ok i ⟨name, none⟩

/-- `mod.rs:837-859` `def_params`: names are compared as texts. -/
def lDefParams (k : Env) (w : Str) : Parser (List LParam) := fun i =>
  (chr '(' i).bind fun i _ =>
  (many0 (ws (lDefParam k w)) i).bind fun i ps =>
  (chr ')' i).bind fun i _ =>
    if (ps.map (fun p => p.name.str w)).Nodup then .ok i ps else .err

/-- `mod.rs:789-819` `def_impl_inner`. The braces are not part of the tag of the body. -/
def definitionImpl (k : Env) : Parser LDefImpl := fun w =>
  let b := lBlockN k w (w.length + 1)
  (lDefOp k w w).bind fun i name =>
  (ws (opt (lName k w)) i).bind fun i inTy =>
  (lDefParams k w i).bind fun i ps =>
  (Parse.noTrailing (ws fun i =>
    (chr '{' i).bind fun i _ => (ws (lExpr w b) i).bind fun i e => (chr '}' i).map fun _ => e) i).map
    fun e => ⟨name, inTy, ps, e⟩

/-- `ast.rs:510-517` `Field`. -/
structure LField where
  name : Span
  ty : Span
  params : List Span
deriving DecidableEq, Repr

/-- `ast.rs:492-507` `TypeVariant`, `Variant`. -/
inductive LTyBody
  | sum (vs : List (Span × Option (List LField)))
  | product (fs : List LField)
deriving DecidableEq, Repr

/-- `ast.rs:479-488` `DefinitionType`. -/
structure LDefTy where
  name : Span
  body : LTyBody
deriving DecidableEq, Repr

/-- `mod.rs:920-944` `defty_field`. -/
def lDeftyField (k : Env) (w : Str) : Parser LField := fun i =>
  (lName k w i).bind fun i name =>
  (cut (chr ':') i).bind fun i _ =>
  (cut (lName k w) i).bind fun i ty =>
    match i with
    | '<' :: r =>
      (cut (fun i => (many1 (ws (lName k w)) i).bind fun i ps => (ws (chr '>') i).map fun _ => ps) r).map
        fun ps => ⟨name, ty, ps⟩
    | i => .ok i ⟨name, ty, []⟩

/-- `mod.rs:916-918` `defty_fields`. -/
def lDeftyFields (k : Env) (w : Str) : Parser (List LField) := fun i =>
  (chr '{' i).bind fun i _ =>
  (many0 (ws (lDeftyField k w)) i).bind fun i fs =>
  (chr '}' i).map fun _ => fs

/-- `mod.rs:908-914` `defty_variant`. -/
def lDeftyVariant (k : Env) (w : Str) : Parser (Span × Option (List LField)) := fun i =>
  (ws (lName k w) i).bind fun i name =>
  (opt (ws (lDeftyFields k w)) i).map fun fs => (name, fs)

/-- `mod.rs:886-889`, `mod.rs:904-906`: variants after `::`, or fields. -/
def lTyBody (k : Env) (w : Str) : Parser LTyBody := fun i =>
  match ws (tag [':', ':']) i with
  | .ok i _ => (sepList0 (ws (chr '|')) (ws (lDeftyVariant k w)) i).map LTyBody.sum
  | _ => (lDeftyFields k w i).map LTyBody.product

/-- `mod.rs:874-906` `def_type_inner`, `defty_name`. -/
def definitionType (k : Env) : Parser LDefTy := fun w =>
  (ws (fun i => (tag ['d', 'e', 'f', '-', 't', 'y', ' '] i).bind fun i _ => lName k w i) w).bind
    fun i name =>
  (lTyBody k w i).bind fun i ty =>
  if (skip isMulti i).isEmpty then .ok i ⟨name, ty⟩ else .err

/-- `mod.rs:57-64` `ParseSuccess`. -/
inductive LParsed
  | impl (d : LDefImpl)
  | ty (d : LDefTy)
  | expr (e : LExpr)

/-- `mod.rs:69-79` `parse`. -/
def parse (k : Env) : Parser LParsed := fun i =>
  if ['d', 'e', 'f', ' '].isPrefixOf i then (definitionImpl k i).map .impl
  else if ['d', 'e', 'f', '-', 't', 'y', ' '].isPrefixOf i then (definitionType k i).map .ty
  else (expression k i).map .expr

/-! The parts of parsed input. -/

/-- `completion.rs:233-262` `NodeType`. -/
inductive NodeType
  | command | type | ident | num | var | pound | flag | parameter | field | variant | tyParameter
deriving DecidableEq, Repr

/-- `completion.rs:225-230` `Node`. -/
structure Node where
  tag : Span
  ty : NodeType
deriving DecidableEq, Repr

/-- `ast.rs:555-569`, `ast.rs:594-599`: the tag of an operation. That of a path is `Path::tag`. -/
def LOp.tag : LOp → Span
  | .single t => t
  | .path rooted cs =>
    match cs.head?, cs.getLast? with
    | some a, some b => ⟨if rooted then a.start - 1 else a.start, b.stop⟩
    | _, _ => ⟨0, 0⟩

/-- `ast.rs:414-420`: the end of the tag of a term. -/
def LTerm.stop : LTerm → Nat
  | .flag t => t.stop
  | .arg a => a.tag.stop

/-- `ast.rs:287-312` `PrefixBlock::block_tag`. -/
def LBlk.tag : LBlk → Span
  | .mk inTy o outTy ts =>
    ⟨match inTy with
      | none => o.tag.start
      | some t => t.start - 1,
     match ts.getLast? with
      | none => endOf o.tag.stop outTy
      | some t => t.stop⟩

mutual
/-- Whether an operation is a path; asking such a block for its operation panics (`ast.rs:269-274`). -/
def LExpr.usesPath : LExpr → Bool
  | .mk _ bs _ => pathsBs bs
def pathsBs : List LBlk → Bool
  | [] => false
  | b :: bs => b.usesPath || pathsBs bs
def LBlk.usesPath : LBlk → Bool
  | .mk _ o _ ts => (match o with | .single _ => false | .path _ _ => true) || pathsTs ts
def pathsTs : List LTerm → Bool
  | [] => false
  | t :: ts => t.usesPath || pathsTs ts
def LTerm.usesPath : LTerm → Bool
  | .flag _ => false
  | .arg a => a.usesPath
def LArg.usesPath : LArg → Bool
  | .expr e => e.usesPath
  | .dot _ _ lhs _ _ => lhs.usesPath
  | _ => false
end

mutual
/-- `completion.rs:397-402`, `completion.rs:415-421`, `completion.rs:433-441`, `completion.rs:457-468` `append_leaves`. What
it is for a path is not used: there the code panics. -/
def LExpr.leaves : LExpr → List Node
  | .mk _ bs _ => leavesBs bs
def leavesBs : List LBlk → List Node
  | [] => []
  | b :: bs => b.leaves ++ leavesBs bs
def LBlk.leaves : LBlk → List Node
  | .mk _ o _ ts => ⟨o.tag, .command⟩ :: leavesTs ts
def leavesTs : List LTerm → List Node
  | [] => []
  | t :: ts => t.leaves ++ leavesTs ts
def LTerm.leaves : LTerm → List Node
  | .flag t => [⟨t, .flag⟩]
  | .arg a => a.leaves
def LArg.leaves : LArg → List Node
  | .ident t => [⟨t, .ident⟩]
  | .num t => [⟨t, .num⟩]
  | .pound _ t => [⟨t, .pound⟩]
  | .var t => [⟨t, .var⟩]
  | .expr e => e.leaves
  | .dot _ op lhs rhs _ => ⟨op, .command⟩ :: (lhs.leaves ++ [⟨rhs, .ident⟩])
end

/-- `completion.rs:493-500` `append_leaves` of fields. -/
def LField.leaves (f : LField) : List Node :=
  ⟨f.name, .field⟩ :: ⟨f.ty, .type⟩ :: f.params.map fun p => ⟨p, .tyParameter⟩

/-- `completion.rs:512-520` `append_leaves` of variants. -/
def variantLeaves (v : Span × Option (List LField)) : List Node :=
  ⟨v.1, .variant⟩ ::
    match v.2 with
    | none => []
    | some fs => fs.flatMap LField.leaves

/-- `completion.rs:371-382`. -/
def LTyBody.leaves : LTyBody → List Node
  | .sum vs => vs.flatMap variantLeaves
  | .product fs => fs.flatMap LField.leaves

/-- `completion.rs:299-305`: the `def` before the name. -/
def defTag (name : Span) : Span := ⟨0, name.start - 1⟩

def typeLeaf : Option Span → List Node
  | none => []
  | some t => [⟨t, .type⟩]

/-- `completion.rs:313-335`, `completion.rs:356-384`, `completion.rs:397-402` `append_leaves`. -/
def LParsed.leaves : LParsed → List Node
  | .impl d =>
    ⟨defTag d.name, .command⟩ :: ⟨d.name, .command⟩ ::
      (typeLeaf d.inTy ++ d.params.map (fun p => ⟨p.name, .parameter⟩) ++ d.body.leaves)
  | .ty d => ⟨defTag d.name, .command⟩ :: ⟨d.name, .type⟩ :: d.body.leaves
  | .expr e => e.leaves

def LParsed.usesPath : LParsed → Bool
  | .impl d => d.body.usesPath
  | .ty _ => false
  | .expr e => e.usesPath

/-- `Range::contains`. -/
def Span.has (s : Span) (pos : Nat) : Bool := s.start ≤ pos && pos < s.stop

/-- `completion.rs:287-293` `is_node`. -/
def isNode (t : Span) (pos : Nat) (ty : NodeType) : Option Node := if t.has pos then some ⟨t, ty⟩ else none

mutual
/-- `completion.rs:389-395` `node_at_pos`. That of blocks panics on a path; what it is then is not used. -/
def LExpr.nodeAt (pos : Nat) : LExpr → Option Node
  | .mk t bs _ => if t.has pos then nodeAtBs pos bs else none
def nodeAtBs (pos : Nat) : List LBlk → Option Node
  | [] => none
  | b :: bs => (b.nodeAt pos).or (nodeAtBs pos bs)
/-- `completion.rs:406-413`. -/
def LBlk.nodeAt (pos : Nat) : LBlk → Option Node
  | .mk inTy o outTy ts =>
    if (LBlk.mk inTy o outTy ts).tag.has pos then (isNode o.tag pos .command).or (nodeAtTs pos ts) else none
def nodeAtTs (pos : Nat) : List LTerm → Option Node
  | [] => none
  | t :: ts => (t.nodeAt pos).or (nodeAtTs pos ts)
/-- `completion.rs:425-431`. -/
def LTerm.nodeAt (pos : Nat) : LTerm → Option Node
  | .flag t => isNode t pos .flag
  | .arg a => a.nodeAt pos
/-- `completion.rs:446-455`. The tag of an infix expression is that of its only block. -/
def LArg.nodeAt (pos : Nat) : LArg → Option Node
  | .ident t => isNode t pos .ident
  | .num t => isNode t pos .num
  | .pound _ t => isNode t pos .pound
  | .var t => isNode t pos .var
  | .expr e => e.nodeAt pos
  | .dot t op lhs rhs _ =>
    if t.has pos then (isNode op pos .command).or ((lhs.nodeAt pos).or (isNode rhs pos .ident)) else none
end

/-- `completion.rs:483-491`. -/
def LField.nodeAt (pos : Nat) (f : LField) : Option Node :=
  (isNode f.name pos .field).or ((isNode f.ty pos .type).or
    (f.params.findSome? fun p => isNode p pos .tyParameter))

/-- `completion.rs:504-510`. -/
def variantNodeAt (pos : Nat) (v : Span × Option (List LField)) : Option Node :=
  (isNode v.1 pos .variant).or (v.2.bind fun fs => fs.findSome? (LField.nodeAt pos))

/-- `completion.rs:350-353`. -/
def LTyBody.nodeAt (pos : Nat) : LTyBody → Option Node
  | .sum vs => vs.findSome? (variantNodeAt pos)
  | .product fs => fs.findSome? (LField.nodeAt pos)

/-- `completion.rs:298-311`, `completion.rs:339-354`, `completion.rs:389-395` `node_at_pos`. -/
def LParsed.nodeAt (pos : Nat) : LParsed → Option Node
  | .impl d =>
    if pos < d.name.start then some ⟨defTag d.name, .command⟩
    else (isNode d.name pos .command).or ((d.inTy.bind fun t => isNode t pos .type).or
      ((d.body.nodeAt pos).or (d.params.findSome? fun p => isNode p.name pos .parameter)))
  | .ty d =>
    if pos < d.name.start then some ⟨defTag d.name, .command⟩
    else (isNode d.name pos .type).or (d.body.nodeAt pos)
  | .expr e => e.nodeAt pos

/-! The colours of the input line. -/

/-- `lib.rs:510-513`. -/
def isQuote (c : Option Char) : Bool := c == some '\'' || c == some '"'

/-- `lib.rs:504-522`: variables and flags are coloured with their `$` and `--`. Note that `chars().nth` counts
characters, and the tag bytes. -/
def shownTag (line : Str) (n : Node) : Span :=
  match n.ty with
  | .var => ⟨n.tag.start - 1, n.tag.stop⟩
  | .flag =>
    if isQuote line[n.tag.start - 1]? then ⟨n.tag.start - 3, n.tag.stop + 1⟩ else ⟨n.tag.start - 2, n.tag.stop⟩
  | _ => n.tag

/-- A part of the shown line: its colour, if any, and its text. -/
structure Piece where
  colour : Option NodeType
  text : Str
deriving DecidableEq, Repr

/-- `lib.rs:529-546`: the text between the nodes, and the nodes. A slice can panic (`none`). -/
def pieces (line : Str) : Nat → List Node → Option (List Piece)
  | i, [] => if i < size line then (slice line i (size line)).map fun t => [⟨none, t⟩] else some []
  | i, n :: ns =>
    (if n.tag.start > i then (slice line i n.tag.start).map fun t => [⟨none, t⟩] else some []).bind fun a =>
    (n.tag.str line).bind fun t =>
    (pieces line n.tag.stop ns).map fun r => a ++ ⟨some n.ty, t⟩ :: r

/-- `lib.rs:501-547` `highlight_from_nodes`. -/
def highlight (line : Str) (ns : List Node) : Option (List Piece) :=
  pieces line 0 ((ns.map fun n => ⟨shownTag line n, n.ty⟩).mergeSort fun a b => a.tag.start ≤ b.tag.start)

/-- `lib.rs:484-499` `syntax_highlight`: a line which does not parse is shown as it is. -/
def syntaxHighlight (k : Env) (line : Str) : Option (List Piece) :=
  match parse k line with
  | .ok _ x => if x.usesPath then none else highlight line x.leaves
  | _ => some [⟨none, line⟩]

end Verif.Tags
