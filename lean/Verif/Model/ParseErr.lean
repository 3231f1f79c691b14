import Verif.Model.Parse
import Verif.Model.Tags
import Verif.Model.Trace
/-! Model of the errors of the parser (`ogma/src/lang/syntax/parse/mod.rs`): which pieces of the text an error points at, and what it says
would be expected. Also which completions the shell offers (`ogma-ls/completion.rs:47-99`), which depends on them. The parsers are those of
`Model/Parse.lean` with the errors filled in. -/
namespace Verif.ParseErr
open Verif Verif.Nom Verif.File Verif.Parse

/-- `mod.rs:133-158` `Expecting`. -/
inductive Expecting
  | none | impl | type | term | speclit | path
deriving DecidableEq, Repr

/-- `mod.rs:166-170` `ErrIn` with its context: a piece of the text, what follows it, and the note. -/
structure Piece where
  text : Str
  after : Str
  note : String
deriving DecidableEq, Repr

/-- `mod.rs:160-164` `ParsingError`. -/
structure Err where
  locs : List Piece
  exp : Expecting
deriving DecidableEq, Repr

/-- `IResult`, with the error. -/
inductive XR (α : Type) where
  | ok (rest : Str) (a : α)
  | err (e : Err)
  | fail (e : Err)

abbrev XParser (α : Type) := Str → XR α

def XR.bind {α β : Type} (x : XR α) (f : Str → α → XR β) : XR β :=
  match x with
  | .ok r a => f r a
  | .err e => .err e
  | .fail e => .fail e

def XR.map {α β : Type} (f : α → β) : XR α → XR β
  | .ok r a => .ok r (f a)
  | .err e => .err e
  | .fail e => .fail e

/-- `Err::map`. -/
def XR.mapErr {α : Type} (f : Err → Err) : XR α → XR α
  | .ok r a => .ok r a
  | .err e => .err (f e)
  | .fail e => .fail (f e)

/-- The rest of the text from here. -/
def Piece.here (i : Str) (note : String) : Piece := ⟨i, [], note⟩

/-- `mod.rs:185-190` `from_error_kind`. -/
def Err.kind (i : Str) : Err := ⟨[.here i ""], .none⟩

/-- `mod.rs:195-200` `from_char`. -/
def Err.char (i : Str) (c : Char) : Err := ⟨[.here i ("expected `" ++ c.toString ++ "`")], .none⟩

/-- `mod.rs:191-194` `append`, `mod.rs:204-207` `add_context`. -/
def Err.also (i : Str) (note : String) (e : Err) : Err := { e with locs := e.locs ++ [.here i note] }

/-- `mod.rs:287-304` `exp`. -/
def expecting {α : Type} (x : Expecting) (p : XParser α) : XParser α := fun i =>
  (p i).mapErr fun e => if e.exp = .none then { e with exp := x } else e

/-- `mod.rs:307-322` `maybe_cx`, and `nom::error::context`. -/
def context {α : Type} (note : String) (p : XParser α) : XParser α := fun i => (p i).mapErr (Err.also i note)

/-! ### nom -/

def xcut {α : Type} (p : XParser α) : XParser α := fun i =>
  match p i with
  | .err e => .fail e
  | r => r

def xopt {α : Type} (p : XParser α) : XParser (Option α) := fun i =>
  match p i with
  | .ok r a => .ok r (some a)
  | .err _ => .ok i none
  | .fail e => .fail e

def xtag (t : Str) : XParser Unit := fun i => if t.isPrefixOf i then .ok (i.drop t.length) () else .err (.kind i)

def xchr (c : Char) : XParser Unit := fun i =>
  match i with
  | [] => .err (.char [] c)
  | d :: r => if d = c then .ok r () else .err (.char (d :: r) c)

def xtakeWhile1 (p : Char → Bool) : XParser Str := fun i =>
  if (i.takeWhile p).isEmpty then .err (.kind i) else .ok (i.dropWhile p) (i.takeWhile p)

def xtakeTill1 (p : Char → Bool) : XParser Str := xtakeWhile1 fun c => !p c

def xsepLoop {α β : Type} (sep : XParser β) (f : XParser α) : Nat → Str → List α → XR (List α)
  | 0, i, acc => .ok i acc
  | n + 1, i, acc =>
    match sep i with
    | .err _ => .ok i acc
    | .fail e => .fail e
    | .ok i1 _ =>
      if i1.length = i.length then .err (.kind i1)
      else match f i1 with
        | .err _ => .ok i acc
        | .fail e => .fail e
        | .ok i2 a => xsepLoop sep f n i2 (acc ++ [a])

def xsepList1 {α β : Type} (sep : XParser β) (f : XParser α) : XParser (List α) := fun i =>
  (f i).bind fun i a => xsepLoop sep f i.length i [a]

def xsepList0 {α β : Type} (sep : XParser β) (f : XParser α) : XParser (List α) := fun i =>
  match f i with
  | .err _ => .ok i []
  | .fail e => .fail e
  | .ok i a => xsepLoop sep f i.length i [a]

def xws {α : Type} (p : XParser α) : XParser α := fun i =>
  (p (skip isMulti i)).bind fun r a => .ok (skip isMulti r) a

/-- As `Parse.manyLoop`; the fuel is never used up. -/
def xmanyLoop {α : Type} (f : XParser α) : Nat → Str → List α → XR (List α)
  | 0, i, _ => .err (.kind i)
  | n + 1, i, acc =>
    match f i with
    | .err _ => .ok i acc
    | .fail e => .fail e
    | .ok i1 a => if i1.length = i.length then .err (.kind i) else xmanyLoop f n i1 (acc ++ [a])

def xmany0 {α : Type} (f : XParser α) : XParser (List α) := fun i => xmanyLoop f (i.length + 1) i []

/-- `append` of `many1`: the first error is extended. -/
def firstErr {α : Type} (i : Str) : XR α → XR α
  | .err e => .err (e.also i "")
  | r => r

def xmany1 {α : Type} (f : XParser α) : XParser (List α) := fun i =>
  (firstErr i (f i)).bind fun i a => xmanyLoop f (i.length + 1) i [a]

/-! ### Expressions -/

/-- `mod.rs:524-547` `op_ident`. -/
def xopIdent (k : Classes) : XParser Str
  | [] => .err ⟨[.here [] "empty identifier"], .none⟩
  | c :: cs =>
    if !k.alpha c then .err ⟨[⟨[c], cs, "invalid identifier, expecting alphabetic character, found `" ++ c.toString ++ "`"⟩], .none⟩
    else xtakeWhile1 k.ident (c :: cs)

/-- `mod.rs:325-335` `opt_ty`. -/
def xoptTy (k : Env) : XParser (Option Str) :=
  xopt fun i => (xchr ':' i).bind fun i _ => expecting .type (xcut (context "expecting a type identifier" (xopIdent k.cls))) i

/-- `mod.rs:471-474`: the loop of `tmp_op_parser`. -/
def xopTail (k : Env) : Nat → Str → Str → XR Str
  | 0, i, acc => .ok i acc
  | n + 1, i, acc =>
    match (xtag [':', ':'] i).bind fun i _ => xopIdent k.cls i with
    | .ok r t => xopTail k n r (acc ++ [':', ':'] ++ t)
    | _ => .ok i acc

/-- `mod.rs:464-480` `tmp_op_parser`. -/
def xopName (k : Env) : XParser Str := fun i => (xopIdent k.cls i).bind fun i t => xopTail k i.length i t

/-- `mod.rs:447-451`: up to the next white space, or all of it. The piece and what follows. -/
def component (x : Str) : Str × Str :=
  if (x.takeWhile fun c => !isWs c) = [] then (x, []) else (x.takeWhile (fun c => !isWs c), x.dropWhile fun c => !isWs c)

/-- `mod.rs:440-460`; `i` is the input of the path. -/
def xpathEnd {α : Type} (i r : Str) (x : α) : XR α :=
  match r with
  | ['/'] => .err ⟨[.here i "trailing partition delimiter"], .path⟩
  | '/' :: s => .err ⟨[⟨(component s).1, (component s).2, "not a valid partition component"⟩], .none⟩
  | r => .ok r x

/-- `mod.rs:431-461` `path`. -/
def xpath (k : Env) : XParser (Bool × List Str) := fun i =>
  let rooted := (tag ['/'] i).isOk
  (xsepList1 (xtag ['/']) (xopName k) (if rooted then i.drop 1 else i)).bind fun r cs => xpathEnd i r (rooted, cs)

/-- A path of one component is a name (`mod.rs:492-497`). -/
def opOf : Bool × List Str → Op
  | (_, [t]) => .single t
  | (rooted, cs) => .path rooted cs

/-- `mod.rs:483-500` `op`. -/
def xop (k : Env) : XParser Op := fun i =>
  match specOp i with
  | .ok r t => .ok r (.single t)
  | _ => (xpath k i).map opOf

/-- `mod.rs:741`: `wrapped_str`. -/
def xwrapped (q : Char) : XParser Str := fun i =>
  (xchr q i).bind fun i _ => (xchr q (i.dropWhile (· != q))).map fun _ => i.takeWhile (· != q)

/-- `mod.rs:737-763` `ident`. -/
def xident : XParser Str := fun i =>
  match i with
  | ':' :: r => .fail ⟨[.here (':' :: r) "expecting an identifier but found a type specifier"], .none⟩
  | '"' :: r => xwrapped '"' ('"' :: r)
  | '\'' :: r => xwrapped '\'' ('\'' :: r)
  | i => xtakeTill1 breakon i

/-- `mod.rs:733-735` `flag`. -/
def xflag : XParser Str := fun i => (xtag ['-', '-'] i).bind fun i _ => xident i

/-- `mod.rs:606-614` `infix_rhs_ident`. -/
def xinfixRhs (k : Env) : XParser Str := fun i =>
  match i with
  | '"' :: r => xident ('"' :: r)
  | '\'' :: r => xident ('\'' :: r)
  | i => xopIdent k.cls i

/-- `mod.rs:579-598` `maybe_infix` with `mod.rs:618-635` `dot_infixed`. -/
def xinfixLoop (k : Env) : Nat → Str → Arg → XR Arg
  | 0, i, lhs => .ok i lhs
  | n + 1, i, lhs =>
    match i with
    | '.' :: r =>
      (xcut (xinfixRhs k) r).bind fun i rhs => (xoptTy k i).bind fun i out => xinfixLoop k n i (.dot lhs rhs out)
    | i => .ok i lhs

/-- `mod.rs:562-576` `term`. -/
def xterm (k : Env) (arg : XParser Arg) : XParser Term := fun i =>
  if ['-', '-'].isPrefixOf i then (xflag i).map .flag
  else ((arg i).bind fun i a => xinfixLoop k i.length i a).map .arg

/-- `mod.rs:409-429` `block`. -/
def xblock (k : Env) (arg : XParser Arg) : XParser Blk := fun i =>
  (xoptTy k i).bind fun i inTy =>
  (expecting .impl (fun i => xop k (skip isMulti i)) i).bind fun i o =>
  (xoptTy k i).bind fun i outTy =>
  (xmany0 (xws (xterm k arg)) i).map fun ts => .mk inTy o outTy ts

/-- `mod.rs:369`: `blkparse`. -/
def xblk (b : XParser Blk) : XParser Blk := context "no command" (xws b)

/-- `mod.rs:375-380`: the blocks after pipes. -/
def xpipes (b : XParser Blk) : Nat → Str → List Blk → XR (List Blk)
  | 0, i, acc => .ok i acc
  | n + 1, i, acc =>
    match i with
    | '|' :: r => (b r).bind fun i x => xpipes b n i (acc ++ [x])
    | i => .ok i acc

/-- `mod.rs:363-407` `expr`. -/
def xexpr (b : XParser Blk) : XParser Expr := fun i =>
  (xblk b i).bind fun i x =>
  (xpipes (xblk b) i.length i [x]).bind fun i bs =>
    match xblk b i with
    | .ok r y => .ok r (.mk (bs ++ [y]) none)
    | _ => .ok i (.mk bs none)

/-- `mod.rs:698-710`: the character of a special literal; `r` follows the `#`, `i` the identifier. -/
def xpound (i c : Str) : XR Arg :=
  match c with
  | [ch] => if ch.utf8Size = 1 then .ok i (.pound ch)
    else .fail ⟨[⟨[ch], i, "special literals only have one character"⟩], .speclit⟩
  | c => .fail ⟨[⟨c, i, "special literals only have one character"⟩], .speclit⟩

/-- The number at the start, or a block, or an identifier (`mod.rs:711-725`). -/
def xword (k : Env) (b : XParser Blk) (i : Str) : XR Arg :=
  match num k i with
  | .ok r s => .ok r (.num s)
  | _ =>
    if knownOp k i then (xws b i).map fun x => .expr (.mk [x] none)
    else (xident i).map .ident

/-- `mod.rs:645-727` `arg`, `var`. -/
def xarg (k : Env) (b : XParser Blk) : XParser Arg := fun i =>
  match i with
  | '{' :: r =>
    if (skip isMulti r).head? = some '}' then
      .fail ⟨[⟨'{' :: (r.takeWhile isMulti ++ ['}']), (skip isMulti r).drop 1, "empty block"⟩], .impl⟩
    else
      (xcut (fun i => (xws (xexpr b) i).bind fun i e => (expecting .term (xchr '}') i).map fun _ => e) r).bind fun i e =>
        (xoptTy k i).map fun t => .expr (e.setOut t)
  | ':' :: r =>
    .fail ⟨[⟨':' :: r.takeWhile (fun c => !breakon c), r.dropWhile fun c => !breakon c, "unexpected type identifier"⟩], .term⟩
  | '$' :: r => (xopIdent k.cls r).map .var
  | '#' :: r => (xcut (expecting .speclit (xopIdent k.cls)) r).bind fun i c => xpound i c
  | i => if breakonS i then .err (.kind i) else xword k b i

/-- Blocks nested up to a depth. -/
def xblockN (k : Env) : Nat → XParser Blk
  | 0 => fun i => .err (.kind i)
  | n + 1 => xblock k (xarg k (xblockN k n))

/-- `i[..i.offset(rem)].rfind('}')` (`mod.rs:349`): the last closing brace of the text before `r`, with what follows it. -/
def lastBrace (r : Str) : Str → Option Str
  | [] => none
  | c :: s => if r.length < (c :: s).length then (lastBrace r s).or (if c = '}' then some s else none) else none

/-- `mod.rs:351-355`. -/
def trailing (i r : Str) : Err :=
  ⟨.here r "remaining input" :: (lastBrace r i).toList.map fun s => ⟨['}'], s, "possibly unnecessary brace"⟩, .none⟩

/-- `mod.rs:337-359` `no_trailing_input`. -/
def xnoTrailing {α : Type} (p : XParser α) : XParser α := fun i =>
  (p i).bind fun r a => if (trim r).isEmpty then .ok [] a else .fail (trailing i r)

/-- `mod.rs:82-97` `expression`. -/
def xexpression (k : Env) : XParser Expr := fun i => xnoTrailing (xexpr (xblockN k (i.length + 1))) i

/-! ### Definitions -/

/-- The error for the name of a definition that is a path (`mod.rs:824-831`): it points at the path. -/
def nameOf (i r : Str) : Op → XR Str
  | .single t => .ok (skip isMulti r) t
  | .path _ _ => .fail ⟨[⟨i.take (i.length - r.length), r, "paths cannot be used to define a definition name"⟩], .none⟩

/-- `mod.rs:821-835` `def_op`. -/
def xdefOp (k : Env) : XParser Str := fun i =>
  (xtag ['d', 'e', 'f', ' '] (skip isMulti i)).bind fun i _ => (xop k i).bind fun r o => nameOf i r o

/-- `mod.rs:861-872` `def_param`, with what follows the name. -/
def xdefParam (k : Env) : XParser (Param × Str) := fun i =>
  (xopIdent k.cls i).bind fun i name =>
    match i with
    | ':' :: r => (xopIdent k.cls r).map fun t => (⟨name, some t⟩, ':' :: r)
    | i => .ok i (⟨name, none⟩, i)

/-- `mod.rs:842-855`: the first parameter with a name seen before. -/
def repeated : List Str → List (Param × Str) → Option (Param × Str)
  | _, [] => none
  | seen, p :: ps => if p.1.name ∈ seen then some p else repeated (p.1.name :: seen) ps

def distinct (i : Str) (ps : List (Param × Str)) : XR (List Param) :=
  match repeated [] ps with
  | none => .ok i (ps.map (·.1))
  | some p => .err ⟨[⟨p.1.name, p.2, "parameters must be distinct: `" ++ String.ofList p.1.name ++ "` has been previously defined"⟩], .none⟩

/-- `mod.rs:837-859` `def_params`. -/
def xdefParams (k : Env) : XParser (List Param) := fun i =>
  (xchr '(' i).bind fun i _ =>
  (xmany0 (xws (xdefParam k)) i).bind fun i ps =>
  (xchr ')' i).bind fun i _ => distinct i ps

/-- The type is expected if there is none yet (`mod.rs:797-801`). -/
def typeNext (t : Option Str) : Expecting := if t.isSome then .none else .type

/-- `mod.rs:789-819` `def_impl_inner`. -/
def xdefinitionImpl (k : Env) : XParser DefImpl := fun i =>
  let b := xblockN k (i.length + 1)
  (xdefOp k i).bind fun i name =>
  (xws (xopt (xopIdent k.cls)) i).bind fun i inTy =>
  (expecting (typeNext inTy) (xdefParams k) i).bind fun i ps =>
  (xnoTrailing (xws fun i =>
    (xchr '{' i).bind fun i _ => (xws (xexpr b) i).bind fun i e => (xchr '}' i).map fun _ => e) i).map
    fun e => ⟨name, inTy, ps, e⟩

/-- `mod.rs:920-944` `defty_field`. -/
def xdeftyField (k : Env) : XParser Field := fun i =>
  (xopIdent k.cls i).bind fun i name =>
  (xcut (context "a field requires a type assignment: `field:Type`" (xchr ':')) i).bind fun i _ =>
  (xcut (context "missing a valid type specifier: `field:Type`" (xopIdent k.cls)) i).bind fun i ty =>
    match i with
    | '<' :: r =>
      (xcut (fun i => (xmany1 (xws (xopIdent k.cls)) i).bind fun i ps => (xws (xchr '>') i).map fun _ => ps) r).map
        fun ps => ⟨name, ty, ps⟩
    | i => .ok i ⟨name, ty, []⟩

/-- `mod.rs:916-918` `defty_fields`. -/
def xdeftyFields (k : Env) : XParser (List Field) := fun i =>
  (xchr '{' i).bind fun i _ =>
  (xmany0 (xws (xdeftyField k)) i).bind fun i fs =>
  (xchr '}' i).map fun _ => fs

/-- `mod.rs:908-914` `defty_variant`. -/
def xdeftyVariant (k : Env) : XParser (Str × Option (List Field)) := fun i =>
  (xws (xopIdent k.cls) i).bind fun i name =>
  (xopt (xws (xdeftyFields k)) i).map fun fs => (name, fs)

/-- `mod.rs:883-886`: variants or fields. -/
def xdeftyBody (k : Env) : XParser TyBody := fun i =>
  match ws (tag [':', ':']) i with
  | .ok i _ => (xsepList0 (xws (xchr '|')) (xws (xdeftyVariant k)) i).map TyBody.sum
  | _ => (xdeftyFields k i).map TyBody.product

/-- `mod.rs:874-906` `def_type_inner`. -/
def xdefinitionType (k : Env) : XParser DefTy := fun i =>
  (xws (fun i => (xtag ['d', 'e', 'f', '-', 't', 'y', ' '] i).bind fun i _ => xopIdent k.cls i) i).bind fun i name =>
  (xdeftyBody k i).bind fun i ty =>
  if (skip isMulti i).isEmpty then .ok i ⟨name, ty⟩ else .err (.kind (skip isMulti i))

/-- `mod.rs:70-79` `parse`. -/
def xparse (k : Env) : XParser Parsed := fun i =>
  if ['d', 'e', 'f', ' '].isPrefixOf i then (xdefinitionImpl k i).map .impl
  else if ['d', 'e', 'f', '-', 't', 'y', ' '].isPrefixOf i then (xdefinitionType k i).map .ty
  else (xexpression k i).map .expr

/-! ### The error shown -/

/-- `mod.rs:245-263`: where an error is traced to: the offset of the piece in the text, and its length. -/
def Piece.trace (loc w : Str) (p : Piece) : Trace.Trace :=
  ⟨loc, w, some p.note.toList,
    (Trace.errorSpan w (Trace.blen w - Trace.blen (p.text ++ p.after)) (Trace.blen p.text)).1,
    (Trace.errorSpan w (Trace.blen w - Trace.blen (p.text ++ p.after)) (Trace.blen p.text)).2⟩

/-- `mod.rs:234-274` `convert_parse_error`. -/
def Err.traces (loc w : Str) (e : Err) : List Trace.Trace := e.locs.map (Piece.trace loc w)

/-! ### Completion -/

/-- `completion.rs:33-40` `Items`: what is offered. -/
structure Items where
  impls : Bool
  types : Bool
  paths : Bool
  speclits : Bool
deriving DecidableEq, Repr

/-- `completion.rs:64-75`. -/
def itemsAt : Tags.NodeType → Option Items
  | .command => some ⟨true, false, false, false⟩
  | .type => some ⟨false, true, false, false⟩
  | .tyParameter => some ⟨false, true, false, false⟩
  | .ident => some ⟨true, false, true, true⟩
  | .pound => some ⟨false, false, false, true⟩
  | _ => none

/-- `completion.rs:78-99` `incomplete_completions`; the outer `none` is a panic. -/
def itemsFor : Expecting → Option (Option Items)
  | .impl => some (some ⟨true, false, false, false⟩)
  | .type => some (some ⟨false, true, false, false⟩)
  | .term => some (some ⟨true, false, true, true⟩)
  | .speclit => some (some ⟨false, false, false, true⟩)
  | .none => some none
  | .path => none

/-- What is expected according to an error. -/
def XR.expected {α : Type} : XR α → Expecting
  | .ok _ _ => .none
  | .err e => e.exp
  | .fail e => e.exp

/-- `completion.rs:47-76` `get`, `complete_completions`: what is offered at the end of the line. The outer `none` is a panic; with a path for a
command it counts as one, wherever the path is. -/
def completions (k : Env) (line : Str) : Option (Option Items) :=
  match Tags.parse k line with
  | .ok _ x => if x.usesPath then none else some ((x.nodeAt (Tags.size line - 1)).bind fun n => itemsAt n.ty)
  | _ => itemsFor (xparse k line).expected

end Verif.ParseErr
