import Verif.Model.Nom
/-! Model of the outline parser for source files (`ogma/src/lang/syntax/parse/file.rs`) and of turning
a file into a batch (`ogma/src/rt/bat.rs:95-138`). Positions are character offsets: every offset in
the code falls on a character boundary, since it comes from a slice of the text. -/
namespace Verif.File
open Verif.Nom

/-- `char::is_whitespace` (Unicode `White_Space`). -/
def isWs (c : Char) : Bool :=
  let n := c.toNat
  (9 ≤ n && n ≤ 13) || n == 32 || n == 0x85 || n == 0xA0 || n == 0x1680 || (0x2000 ≤ n && n ≤ 0x200A) ||
    n == 0x2028 || n == 0x2029 || n == 0x202F || n == 0x205F || n == 0x3000

/-- A `&str` into the file text: where it starts and its characters. -/
structure Sl where
  off : Nat
  str : List Char
deriving DecidableEq, Repr

def Sl.stop (s : Sl) : Nat := s.off + s.str.length

/-- `str::trim_start` and `str::trim_end` on characters. -/
def trimStart (s : List Char) : List Char := s.dropWhile isWs
def trimEnd (s : List Char) : List Char := (s.reverse.dropWhile isWs).reverse
def trim (s : List Char) : List Char := trimEnd (trimStart s)

/-- `str::trim` keeping the position; an all-whitespace slice trims to the empty slice at its start. -/
def Sl.trim (s : Sl) : Sl :=
  if (trimStart s.str).isEmpty then ⟨s.off, []⟩
  else ⟨s.off + (s.str.takeWhile isWs).length, File.trim s.str⟩

/-- The `\r` before a `\n` is part of the line ending (`str::lines`). -/
def stripCr (l : List Char) : List Char :=
  if l.getLast? = some '\r' then l.dropLast else l

/-- `str::lines` with positions: `start` and `acc` are the line being read. -/
def linesGo (start : Nat) (acc : List Char) : List Char → List Sl
  | [] => if acc.isEmpty then [] else [⟨start, acc⟩]
  | c :: cs =>
    if c = '\n' then ⟨start, stripCr acc⟩ :: linesGo (start + acc.length + 1) [] cs
    else linesGo start (acc ++ [c]) cs

def Sl.lines (s : Sl) : List Sl := linesGo s.off [] s.str

/-- The part of `s` between two positions of the file. -/
def Sl.sub (s : Sl) (a b : Nat) : Sl := ⟨a, (s.str.drop (a - s.off)).take (b - a)⟩

/-- `file.rs:226-236`: the loop of `doc_comment`; `t` is where the rest starts. -/
def docLoop : List Sl → List Char → Nat → List Char × Nat
  | [], doc, t => (doc, t)
  | l :: ls, doc, t =>
    match trim l.str with
    | '#' :: r => docLoop ls (doc ++ trim r ++ ['\n']) l.stop
    | _ => (doc, t)

/-- `file.rs:223-241` `doc_comment`. -/
def docComment (s : Sl) : List Char × Sl :=
  let (doc, t) := docLoop s.lines [] s.off
  (doc.dropLast, s.sub t s.stop)

/-- `file.rs:343-368` `split_items`, the loop. Blocks are start and stop positions. -/
def splitLoop : List Sl → List (Nat × Nat) → Bool → List (Nat × Nat)
  | [], ss, _ => ss
  | l :: ls, ss, new =>
    if (trim l.str).isEmpty then splitLoop ls ss true
    else if new then splitLoop ls (ss ++ [(l.off, l.stop)]) false
    else splitLoop ls (ss.dropLast ++ [((ss.getLast?.getD (0, 0)).1, l.stop)]) false

/-- `file.rs:343-368` `split_items`. -/
def splitItems (s : Sl) : List Sl := (splitLoop s.lines [] true).map fun (a, b) => s.sub a b

/-- `file.rs:67-75` `Prefix`. -/
inductive Prefix
  | none | root | plugins
deriving DecidableEq, Repr

/-- `file.rs:54-61` `Import`. -/
structure Import where
  prefix_ : Prefix
  path : List (List Char)
  glob : List Char
deriving DecidableEq, Repr

/-- `file.rs:28-37` `Directive`. -/
inductive Directive
  | noParallelise
  | failFast
  | import_ (is : List Import)
  | export_ (gs : List (List Char))
deriving DecidableEq, Repr

/-- Unicode character classes: `char::is_alphabetic` and `char::is_alphanumeric`. -/
structure Classes where
  alpha : Char → Bool
  alnum : Char → Bool

/-- Characters after the first of an identifier (`mod.rs:541`). -/
def Classes.ident (k : Classes) (c : Char) : Bool := k.alnum c || c == '-' || c == '_'

/-- `mod.rs:519-545` `op_ident`. -/
def opIdent (k : Classes) : Parser (List Char)
  | [] => .err
  | c :: cs => if !k.alpha c then .err else takeWhile1 k.ident (c :: cs)

/-- `file.rs:295-301` `glob`. -/
def glob : Parser (List Char) := takeTill1 fun c => isWs c || c == ')'

/-- `file.rs:285-293` `exports`. -/
def exports : Parser (List (List Char)) := fun i =>
  (chr '(' i).bind fun i _ =>
  (sepList1 space1 (fun i => glob (skip isSpace i)) i).bind fun i gs =>
  (chr ')' (skip isSpace i)).map fun _ => gs

/-- `file.rs:315-319`: the import prefix. -/
def importPrefix : List Char → List Char × Prefix
  | '/' :: '/' :: r => (r, .plugins)
  | '/' :: r => (r, .root)
  | r => (r, .none)

/-- `file.rs:328-337`: the leading path components; `op_ident`'s remaining input is dropped. -/
def importPath (k : Classes) : List (List Char) → PR (List (List Char))
  | [] => .ok [] []
  | p :: ps =>
    (if p = ['.', '.'] then PR.ok [] p else opIdent k p).bind fun _ x =>
      (importPath k ps).map (x :: ·)

/-- `file.rs:313-341` `import`. -/
def import_ (k : Classes) : Parser Import := fun i =>
  let (i, pre) := importPrefix i
  (sepList1 (chr '/') (takeTill1 fun c => isWs c || c == ')' || c == '/') i).bind fun i path =>
  (glob (path.getLast?.getD [])).bind fun _ g =>
  (importPath k path.dropLast).bind fun _ path => .ok i ⟨pre, path, g⟩

/-- `file.rs:303-311` `imports`. -/
def imports (k : Classes) : Parser (List Import) := fun i =>
  (chr '(' i).bind fun i _ =>
  (sepList1 space1 (fun i => import_ k (skip isSpace i)) i).bind fun i is =>
  (chr ')' (skip isSpace i)).map fun _ => is

/-- `file.rs:256-283` `directive`. -/
def directive (k : Classes) : Parser Directive := fun i =>
  let i := skip isSpace i
  match tag "no-parallelise".toList i with
  | .ok r _ => .ok r .noParallelise
  | _ => match tag "fail-fast".toList i with
    | .ok r _ => .ok r .failFast
    | _ => match tag "import".toList i with
      | .ok r _ => (imports k r).map .import_
      | _ => match tag "export".toList i with
        | .ok r _ => (exports r).map .export_
        | _ => .err

/-- `file.rs:243-254` `directive_line`. -/
def directiveLine (k : Classes) : Parser (List Directive) := fun i =>
  (chr '[' (trimStart i)).bind fun i _ =>
  (sepList1 space1 (directive k) i).bind fun i ds =>
  (cut (fun i => chr ']' (skip isSpace i)) i).map fun _ => ds

/-- `file.rs:141-151`: the loop over directive lines; `none` is a parse error. The fuel is the length
of the text: each turn consumes at least a bracket. -/
def directives (k : Classes) : Nat → List Char → List Directive → Option (List Directive × List Char)
  | 0, i, ds => some (ds, i)
  | n + 1, i, ds =>
    match opt (fun i => (directiveLine k i).bind fun i ds => (cut lineEnding i).map fun _ => ds) i with
    | .ok r (some new) => directives k n r (ds ++ new)
    | .ok r none => some (ds, r)
    | _ => none

/-- `bat.rs:80-89` `ItemType`. -/
inductive Kind
  | type_ | impl | expr
deriving DecidableEq, Repr

/-- `file.rs:41-48` `Item`. -/
structure Item where
  doc : Option (List Char)
  code : List Char
  line : Nat
deriving DecidableEq, Repr

/-- `file.rs:5-24` `File`, with the names of the definitions left out. -/
structure File where
  doc : Option (List Char)
  directives : List Directive
  types : List Item
  impls : List Item
  exprs : List Item
deriving DecidableEq, Repr

/-- How outline parsing can go wrong: a reported parse error, or a panic. -/
inductive Bad
  | parse
  | panic
deriving DecidableEq, Repr

/-- `file.rs:183-194`: how a code block is classified. -/
def kind (code : List Char) : Kind :=
  if "def-ty".toList.isPrefixOf code then .type_
  else if "def".toList.isPrefixOf code then .impl
  else .expr

/-- `file.rs:161-170` `line_num`: newlines before the slice, plus one, as `u16`. -/
def lineNum (text : List Char) (s : Sl) : Except Bad Nat :=
  let n := (text.take s.off).countP (· == '\n') + 1
  if n < 65536 then .ok n else .error .panic

/-- The loop over the item blocks, `file.rs:172-212`. `head` says whether a definition's header parses
(`defty_name`, `def_op`); `doc` is the file's doc comment while `mv` says that it belongs to the first
item. -/
def itemLoop (head : List Char → Bool) (text : List Char) :
    List Sl → Bool → Option (List Char) → File → Except Bad File
  | [], _, doc, f => .ok { f with doc := doc }
  | it :: its, mv, doc, f =>
    let (d, c) := docComment it
    let code := c.trim
    let idoc := if mv then doc else if d.isEmpty then none else some d
    let doc := if mv then none else doc
    match kind code.str with
    | .type_ =>
      if head code.str then do
        let n ← lineNum text code
        itemLoop head text its false doc { f with types := f.types ++ [⟨idoc, code.str, n⟩] }
      else .error .parse
    | .impl =>
      if head code.str then do
        let n ← lineNum text code
        itemLoop head text its false doc { f with impls := f.impls ++ [⟨idoc, code.str, n⟩] }
      else .error .parse
    | .expr => do
      let n ← lineNum text code
      itemLoop head text its false doc { f with exprs := f.exprs ++ [⟨idoc, code.str, n⟩] }

/-- `file.rs:130-221` `file`. -/
def file (k : Classes) (head : List Char → Bool) (text : List Char) : Except Bad File :=
  let s : Sl := ⟨(text.takeWhile isWs).length, trimStart text⟩
  let (d, t) := docComment s
  let doc := if d.isEmpty then none else some d
  match directives k (t.str.length + 1) t.str [] with
  | none => .error .parse
  | some (ds, rest) =>
    let mv := ds.isEmpty && !("\n\n".toList.isPrefixOf rest)
    let body : Sl := ⟨text.length - rest.length, rest⟩
    itemLoop head text (splitItems body) mv doc ⟨none, ds, [], [], []⟩

/-- `bat.rs:36-47` `BatchItem`, without the file name. -/
structure BatchItem where
  kind : Kind
  comment : Option (List Char)
  line : Nat
  code : List Char
deriving DecidableEq, Repr

/-- `bat.rs:24-33` `Batch`. -/
structure Batch where
  items : List BatchItem
  parallelise : Bool
  failFast : Bool
deriving DecidableEq, Repr

/-- `bat.rs:95-138` `parse_str`. -/
def parseStr (k : Classes) (head : List Char → Bool) (text : List Char) : Except Bad Batch := do
  let f ← file k head text
  let mk (kd : Kind) (i : Item) : BatchItem := ⟨kd, i.doc, i.line, i.code⟩
  return {
    items := f.types.map (mk .type_) ++ f.impls.map (mk .impl) ++ f.exprs.map (mk .expr)
    parallelise := !f.directives.any (· == .noParallelise)
    failFast := f.directives.any (· == .failFast) }

end Verif.File
