import Verif.Model.Trace
import Verif.Model.Tags
import Verif.Model.LangProg
/-! Model of help: how a help message is put together (`ogma/src/common/err.rs:86-140`, `ogma/src/lang/impls/mod.rs:130-159`,
`:299-320`, `:392-422`), printed (`err.rs:450-482`, `:747-796`) and coloured in the shell (`ogma-shell/lib.rs:422-439`, `:564-645`). -/
namespace Verif.Help
open Verif

abbrev Text := List Char

/-- `help.rs:42-49` `HelpParameter`. -/
inductive Param
  | required (p : Text)
  | optional (p : Text)
  | custom (p : Text)
  | brk
deriving DecidableEq, Repr

/-- `help.rs:18-27` `HelpMessage`. -/
structure Message where
  cmd : Text
  desc : Text
  params : List Param
  noSpace : Bool
  flags : List (Text × Text)
  examples : List (Text × Text)
deriving DecidableEq, Repr

/-- `help.rs:52-60` `HelpParameter::write`; `none` is a panic. -/
def Param.write : Param → Option Text
  | .required p => some p
  | .optional p => some ('[' :: (p ++ [']']))
  | .custom p => some p
  | .brk => none

def Param.isBreak : Param → Bool
  | .brk => true
  | _ => false

/-- `err.rs:101-112`: the parameters after the command. -/
def usage (cmd : Text) (noSpace : Bool) : List Param → Option Text
  | [] => some []
  | p :: ps => (if p.isBreak then some [] else p.write).bind fun w => (usage cmd noSpace ps).map fun r =>
    (if p.isBreak then ['\n', ' ', '=', '>', ' '] ++ cmd else []) ++ ((if noSpace then [] else [' ']) ++ (w ++ r))

/-- `err.rs:114-122`. -/
def flagsText (fs : List (Text × Text)) : Text :=
  if fs = [] then [] else ['\n', '\n', 'F', 'l', 'a', 'g', 's', ':'] ++ fs.flatMap fun f => ['\n', ' ', '-', '-'] ++ (f.1 ++ ([':', ' '] ++ f.2))

/-- `err.rs:124-129`. -/
def examplesText (es : List (Text × Text)) : Text :=
  if es = [] then [] else ['\n', '\n', 'E', 'x', 'a', 'm', 'p', 'l', 'e', 's', ':'] ++ es.flatMap fun e => ['\n', ' '] ++ (e.1 ++ (['\n', ' ', '=', '>', ' '] ++ (e.2 ++ ['\n'])))

/-- `err.rs:93-97`: the type of input a command is for. -/
def tyText : Option Text → Text
  | some t => t
  | none => ['<', 'a', 'n', 'y', '>']

/-- `err.rs:86-140` `help_as_error`: the source shown; `none` is a panic. -/
def source (ty : Option Text) (m : Message) : Option Text :=
  (usage m.cmd m.noSpace m.params).map fun u =>
    ['-', '-', '-', '-', ' ', 'I', 'n', 'p', 'u', 't', ' ', 'T', 'y', 'p', 'e', ':', ' '] ++ (tyText ty ++ ([' ', '-', '-', '-', '-', '\n'] ++ (m.desc ++ (['\n', '\n', 'U', 's', 'a', 'g', 'e', ':', '\n', ' ', '=', '>', ' '] ++ (m.cmd ++ (u ++
      (flagsText m.flags ++ examplesText m.examples)))))))

/-- The messages of several implementations (`impls/mod.rs:140-151`). -/
def sources : List (Option Text × Message) → Option (List Text)
  | [] => some []
  | x :: xs => (source x.1 x.2).bind fun s => (sources xs).map (s :: ·)

/-- `impls/mod.rs:142-151`: one message after the other. -/
def joined (a b : Text) : Text := (if a.getLast? = some '\n' then a else a ++ ['\n']) ++ '\n' :: b

/-- What help consists of: the description of the error, and the source shown. -/
structure Shown where
  desc : Text
  source : Text
deriving DecidableEq, Repr

/-- `impls/mod.rs:131-152` `get_help_all`, with the implementations in order. The inner `none`: there is none; the outer: a panic. -/
def all : List (Option Text × Message) → Option (Option Shown)
  | [] => some none
  | x :: xs => (source x.1 x.2).bind fun s => (sources xs).map fun ss => some ⟨'`' :: (x.2.cmd ++ ['`']), ss.foldl joined s⟩

/-! ### Stored commands -/

/-- `types.rs:109-123`: how a type is displayed. -/
def typeText : Defs.Ty → Text
  | .nil => ['N', 'i', 'l']
  | .bool => ['B', 'o', 'o', 'l']
  | .num => ['N', 'u', 'm', 'b', 'e', 'r']
  | .str => ['S', 't', 'r', 'i', 'n', 'g']
  | .tab => ['T', 'a', 'b', 'l', 'e']
  | .tabRow => ['T', 'a', 'b', 'l', 'e', 'R', 'o', 'w']
  | .def_ n => n.toList

/-- The implementations of a name with their messages (`impls/mod.rs:72-77`), as they are stored. -/
def entries (msg : Option Defs.Ty → Defs.Impl → Message) (ks : Defs.Keys) : List (Option Text × Message) :=
  ks.tys.map (fun x => (some (typeText x.1), msg (some x.1) x.2)) ++ ks.agnostic.toList.map fun i => (none, msg none i)

/-- `impls/mod.rs:131-137` `get_help_all` with the implementations in some order (they are sorted by the text of the type, which need not tell
them apart). -/
def stored (msg : Option Defs.Ty → Defs.Impl → Message) (order : List (Option Text × Message) → List (Option Text × Message)) (d : Defs.Defs) (n : Text) :
    Option (Option Shown) :=
  match AMap.get d.impls (Prog.str n) with
  | none => some none
  | some ks => all (order (entries msg ks))

/-- The name of a command (`ast.rs:271-276`); `none` is a panic. -/
def opName : Parse.Op → Option Text
  | .single t => some t
  | .path _ _ => none

def isHelp : Parse.Term → Bool
  | .flag f => f = ['h', 'e', 'l', 'p']
  | .arg _ => false

/-- What becomes of a request. -/
inductive Asked (R : Type)
  /-- The help of a command. -/
  | help (h : Shown)
  /-- There is no such command. -/
  | unknown
  /-- The request is compiled and evaluated. -/
  | run (r : R)

/-- `process.rs:25-30`: a request that has been parsed; `get` is `get_help_all`, and `run` compiles and evaluates. `process.rs:35-51`
`handle_help`; `none` is a panic. -/
def process {R : Type} (get : Text → Option (Option Shown)) (run : Parse.Expr → R) : Parse.Expr → Option (Asked R)
  | .mk [] t => some (.run (run (.mk [] t)))
  | .mk (.mk i op o ts :: bs) t =>
    if ts.any isHelp then (opName op).bind fun n => (get n).map fun h => match h with
      | some h => .help h
      | none => .unknown
    else some (.run (run (.mk (.mk i op o ts :: bs) t)))

/-- `impls/mod.rs:299-320` `usr_impl_help`: the help of a definition, from its place, its text, its name and its parameters. -/
def userHelp (loc src name : Text) (params : List (Text × Option Text)) : Message where
  cmd := name
  desc := ['u', 's', 'e', 'r', ' ', 'd', 'e', 'f', 'i', 'n', 'e', 'd', ' ', 'i', 'm', 'p', 'l', 'e', 'm', 'e', 'n', 't', 'a', 't', 'i', 'o', 'n', ' ', 'i', 'n', ' '] ++ (loc ++ (['\n', '`'] ++ (src ++ ['`'])))
  params := params.map fun p => .required (match p.2 with
    | none => p.1
    | some t => p.1 ++ ':' :: t)
  noSpace := false
  flags := []
  examples := []

/-- `impls/mod.rs:394-395`: a field. -/
def fieldParam (f : Text × Text) : Param := .required (f.1 ++ ':' :: f.2)

/-- `impls/mod.rs:403-410`: the variants, each but the last followed by a break. -/
def variantParams : List (Text × List (Text × Text)) → List Param
  | [] => []
  | [v] => .custom ([':', ':'] ++ v.1) :: v.2.map fieldParam
  | v :: vs => .custom ([':', ':'] ++ v.1) :: (v.2.map fieldParam ++ .brk :: variantParams vs)

/-- The structure of a type, as its help shows it. -/
inductive Kind
  | product (fields : List (Text × Text))
  | sum (variants : List (Text × List (Text × Text)))

/-- `impls/mod.rs:392-422` `typedef_init_help`. -/
def initHelp (name : Text) : Kind → Message
  | .product fs => ⟨name, ['i', 'n', 'i', 't', 'i', 'a', 'l', 'i', 's', 'e', ' ', 'a', ' ', '`'] ++ (name ++ ['`']), fs.map fieldParam, false, [], []⟩
  | .sum vs => ⟨name, ['i', 'n', 'i', 't', 'i', 'a', 'l', 'i', 's', 'e', ' ', 'a', ' ', '`'] ++ (name ++ ['`']), variantParams vs, true, [], []⟩

/-! ### Printing and colouring -/

/-- The end of a colour. -/
def reset : Text := ['\x1b', '[', '0', 'm']

/-- The start of a colour. -/
def esc (code : Text) : Text := '\x1b' :: '[' :: (code ++ ['m'])

/-- A coloured text (crate `colored`). Texts with escapes in them are not treated specially here. -/
def paint (code s : Text) : Text := esc code ++ (s ++ reset)

/-- The beginning of a line of the source (`err.rs:771`). -/
def linePrefix : Text := paint ['9', '5'] [' ', '|', ' '] ++ esc ['3', '7']

/-- A printed line of the source (`err.rs:770-773`). -/
def sourceLine (l : Text) : Text := linePrefix ++ (l ++ reset)

def asLine (l : Text) : Text := l ++ ['\n']

/-- `err.rs:450-482`, `:747-796` with colours, for help: the heading, the place, and all lines of the source. -/
def printed (h : Shown) : Text :=
  asLine (paint ['9', '3'] ['H', 'e', 'l', 'p'] ++ paint ['9', '7'] ([':', ' '] ++ h.desc)) ++ (asLine (paint ['9', '5'] ['-', '-', '>', ' ', 's', 'h', 'e', 'l', 'l', ':', '0']) ++
    (Trace.lines h.source).flatMap fun l => asLine (sourceLine l.2))

/-- `str::strip_prefix`. -/
def stripPrefix : Text → Text → Option Text
  | [], s => some s
  | _ :: _, [] => none
  | a :: p, c :: s => if a = c then stripPrefix p s else none

/-- `str::starts_with`. -/
def starts (p s : Text) : Bool := (stripPrefix p s).isSome

/-- `str::trim_start_matches`, with at most so many matches. -/
def trimStart (p : Text) : Nat → Text → Text
  | 0, s => s
  | n + 1, s => match stripPrefix p s with
    | some r => trimStart p n r
    | none => s

/-- `str::trim_end_matches`. -/
def trimEnd (p s : Text) : Text := (trimStart p.reverse s.length s.reverse).reverse

/-- `splitn(2, ':')`: both parts, if there are two. -/
def splitColon : Text → Option (Text × Text)
  | [] => none
  | c :: s => if c = ':' then some ([], s) else (splitColon s).map fun p => (c :: p.1, p.2)

/-- `lib.rs:546-562` `highlight_node`: the colours. -/
def colourOf : Tags.NodeType → Text
  | .command => ['1', ';', '9', '6']
  | .type => ['4', ';', '9', '2']
  | .num => ['3', '5']
  | .pound => ['9', '1']
  | .var => ['3', '3']
  | .flag => ['9', '1']
  | .parameter => ['9', '4']
  | .field => ['3', '2']
  | .variant => ['4', ';', '9', '5']
  | _ => ['3', '7']

/-- A part of a coloured line. -/
def pieceText (p : Tags.Piece) : Text := match p.colour with
  | none => p.text
  | some c => paint (colourOf c) p.text

/-- `lib.rs:484-499` `syntax_highlight`. `allowed`: the line contains one of the directives that do not parse. -/
def codeText (k : Parse.Env) (allowed : Text → Bool) (code : Text) : Option Text :=
  match Tags.parse k code with
  | .ok _ _ => (Tags.syntaxHighlight k code).map fun ps => ps.flatMap pieceText
  | _ => some (if allowed code then code else paint ['4', ';', '3', '1'] code)

/-- `lib.rs:566-572`. -/
inductive Stage
  | none | inputType | usage | flags | examples
deriving DecidableEq, Repr

/-- `lib.rs:582-590`: the stage of a line. -/
def stageOf (st : Stage) (x : Text) : Stage :=
  if starts ['-', '-', '-', '-', ' ', 'I', 'n', 'p', 'u', 't', ' ', 'T', 'y', 'p', 'e', ':'] x then .inputType
  else if starts ['U', 's', 'a', 'g', 'e', ':'] x then .usage
  else if starts ['F', 'l', 'a', 'g', 's', ':'] x then .flags
  else if starts ['E', 'x', 'a', 'm', 'p', 'l', 'e', 's', ':'] x then .examples
  else st

/-- `lib.rs:596-598`: the stage after a line; `x` is the line without the prefix. -/
def stageAfter (st : Stage) (x : Text) : Stage := if st = .inputType ∧ x ≠ reset then .none else st

/-- `lib.rs:605-618`; `none` is a panic. -/
def flagLine (s : Text) : Option Text :=
  if starts [' ', '-', '-'] s then (splitColon s).map fun p => linePrefix ++ (paint ['3', '1'] p.1 ++ ':' :: paint ['3', '7'] p.2)
  else some (linePrefix ++ paint ['1', ';', '3', '1'] s)

/-- `lib.rs:619-631`. -/
def exampleLine (code : Text → Option Text) (x : Text) : Option Text :=
  if starts ['E', 'x', 'a', 'm', 'p', 'l', 'e', 's', ':'] x then some (linePrefix ++ paint ['1', ';', '3', '5'] (trimEnd reset x))
  else if starts [' ', '=', '>', ' '] x then
    (code (trimEnd reset (trimStart [' ', '=', '>', ' '] x.length x))).map fun s => linePrefix ++ ([' ', '=', '>', ' '] ++ (s ++ reset))
  else some (linePrefix ++ paint ['3', '3'] (trimEnd reset x))

/-- `lib.rs:595-637`: the colour of a line of the source, without its prefix; `none` is a panic. -/
def colourLine (code : Text → Option Text) (st : Stage) (x : Text) : Option Text :=
  if x = reset then some (linePrefix ++ paint ['3'] (trimEnd reset x))
  else match st with
    | .none => some (linePrefix ++ paint ['3'] (trimEnd reset x))
    | .inputType => some (linePrefix ++ paint ['1', ';', '4', ';', '9', '4'] (trimEnd reset x))
    | .usage => some (linePrefix ++ paint ['1', ';', '3', '2'] (trimEnd reset x))
    | .flags => flagLine (trimEnd reset x)
    | .examples => exampleLine code x

/-- `lib.rs:579-642`: line by line. -/
def colourLines (code : Text → Option Text) : Stage → List Text → Option Text
  | _, [] => some []
  | st, l :: ls => match stripPrefix linePrefix l with
    | none => (colourLines code st ls).map (asLine l ++ ·)
    | some x => (colourLine code (stageOf st x) x).bind fun t =>
      (colourLines code (stageAfter (stageOf st x) x) ls).map (asLine t ++ ·)

/-- `lib.rs:564-645` `highlight_help`; `none` is a panic. -/
def highlight (code : Text → Option Text) (text : Text) : Option Text :=
  colourLines code .none ((Trace.lines text).map (·.2))

end Verif.Help
