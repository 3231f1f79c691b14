import Verif.Model.Trace

/-!
# Language server: positions, edits and the text of a definition

Model of `ogma-ls/lib.rs:16-53`, of `apply_changes` and `get_def_text` (`ogma-ls/workspace.rs`), of the
first half of `get_completions` (`ogma-ls/server/completion.rs`) and `get_hover`
(`ogma-ls/server/hover.rs`), and of `path_component` and `get` (`ogma-ls/completion.rs`).

Texts are lists of characters; byte positions, slices and lines are those of `Model/Trace.lean`.
-/

namespace Verif.LsText
open Verif.Trace

/-- `char::len_utf16`. -/
def u16 (c : Char) : Nat := if c.val < 0x10000 then 1 else 2

/-- `lib.rs:22-29`: the loop, after `u` UTF-16 units and `b` bytes. -/
def linechGo (ch : Nat) : Nat → Nat → Text → Nat
  | _, b, [] => b
  | u, b, c :: cs => if u = ch then b else linechGo ch (u + u16 c) (b + c.utf8Size) cs

/-- `lib.rs:19-32` `linech_to_idx`. -/
def linechToIdx (line : Text) (ch : Nat) : Nat := linechGo ch 0 0 line

/-- A position of the protocol: line, and UTF-16 units into it. -/
structure Pos where
  line : Nat
  ch : Nat
deriving DecidableEq, Repr

/-- `lib.rs:34-49` `pos_to_idx`. -/
def posToIdx (s : Text) (p : Pos) : Nat :=
  match (lines s)[p.line]? with
  | some l => l.1 + linechToIdx l.2 p.ch
  | none => blen s

/-- `String::replace_range`; `none` is a panic. -/
def replaceRange (s : Text) (a b : Nat) (new : Text) : Option Text :=
  if a ≤ b then
    (takeBytes a s).bind fun x => (dropBytes b s).map fun z => x ++ (new ++ z)
  else none

/-- `TextDocumentContentChangeEvent`. -/
structure Edit where
  range : Option (Pos × Pos)
  text : Text

/-- One step of `workspace.rs:250-258` `apply_changes`. -/
def applyEdit (s : Text) (e : Edit) : Option Text :=
  match e.range with
  | some (p, q) => replaceRange s (posToIdx s p) (posToIdx s q) e.text
  | none => replaceRange s 0 (blen s) e.text

/-- `workspace.rs:250-258` `apply_changes`. -/
def applyChanges : Text → List Edit → Option Text
  | s, [] => some s
  | s, e :: es => (applyEdit s e).bind fun s => applyChanges s es

/-! ### The text of a definition -/

/-- `s.trim().is_empty()`. -/
def isBlank (ws : Char → Bool) (l : Text) : Bool := l.all ws

/-- `workspace.rs:60-69`: the numbered lines of the definition before line `n`. -/
def preLines (ws : Char → Bool) (ls : List (Text × Nat)) (n : Nat) : List (Text × Nat) :=
  (((ls.take n).reverse.takeWhile fun l => !isBlank ws l.1).reverse).dropWhile
    fun l => l.1.head? == some '#'

/-- `workspace.rs:70-75`: line `n`, and those after it up to a blank one. -/
def postLines (ws : Char → Bool) (ls : List (Text × Nat)) (n : Nat) : List (Text × Nat) :=
  match ls.drop n with
  | [] => []
  | l :: r => l :: r.takeWhile fun l => !isBlank ws l.1

/-- The texts joined, a line feed after each (`workspace.rs:77-84`). -/
def joinLines (ls : List Text) : Text := (ls.map (· ++ ['\n'])).flatten

/-- `workspace.rs:57-87` `get_def_text`. -/
def getDefText (ws : Char → Bool) (s : Text) (n : Nat) : Nat × Text :=
  let ls := ((lines s).map Prod.snd).zipIdx
  let all := preLines ws ls n ++ postLines ws ls n
  ((all.head?.map Prod.snd).getD 0, joinLines (all.map Prod.fst))

/-- `server/completion.rs:24-26` and `server/hover.rs:26-28`: the cursor as a byte position in the text
of the definition, with that text; `none` if there is no such line. -/
def cursorIn (ws : Char → Bool) (s : Text) (p : Pos) : Option (Text × Nat) :=
  let d := getDefText ws s p.line
  let ls := (lines d.2).map Prod.snd
  let diff := p.line - d.1
  ls[diff]?.map fun l =>
    (d.2, (ls.take diff).foldl (fun x y => x + blen y + 1) (linechToIdx l p.ch))

/-- The outcome of a request. -/
inductive Reply (α : Type) where
  | nothing
  | panic
  | done (a : α)
deriving DecidableEq, Repr

/-- `server/completion.rs:21-28`: the text that completions are looked up for. -/
def completionInput (ws : Char → Bool) (s : Text) (p : Pos) : Reply Text :=
  match cursorIn ws s p with
  | none => .nothing
  | some (code, pos) =>
    match takeBytes pos code with
    | none => .panic
    | some t => .done t

/-! ### The path being typed -/

def isQuote (c : Char) : Bool := c == '"' || c == '\''

/-- `completion.rs:155-166`: the pending quote, as the quote and the text from it on. -/
def quoteGo : Option (Char × Text) → Text → Option (Char × Text)
  | st, [] => st
  | some (q, s), c :: cs => if q = c then quoteGo none cs else quoteGo (some (q, s)) cs
  | none, c :: cs => if isQuote c then quoteGo (some (c, c :: cs)) cs else quoteGo none cs

/-- `completion.rs:168-176`: what follows the last space. -/
def lastWord (line : Text) : Text := (line.reverse.takeWhile (· ≠ ' ')).reverse

/-- `completion.rs:153-179` `path_component`. -/
def pathComponent (line : Text) : Text :=
  match quoteGo none line with
  | some (_, s) => s
  | none => lastWord line

/-! ### What is expected -/

/-- `parse/mod.rs:133-157` `Expecting`. -/
inductive Expecting where
  | none | impl | type | term | specLiteral | path
deriving DecidableEq, Repr

/-- The lists of `completion.rs:33-40` that are offered. -/
inductive Items where
  | impls | types | paths | specLit
deriving DecidableEq, Repr

/-- `completion.rs:78-100` `incomplete_completions`; the last case is `todo!()`. -/
def incomplete : Expecting → Reply (List Items)
  | .impl => .done [.impls]
  | .type => .done [.types]
  | .term => .done [.impls, .paths, .specLit]
  | .specLiteral => .done [.specLit]
  | .none => .nothing
  | .path => .panic

/-- The character classes of the parser. -/
structure Classes where
  alpha : Char → Bool
  alnum : Char → Bool

/-- `parse/mod.rs:523-550` `op_ident`: the rest after an identifier. -/
def opIdent (k : Classes) : Text → Option Text
  | [] => none
  | c :: s =>
    if k.alpha c then
      let rest := (c :: s).dropWhile fun c => k.alnum c || c == '-' || c == '_'
      if rest = c :: s then none else some rest
    else none

/-- `parse/mod.rs:463-479` `tmp_op_parser`: identifiers joined by `::`. -/
def opName (k : Classes) (fuel : Nat) (s : Text) : Option Text :=
  (opIdent k s).map (more fuel)
where
  more : Nat → Text → Text
    | 0, s => s
    | n + 1, ':' :: ':' :: s => match opIdent k s with
      | some r => more n r
      | none => ':' :: ':' :: s
    | _ + 1, s => s

/-- `separated_list1(tag("/"), …)` after the first element (`parse/mod.rs:430`). -/
def pathTail (k : Classes) : Nat → Text → Text
  | 0, s => s
  | n + 1, '/' :: s => match opName k n s with
    | some r => pathTail k n r
    | none => '/' :: s
  | _ + 1, s => s

/-- `parse/mod.rs:429`: a `/` in front. -/
def unroot : Text → Text
  | '/' :: r => r
  | s => s

/-- `parse/mod.rs:439-459`: a `/` after the components. -/
def pathEnd : Text → Except Expecting Text
  | ['/'] => .error .path
  | '/' :: _ => .error .impl
  | r => .ok r

/-- `parse/mod.rs:427-461` `path`, called from `op` when no symbol matches: the rest, or what is
expected. The wrapper `exp` of `block` (`parse/mod.rs:412`) turns no expectation into a command. -/
def path (k : Classes) (s : Text) : Except Expecting Text :=
  match opName k s.length (unroot s) with
  | none => .error .impl
  | some r => pathEnd (pathTail k s.length r)

/-- `parse/mod.rs:503-520` `spec_op`. -/
def isSpecOp : Text → Bool
  | c :: d :: _ => c ∈ ['\\', '+', '-', '*', '×', '/', '÷', '=', '>', '<', '.'] || (c == '!' && d == '=')
  | [c] => c ∈ ['\\', '+', '-', '*', '×', '/', '÷', '=', '>', '<', '.']
  | [] => false

/-- `completion.rs:47-53` `get`, for an input that is no definition and starts with a command, not with
a blank or a type. What happens once the first command is read is the parameter `later`. -/
def get (k : Classes) (later : Text → Reply (List Items)) (line : Text) : Reply (List Items) :=
  if isSpecOp line then later line
  else match path k line with
    | .error e => incomplete e
    | .ok r => later r

end Verif.LsText
