/-!
# Error traces

Model of how an error shows the offending source text: `ogma/src/common/err.rs:701-837` (`Trace`,
`trace_code_lines`) and `ogma/src/lang/syntax/parse/mod.rs:234-274` (`convert_parse_error`).

A text is its list of characters. Positions are byte positions in the UTF-8 encoding, as in the code; a
slice that is out of range or off a character boundary panics, which is `none` here.
-/

namespace Verif.Trace

abbrev Text := List Char

/-- The number of bytes of a text (`str::len`). -/
def blen : Text → Nat
  | [] => 0
  | c :: s => c.utf8Size + blen s

/-- `&s[n..]`. -/
def dropBytes : Nat → Text → Option Text
  | 0, s => some s
  | _ + 1, [] => none
  | n + 1, c :: s => if c.utf8Size ≤ n + 1 then dropBytes (n + 1 - c.utf8Size) s else none

/-- `&s[..n]`. -/
def takeBytes : Nat → Text → Option Text
  | 0, _ => some []
  | _ + 1, [] => none
  | n + 1, c :: s =>
    if c.utf8Size ≤ n + 1 then (takeBytes (n + 1 - c.utf8Size) s).map (c :: ·) else none

/-- `&s[a..b]`; `none` is a panic. -/
def slice (s : Text) (a b : Nat) : Option Text :=
  if a ≤ b then (dropBytes a s).bind (takeBytes (b - a)) else none

/-- The `\r` before a `\n` is part of the line ending (`str::lines`). -/
def stripCr (l : Text) : Text := if l.getLast? = some '\r' then l.dropLast else l

/-- `str::lines`, with the byte position each line starts at. -/
def linesGo (start : Nat) (acc : Text) : Text → List (Nat × Text)
  | [] => if acc = [] then [] else [(start, acc)]
  | c :: cs =>
    if c = '\n' then (start, stripCr acc) :: linesGo (start + blen acc + 1) [] cs
    else linesGo start (acc ++ [c]) cs

def lines (code : Text) : List (Nat × Text) := linesGo 0 [] code

/-- `err.rs:815` `tabsize`, summed over a text. -/
def width : Text → Nat
  | [] => 0
  | c :: s => (if c = '\t' then 4 else 1) + width s

/-- `str::trim_end`, for the given notion of white space. -/
def trimEnd (ws : Char → Bool) (l : Text) : Text := (l.reverse.dropWhile ws).reverse

/-- One shown line and its marked columns. -/
structure Row where
  text : Text
  s : Nat
  e : Nat
deriving DecidableEq, Repr

/-- `err.rs:817-824`: the first marked column. -/
def rowStart (ws : Char → Bool) (code : Text) (os : Nat) (line : Text) (start : Nat) : Option Nat :=
  if os ≤ start then (slice code os start).map width else some (width (line.takeWhile ws))

/-- `err.rs:825-831`: the column after the last marked one. -/
def rowEnd (ws : Char → Bool) (code : Text) (os : Nat) (line : Text) (start stop s : Nat) : Option Nat :=
  if stop ≤ os + blen line then (slice code os stop).map width
  else if os + blen line = start then some (s + 1)
  else some (width (trimEnd ws line))

/-- `err.rs:808`: the lines that are left out. -/
def outside (start stop : Nat) (l : Nat × Text) : Bool :=
  decide (l.1 + blen l.2 < start) || decide (stop ≤ l.1)

def row (ws : Char → Bool) (code : Text) (start stop : Nat) (l : Nat × Text) : Option Row :=
  (rowStart ws code l.1 l.2 start).bind fun s =>
    (rowEnd ws code l.1 l.2 start stop s).map fun e => ⟨l.2, s, e⟩

/-- The loop of `trace_code_lines`. -/
def rows (ws : Char → Bool) (code : Text) (start stop : Nat) : List (Nat × Text) → Option (List Row)
  | [] => some []
  | l :: ls =>
    if outside start stop l then rows ws code start stop ls
    else (row ws code start stop l).bind fun r => (rows ws code start stop ls).map (r :: ·)

/-- `err.rs:801-837` `trace_code_lines`. -/
def traceCodeLines (ws : Char → Bool) (code : Text) (start stop : Nat) : Option (List Row) :=
  rows ws code start stop (lines code)

/-- `err.rs:701-713` `Trace`. The location is the text it is displayed as. -/
structure Trace where
  loc : Text
  source : Text
  desc : Option Text
  start : Nat
  len : Nat

/-- `err.rs:759-763`. -/
def srcLines (ws : Char → Bool) (t : Trace) : Option (List Row) :=
  if 0 < t.len then traceCodeLines ws t.source t.start (t.start + t.len)
  else some ((lines t.source).map fun l => ⟨l.2, 0, 0⟩)

/-- `err.rs:777-779`: the marked columns. -/
def bounds (rs : List Row) : Nat × Nat :=
  rs.foldl (fun p r => (min p.1 r.s, max p.2 r.e)) (10000, 0)

/-- What `Trace::print` writes, by part: the column in the heading, the lines, and below them the
number of blanks and the number of `^`. -/
structure Shown where
  loc : Text
  pos : Nat
  source : List Text
  mark : Option (Nat × Nat)
  desc : Option Text
deriving DecidableEq

/-- `err.rs:781-786`: blanks and marks. -/
def markOf (b : Nat × Nat) : Option (Nat × Nat) := if b.1 < b.2 then some (b.1, b.2 - b.1) else none

/-- `err.rs:759-792`. -/
def shown (ws : Char → Bool) (t : Trace) : Option Shown :=
  (srcLines ws t).map fun rs =>
    { loc := t.loc
      pos := (rs.head?.map Row.s).getD 0
      source := rs.map Row.text
      mark := markOf (bounds rs)
      desc := t.desc }

/-- One written line: a blank, a bar, a blank, then the text. -/
def barLine (s : Text) : Text := ' ' :: '|' :: ' ' :: (s ++ ['\n'])

def descText : Option Text → Text
  | none => []
  | some d => ' ' :: d

/-- The line of marks, if there is one. -/
def markText (desc : Option Text) : Option (Nat × Nat) → Text
  | none => []
  | some (b, n) => barLine (List.replicate b ' ' ++ List.replicate n '^' ++ descText desc)

/-- The text without colours, `err.rs:767-792`. `num` writes a number. -/
def render (num : Nat → Text) (s : Shown) : Text :=
  '-' :: '-' :: '>' :: ' ' :: (s.loc ++ ':' :: (num s.pos ++ ['\n'])) ++
    ((s.source.map barLine).flatten ++ markText s.desc s.mark)

/-- `err.rs:747-796` `Trace::print`; `none` is a panic. -/
def print (ws : Char → Bool) (num : Nat → Text) (t : Trace) : Option Text :=
  (shown ws t).map (render num)

/-- `parse/mod.rs:248-254`: the span of a parse error at a slice of the source of `len` bytes starting
at byte `start`. -/
def errorSpan (source : Text) (start len : Nat) : Nat × Nat :=
  if len = 0 ∧ source ≠ [] then (start, 1) else (start, len)

end Verif.Trace
