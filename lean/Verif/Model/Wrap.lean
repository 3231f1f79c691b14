/-! Text on the screen of the shell: wrapping coloured text to a width, the position of the cursor, and the scroll bar. -/
namespace Verif.Wrap
variable {St : Type}

/-- Text with a style. `cansi` (not modelled) splits text into lines, and these into slices of one style. -/
abbrev Span (St : Type) := List Char × St

/-- `interface/mod.rs:872-877`: what the loop has at hand: the rows that are complete, the spans of the row that is not, and the width so far. -/
structure Acc (St : Type) where
  rows : List (List (Span St))
  spans : List (Span St)
  w : Nat

/-- `interface/mod.rs:879-893`: the characters of a slice; `cur` is `slice.text[start..i]`. Byte positions are not modelled: both are always
between two characters. `wd` is `ch.width().unwrap_or(0)` of the crate `unicode_width`. -/
def cutSlice (wd : Char → Nat) (width : Nat) (st : St) : List Char → List Char → Acc St → Acc St
  | [], cur, a => { a with spans := a.spans ++ [(cur, st)] }
  | c :: cs, cur, a =>
    if a.w + wd c > width then cutSlice wd width st cs [c] ⟨a.rows ++ [a.spans ++ [(cur, st)]], [], wd c⟩
    else cutSlice wd width st cs (cur ++ [c]) { a with w := a.w + wd c }

/-- `interface/mod.rs:878-894`: the slices of a line. -/
def cutSlices (wd : Char → Nat) (width : Nat) : List (Span St) → Acc St → Acc St
  | [], a => a
  | (t, st) :: l, a => cutSlices wd width l (cutSlice wd width st t [] a)

/-- `interface/mod.rs:873-897`: a line, added to the rows. -/
def cutLine (wd : Char → Nat) (width : Nat) (rows : List (List (Span St))) (line : List (Span St)) : List (List (Span St)) :=
  let a := cutSlices wd width line ⟨rows, [], 0⟩
  a.rows ++ [a.spans]

/-- `interface/mod.rs:954`: `s.replace('\t', "    ")`. -/
def spaces (t : List Char) : List Char := t.flatMap fun c => if c = '\t' then [' ', ' ', ' ', ' '] else [c]

/-- `interface/mod.rs:908-955` `cnv_span`; `look` makes the style of the terminal, for the theme. -/
def cnvSpan {Lk : Type} (look : St → Lk) (s : Span St) : Span Lk := (spaces s.1, look s.2)

/-- `interface/mod.rs:869-906` `convert_coloured_str`. `ends` is `s.ends_with('\n')`. Spans are converted at the end, not one by one. -/
def convert {Lk : Type} (wd : Char → Nat) (width : Nat) (look : St → Lk) (plain : Lk) (lines : List (List (Span St))) (ends : Bool) : List (List (Span Lk)) :=
  (lines.foldl (cutLine wd width) []).map (·.map (cnvSpan look)) ++ if ends then [[([], plain)]] else []

/-- `interface/mod.rs:761-776` `calculate_cursor_offset`, of the widths of the rows; `w` and `y` are those of the loop. That `y` fits in 16 bits is not
modelled. -/
def cursorLoop (pos : Nat) : List Nat → Nat → Nat → Nat × Nat
  | [], _, y => (0, y)
  | a :: l, w, y => if w + a ≥ pos then ((pos - w) % 65536, y) else cursorLoop pos l (w + a) (y + 1)

def cursorOffset (widths : List Nat) (pos : Nat) : Nat × Nat := cursorLoop pos widths 0 0

/-- `interface/mod.rs:752-759` `sum_newline_chars`. -/
def newlines (before : List Char) : Nat := (before.filter fun c => c = '\r' || c = '\n').length

/-- `interface/mod.rs:556-573`: the cursor, for the text before it. -/
def cursor (widths : List Nat) (before : List Char) : Nat × Nat :=
  let p := cursorOffset widths (before.length - newlines before)
  if before.getLast? = some '\n' then (0, p.2 + 1) else p

/-- Rows of the screen: the first one, and how many. -/
structure Rows where
  y : Nat
  height : Nat
deriving DecidableEq, Repr

/-- `outputs.rs:114-140` `scroll_location`. `part a b c` is `a / b * c`, without what follows the point, in floating point numbers; `height * height / lines` is
taken to be exact (both are less than `2^32`). -/
def scrollBar (part : Nat → Nat → Nat → Nat) (area : Rows) (lines scroll : Nat) : Rows :=
  if lines ≤ 1 then area
  else
    let h := if lines ≤ area.height then area.height else area.height * area.height / lines
    let h := if area.height < 1 then 1 else min area.height (max h 1)
    let lim := area.height - h
    ⟨area.y + min (part scroll (lines - 1) lim) lim, h⟩

end Verif.Wrap
