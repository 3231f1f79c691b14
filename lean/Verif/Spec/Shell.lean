import Verif.Model.Shell
/-! What the line editor, the history and the completions are meant to do. -/
namespace Verif.Shell

/-! ### A text cursor: the text to its left and the text to its right -/

structure Cursor where
  left : List Char
  right : List Char
deriving DecidableEq, Repr

/-- How far a word movement goes over the text ahead: past the characters that are not part of a
word, then past the word. -/
def wordSpan (w : Char → Bool) (ahead : List Char) : Nat :=
  (ahead.takeWhile (!w ·)).length + ((ahead.dropWhile (!w ·)).takeWhile w).length

def Cursor.span (w : Char → Bool) (ahead : List Char) : Mvmt → Nat
  | .ch n => n
  | .word => wordSpan w ahead

def Cursor.op (w : Char → Bool) (c : Cursor) : EditOp → Cursor
  | .clear => ⟨[], []⟩
  | .insert ch => ⟨c.left ++ [ch], c.right⟩
  | .insertStr s => ⟨c.left ++ s, c.right⟩
  | .backspace => ⟨c.left.dropLast, c.right⟩
  | .delete => ⟨c.left, c.right.tail⟩
  | .moveStart => ⟨[], c.left ++ c.right⟩
  | .moveLeft m =>
    let k := c.left.length - Cursor.span w c.left.reverse m
    ⟨c.left.take k, c.left.drop k ++ c.right⟩
  | .moveRight m =>
    let k := Cursor.span w c.right m
    ⟨c.left ++ c.right.take k, c.right.drop k⟩

/-! ### History: the lines entered, and how far back one is looking -/

structure HSpec where
  /-- every line ever entered, oldest first -/
  lines : List (List Char)
  /-- 0: not looking at the history; `k`: looking at the `k`-th most recent line -/
  ago : Nat
deriving DecidableEq, Repr

/-- How many lines are remembered. -/
def HSpec.kept (h : HSpec) : Nat := min 100 h.lines.length

/-- Stepping back goes from rest to the most recent line, then to older ones, and from the oldest
remembered line to rest; stepping forward is the reverse. -/
def HSpec.op (h : HSpec) : HistOp → HSpec
  | .add l => ⟨h.lines ++ [l], 0⟩
  | .back => { h with ago := if h.ago = h.kept then 0 else h.ago + 1 }
  | .fwd => { h with ago := if h.ago = 0 then h.kept else h.ago - 1 }

/-- The line shown. -/
def HSpec.shown (h : HSpec) : Option (List Char) :=
  if h.ago = 0 then none else h.lines[h.lines.length - h.ago]?

end Verif.Shell
