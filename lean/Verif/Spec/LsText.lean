import Verif.Model.LsText

/-! What positions and edits of the protocol mean, and when a text has an open quote. -/

namespace Verif.LsText
open Verif.Trace

/-- What follows the last line feed. -/
def lastLine (x : Text) : Text := (x.reverse.takeWhile (· ≠ '\n')).reverse

/-- UTF-16 units of a text. -/
def units : Text → Nat
  | [] => 0
  | c :: s => u16 c + units s

/-- The point between `x` and `y` is not inside a Windows line ending. -/
def Splits (x y : Text) : Prop := ¬ (x.getLast? = some '\r' ∧ y.head? = some '\n')

instance (x y : Text) : Decidable (Splits x y) := by unfold Splits; infer_instance

/-- The position `p` is the point between `x` and `y`: as many lines come before as `x` has line feeds,
and in its line there are `p.ch` UTF-16 units before it. -/
structure At (x y : Text) (p : Pos) : Prop where
  line : p.line = x.count '\n'
  ch : p.ch = units (lastLine x)
  eol : Splits x y

/-- A client turns the first text into the second with these edits: each replaces the text between two
points, or all of it. -/
inductive Typed : Text → List Edit → Text → Prop
  | done (t) : Typed t [] t
  | replace (x mid z new p q es t) : At x (mid ++ z) p → At (x ++ mid) z q →
      Typed (x ++ (new ++ z)) es t → Typed (x ++ (mid ++ z)) (⟨some (p, q), new⟩ :: es) t
  | all (s new es t) : Typed new es t → Typed s (⟨none, new⟩ :: es) t

/-- A client sends these batches of edits, one after the other. -/
inductive Sent : Text → List (List Edit) → Text → Prop
  | done (t) : Sent t [] t
  | batch (s es t bs u) : Typed s es t → Sent t bs u → Sent s (es :: bs) u

/-- A quote is single or double. -/
def Quote (c : Char) : Prop := c = '\'' ∨ c = '"'

instance (c : Char) : Decidable (Quote c) := inferInstanceAs (Decidable (_ ∨ _))

/-- Every quote is closed by the next one of its kind. -/
inductive Closed : Text → Prop
  | nil : Closed []
  | plain (c s) : ¬ Quote c → Closed s → Closed (c :: s)
  | quoted (q b s) : Quote q → q ∉ b → Closed s → Closed (q :: (b ++ q :: s))

/-- What the classes of characters are assumed to satisfy. -/
structure Laws (k : Classes) : Prop where
  alnum : ∀ c, k.alpha c = true → k.alnum c = true
  symbols : ∀ c ∈ ['\\', '+', '-', '*', '×', '/', '÷', '=', '>', '<', '.', '!'], k.alpha c = false
  slash : k.alnum '/' = false

end Verif.LsText
