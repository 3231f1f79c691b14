import Verif.Model.ParseErr
/-! What it means that an error of the parser says something true about the text. -/
namespace Verif.ParseErr
open Verif Verif.Nom Verif.File Verif.Parse

/-- A piece of the text, which is empty only at its end. -/
structure InText (w : Str) (p : Piece) : Prop where
  place : ∃ x, w = x ++ (p.text ++ p.after)
  ink : p.text ≠ [] ∨ p.after = []

/-- The first place of the error is right behind this character. -/
def Behind (w : Str) (c : Char) (e : Err) : Prop := ∃ x p ps, e.locs = p :: ps ∧ w = x ++ c :: (p.text ++ p.after)

/-- The text is one of the definition of a command. -/
def Defines (w : Str) : Prop := ∃ x, w = 'd' :: 'e' :: 'f' :: ' ' :: x

/-- An error that fits the text: there is a place, and all places are in the text; a path is expected only at the end, behind a slash; a
special literal only behind `#`; a type only behind `:` or in a definition. -/
structure Fits (w : Str) (e : Err) : Prop where
  named : e.locs ≠ []
  within : ∀ p ∈ e.locs, InText w p
  path : e.exp = .path → ∃ x, w = x ++ ['/']
  lit : e.exp = .speclit → Behind w '#' e
  type : e.exp = .type → Behind w ':' e ∨ Defines w

end Verif.ParseErr
