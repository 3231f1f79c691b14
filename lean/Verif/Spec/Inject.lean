import Verif.Model.Inject
import Verif.Spec.Meaning
import Verif.Props.Names
/-! What C93 says: code that commands compile for themselves is evaluated as it is written. -/
namespace Verif.Lang
open Verif Verif.Exp Verif.Comp Verif.Prog
variable {N : Type}

/-- After any session of definitions, of types with clear names and of commands given by their texts; each text is read with
the commands known at the time. -/
structure Site.Ok (Q : Site N) : Prop where
  session : ∃ checked os, Defs.run checked Defs.base os = some Q.d
  laws : ∀ src, Parse.Laws (Q.ks src)
  stored : Stored Q.ks Q.d
  clear : ClearTypes Q.d
  own : Parse.Laws Q.k
  ord : OrderOk Q.ord

/-- The tables the surroundings provide are well-formed. -/
structure World.Fed (W : World N) (d : Defs.Defs) : Prop where
  files : ∀ p t, W.files p = some t → okRs (shapeOf d) t = true
  opened : ∀ p t, W.openTab p = some t → okRs (shapeOf d) t = true
  duration : ∀ op, okRs (shapeOf d) (W.duration op) = true

/-- The definitions the text uses have at most 256 parameters, none of them an expression; no `let` is given the same name twice; and
`fold-while` is not used. -/
def Site.Plain (Q : Site N) (text : String) : Prop :=
  ∀ rest x, Parse.expression Q.k text.toList = .ok rest x →
    Short (defsOf Q.ks Q.d) (readE x) ∧ LetsDiffer (defsOf Q.ks Q.d) (readE x) "let" ∧ Without (defsOf Q.ks Q.d) (readE x) "fold-while"

/-- The value of the code as it is written, for an input and the value of `$rhs`. -/
def Site.means (Q : Site N) (W : World N) (p : Inject) (x y : Tab.Value N) : Res (Tab.Value N) :=
  exprMeans (Q.ast p.g) (sense (Q.ast p.g) (talks (Q.world W p.g)) (exec (Q.world W p.g) (Q.ast p.g) (literal Q.num p.g)) p.c) p.c.steps.length 0 x
    (Vals.none.put "rhs" y)

/-- An error, or a well-formed value of this type. -/
def Typed (sh : String → Shape) (u : Tab.Ty) : Res (Tab.Value N) → Prop
  | .ok v => v.ty = u ∧ okV sh v = true
  | .err => True
  | .stuck => False
  | .more => False

end Verif.Lang
