import Verif.Model.Lang
import Verif.Spec.Eval
import Verif.Spec.Tuple
import Verif.Model.Read
import Verif.Model.Defs
import Verif.Model.LangProg
/-! What C81 says about the built-in commands. -/
namespace Verif.Lang
open Verif Verif.Comp
variable {N : Type}

/-- What is assumed of the surroundings: `Ord` has three variants without fields, a tuple of values has the fields it is made of,
and the tables that come from outside are well-formed. -/
structure World.Ok (W : World N) : Prop where
  ord : W.shape "Ord" = .sum [[], [], []]
  tuples : ∀ vs : List (Tab.Value N), 2 ≤ vs.length → (∀ v ∈ vs, okV W.shape v = true) →
    (W.shape (W.tupleName (vs.map Tab.Value.ty))).fields 0 = some (vs.map Tab.Value.ty)
  files : ∀ p t, W.files p = some t → okRs W.shape t = true
  openTab : ∀ p t, W.openTab p = some t → okRs W.shape t = true
  duration : ∀ op, okRs W.shape (W.duration op) = true

/-- Programs in which no argument is used twice, and no `let` sets two variables of the same name. `pick` is for tables only. -/
structure Tidy (W : World N) (A : Ast Tab.Ty) : Prop where
  args : ∀ op, (A.args op).Nodup
  pick : ∀ op ∈ A.ops, ∀ t i, A.getImpl op t = some (.intrinsic i) → W.cmd i = some .pick → t = .tab
  lets : ∀ op ∈ A.ops, ∀ t i, A.getImpl op t = some (.intrinsic i) → W.cmd i = some .let_ →
    ∀ b ∈ binders (A.args op), ∀ b' ∈ binders (A.args op), ∀ v, A.var b = some v → A.var b' = some v → b = b'

/-- Evaluation ends in an error, or with a well-formed value of this type. -/
def Sound (sh : String → Shape) (u : Tab.Ty) : Res (Tab.Value N × List (Tab.Value N)) → Prop
  | .ok r => r.1.ty = u ∧ okV sh r.1 = true
  | .err => True
  | .stuck => False
  | .more => False

/-- The names of all defined types are clear (see C08). -/
def ClearTypes (d : Defs.Defs) : Prop := ∀ n td, AMap.get d.types n = some (.def_ td) → Tuple.CleanName n

/-- This is the text of a definition of this name, for this type of input. -/
def TextOf (k : Parse.Env) (name : String) (ty : Option String) (src : String) : Prop :=
  ∃ rest df, Parse.definitionImpl k src.toList = .ok rest df ∧ name = Prog.str df.name ∧ ty = df.inTy.map Prog.str

/-- What is stored as a definition is the text of one, as it was read when it was defined: with the environment `ks` gives for the text. -/
def Stored (ks : String → Parse.Env) (d : Defs.Defs) : Prop :=
  ∀ n ty loc src, d.entry n ty = some (.definition loc src) → TextOf (ks src) n (ty.map tyName) src

end Verif.Lang
