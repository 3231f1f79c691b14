import Verif.Model.Enter
import Verif.Spec.Lang
import Verif.Spec.Parse
import Verif.Spec.Defs
/-! What C84 says about entered lines. -/
namespace Verif.Enter
open Verif

mutual
/-- A command written in an expression: of one of its blocks, or in an argument of one. -/
inductive Uses : Parse.Expr → Parse.Op → Prop
  | block {bs out i o r ts} : Parse.Blk.mk i o r ts ∈ bs → Uses (.mk bs out) o
  | inner {bs out i o r ts a p} : Parse.Blk.mk i o r ts ∈ bs → Parse.Term.arg a ∈ ts → UsesA a p → Uses (.mk bs out) p
/-- A command written in an argument. `x.y` is the command `.`. -/
inductive UsesA : Parse.Arg → Parse.Op → Prop
  | expr {e p} : Uses e p → UsesA (.expr e) p
  | dot {l r out} : UsesA (.dot l r out) (.single ['.'])
  | left {l r out p} : UsesA l p → UsesA (.dot l r out) p
end

/-- All commands written are names, not paths, and defined. -/
def AllKnown (d : Defs.Defs) (e : Parse.Expr) : Prop := ∀ o, Uses e o → ∃ n, Prog.readOp o = some n ∧ d.containsOp n = true

/-- The line has none of the phrases that are looked for anywhere in it. -/
structure Plain (text : Str) : Prop where
  help : ¬ helpFlag <:+: text
  list : ¬ listFlag <:+: text
  clear : ¬ clearFlag <:+: text
  load : ¬ loadFlag <:+: text

/-- What the input type of a definition stands for. -/
def Means (d : Defs.Defs) : Option Str → Option Defs.Ty → Prop
  | none, k => k = none
  | some t, k => ∃ u, Defs.tyOf d.types (Prog.str t) = some u ∧ k = some u

/-- The texts of definitions an event has: the line, or those in the files. -/
def Event.texts (C : Parse.Env) : Event → List Str
  | .line text files => text :: files.flatMap fun f => fileTexts C f.2
  | .reload docs => docs.flatMap fun f => fileTexts C (some f.2)
where
  fileTexts (C : Parse.Env) : Option Str → List Str
  | none => []
  | some t => match File.file C.cls (headRead C) t with
    | .ok f => (f.types ++ f.impls).map (·.code)
    | .error _ => []

/-- A request that one of the texts is. -/
def Said (C : Parse.Env) (es : List Event) (r : Defs.Req) : Prop :=
  ∃ e ∈ es, ∃ t ∈ e.texts C, ∃ d, reqOf (envOf C d) d t = some r

/-- The text defines a record type with the name of a built-in command. -/
def Takes (C : Parse.Env) (t : Str) : Prop :=
  ∃ known rest name fs i, Parse.definitionType { C with known := known } t = .ok rest ⟨name, .product fs⟩ ∧
    Defs.base.entry (Prog.str name) none = some i

/-- The program has been started, with all its commands. -/
structure Begun (C : Parse.Env) (s : Session) : Prop where
  start : start C = some s
  defs : s.defs = Defs.base

end Verif.Enter
