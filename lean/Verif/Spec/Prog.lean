import Verif.Spec.Expand
import Verif.Spec.Eval
import Verif.Model.Prog
import Verif.Model.Read
/-! What C77 says about programs as they are written. -/
namespace Verif.Prog
open Verif Verif.Exp

/-- The expressions of a program: it, the bodies of the definitions of the commands in it, and the arguments that are expressions. -/
inductive Written (D : Defs) (e : Expr) : Expr → Prop
  | top : Written D e e
  | body {x b : Expr} {f : String} {i o ty : Option String} {ts : List Term} : Written D e x → .mk (some f) i o ts ∈ x.blks → IsDef D f ty b → Written D e b
  | arg {x y : Expr} {op i o : Option String} {ts : List Term} : Written D e x → .mk op i o ts ∈ x.blks → .expr y ∈ ts → Written D e y

/-- Every expression has a block; the parser takes no others. -/
def Filled (D : Defs) (e : Expr) : Prop := ∀ x, Written D e x → x.blks ≠ []

/-- The program, or a definition it uses, has a block with this command. -/
def Calls (D : Defs) (e : Expr) (f : String) : Prop := ∃ x i o ts, Written D e x ∧ .mk (some f) i o ts ∈ x.blks

/-- No parameter of a definition that is used is an expression; they have different names, and there are at most 256 of them. -/
def Simple (D : Defs) (e : Expr) : Prop :=
  ∀ f, Calls D e f → ∀ im ∈ D.impls f, ∀ ps b, im.defn = some (ps, b) → (∀ p ∈ ps, p.ty ≠ some "Expr") ∧ (ps.map (·.name)).Nodup ∧ ps.length ≤ 256

/-- No parameter of a definition that is used is an expression, and there are at most 256 of them. -/
def Short (D : Defs) (e : Expr) : Prop :=
  ∀ f, Calls D e f → ∀ im ∈ D.impls f, ∀ ps b, im.defn = some (ps, b) → (∀ p ∈ ps, p.ty ≠ some "Expr") ∧ ps.length ≤ 256

/-- All definitions were read from text, each with one of these environments: the commands known to the parser are those defined at the time. -/
def FromText (K : Parse.Env → Prop) (D : Defs) : Prop :=
  ∀ f, ∀ im ∈ D.impls f, ∀ ps b, im.defn = some (ps, b) → ∃ k text rest d, K k ∧ Parse.definitionImpl k text = .ok rest d ∧
    f = str d.name ∧ im.ty = d.inTy.map str ∧ ps = d.params.map readParam ∧ b = readE d.body

def isFlag : Term → Bool
  | .flag _ => true
  | _ => false

/-- The name of a variable that is written as an argument. -/
def varName : Term → List String
  | .plain (.var x) => [x]
  | _ => []

/-- The names of the variables that `let` is given to set: every other argument, and one left over. -/
def letNames : List Term → List String
  | [] => []
  | [b] => varName b
  | _ :: b :: as => varName b ++ letNames as

/-- In the program, no command of this name sets two variables of the same name. -/
def LetsDiffer (D : Defs) (e : Expr) (f : String) : Prop :=
  ∀ x, Written D e x → ∀ i o ts, .mk (some f) i o ts ∈ x.blks → (letNames (ts.filter fun t => !isFlag t)).Nodup

/-- Types can be annotated at operations, on either side, and at the output of expressions. -/
def Annotable (g : Graph) (n : Nat) (sd : Ty.Side) : Prop := (∃ f, g.nodes[n]? = some (.op f)) ∨ (g.nodes[n]? = some .expr ∧ sd = .out)

def Annotates {T : Type} (g : Graph) : Note T → Prop
  | .oblige n sd _ => Annotable g n sd
  | .anon _ => True

end Verif.Prog
