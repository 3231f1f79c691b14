import Verif.Spec.Expand
import Verif.Spec.TyGraph
import Verif.Model.Typify
/-! What C88 says: an argument as it is written, with the types of its parts. -/
namespace Verif.Typify
open Verif Verif.Exp
open Verif.Trace (Text)

variable {T : Type} [DecidableEq T]

/-- How types are written at a node: its input, its output where it is always written, its output where only those who want to know more get
it; and whether the arguments of an operation are written. -/
structure Style where
  input : Nat → Text
  output : Nat → Text
  more : Nat → Text
  full : Nat → Bool

def _root_.Verif.Exp.Term.flagged : Term → Bool
  | .flag _ => true
  | _ => false

mutual
/-- The expression that is at a node, with its types. -/
def textE (g : Graph) (S : Style) (n : Nat) : Expr → Text
  | .mk _ bs => '{' :: (textBs g S (below g n) bs ++ ' ' :: '}' :: S.output n)
/-- The blocks that are at the nodes. -/
def textBs (g : Graph) (S : Style) : List Nat → List Blk → Text
  | m :: ms, b :: bs => textB g S m b ++ (if bs.isEmpty then [] else ' ' :: '|' :: textBs g S ms bs)
  | _, _ => []
/-- A block: the command, and its arguments. -/
def textB (g : Graph) (S : Style) (m : Nat) : Blk → Text
  | .mk op _ _ ts => S.input m ++ ' ' :: (op.getD "").toList ++ S.more m ++ (if S.full m then textTs g S 256 (below g m) ts else [])
/-- So many of the terms that are not flags. -/
def textTs (g : Graph) (S : Style) : Nat → List Nat → List Term → Text
  | k, a :: as, t :: ts => if t.flagged then textTs g S k as ts else match k with
    | 0 => []
    | k + 1 => ' ' :: textT g S a t ++ textTs g S k as ts
  | _, _, _ => []
/-- An argument; an empty identifier gets quotes. -/
def textT (g : Graph) (S : Style) (a : Nat) : Term → Text
  | .flag _ => []
  | .plain (.ident x) => (if x = "" then "''" else x).toList ++ S.more a
  | .plain (.num x) => x.toList ++ S.more a
  | .plain (.var x) => '$' :: x.toList ++ S.output a
  | .pound c => '#' :: c :: S.output a
  | .expr e => textE g S a e
end

mutual
/-- The expression without any types, and without flags. -/
def plainE : Expr → Text
  | .mk _ bs => '{' :: (plainBs bs ++ [' ', '}'])
def plainBs : List Blk → Text
  | [] => []
  | b :: bs => plainB b ++ (if bs.isEmpty then [] else ' ' :: '|' :: plainBs bs)
def plainB : Blk → Text
  | .mk op _ _ ts => ' ' :: (op.getD "").toList ++ plainTs 256 ts
def plainTs : Nat → List Term → Text
  | _, [] => []
  | k, t :: ts => if t.flagged then plainTs k ts else match k with
    | 0 => []
    | k + 1 => ' ' :: plainT t ++ plainTs k ts
def plainT : Term → Text
  | .flag _ => []
  | .plain (.ident x) => (if x = "" then "''" else x).toList
  | .plain (.num x) => x.toList
  | .plain (.var x) => '$' :: x.toList
  | .pound c => ['#', c]
  | .expr e => plainE e
end

/-- No types. -/
def bare : Style := ⟨fun _ => [], fun _ => [], fun _ => [], fun _ => true⟩

/-- A type, or a question mark. -/
def colon (name : T → Text) (t : Option T) : Text := ':' :: (t.map name).getD ['?']

/-- The operation has an implementation for the type, or one for all types. -/
def runs (g : Graph) (get : String → T) (op : Nat) (t : T) : Bool :=
  g.edges.any fun e => e.src = op && match e.rel with
    | .keyed none => true
    | .keyed (some s) => get s = t
    | _ => false

/-- The types that are known. The arguments are written if the type of the input is known, and there is an implementation for it. -/
def style (g : Graph) (K : Known T) (v : Bool) : Style where
  input n := colon K.name (K.kn n .inp).ty
  output n := colon K.name (K.kn n .out).ty
  more n := if v then colon K.name (K.kn n .out).ty else []
  full n := (K.kn n .inp).ty.any (runs g K.get n)

/-- The types of the compiler. -/
def known (get : String → T) (name : T → Text) (s : Ty.State T) : Known T := ⟨get, name, s.kn⟩

/-- Of the blocks of an expression: the types of their inputs and outputs are settled, and there are implementations for the inputs. -/
def Settles (g : Graph) (get : String → T) (s : Ty.State T) (x : Nat) : Prop :=
  ∀ b ∈ below g x, ∃ t u, Ty.Settled (s.kn b .inp) t ∧ Ty.Settled (s.kn b .out) u ∧ runs g get b t = true

end Verif.Typify
