import Verif.Model.Offer
import Verif.Spec.Parse
import Verif.Spec.Enter
/-! What completion and hover have to do. -/
namespace Verif.Offer
open Verif

/-- The implementations in an order in which the hash maps may give them: those of one name together, in any order, the names in any order. -/
def Iterates (d : Defs.Defs) (xs : List Listing.Item) : Prop :=
  ∃ (ps : List (String × Defs.Keys)) (inner : String → Defs.Keys → List Listing.Item),
    ps.Perm d.impls ∧ (∀ n ks, (inner n ks).Perm (Listing.itemsOf n ks)) ∧ xs = ps.flatMap fun x => inner x.1 x.2

/-- The orders are ones the hash maps may give. -/
structure Real (W : Wsp) (o : Orders) : Prop where
  impls : Iterates W.defs o.impls
  types : o.types.Perm W.defs.types
  help : ∀ l, (W.order l).Perm l

/-- What is said about a command: its name, and its help, with all its implementations. -/
def SaysCommand (W : Wsp) (n : String) (x : Def) : Prop :=
  ∃ ks sh, AMap.get W.defs.impls n = some ks ∧ Help.all (W.order (Help.entries W.msg ks)) = some (some sh) ∧
    x = ⟨n.toList, .impl, some (addBody (docHeader n.toList .command) (W.print sh))⟩

/-- What is said about a type. -/
def SaysType (W : Wsp) (n : String) (x : Def) : Prop :=
  ∃ e sh, AMap.get W.defs.types n = some e ∧ Help.all [(none, W.tyMsg e)] = some (some sh) ∧
    x = ⟨n.toList, .type, some (addBody (docHeader n.toList .type) (W.print sh))⟩

/-- The ASCII letters are letters. -/
def Letters (k : Parse.Env) : Prop := ∀ c : Char, c.isAlpha = true → k.cls.alpha c = true

/-- A line that asks for one command without arguments. -/
def call (n : Text) : Parse.Blk := .mk none (.single n) none []

/-- The names in a request can be written as those of commands and types. -/
def Readable (k : Parse.Env) : Defs.Req → Prop
  | .impl m _ _ _ => Parse.IsOp k.cls (.single m.toList)
  | .type_ m (.sum vs) => Parse.IsName k.cls m.toList ∧ ∀ v ∈ vs, Parse.IsName k.cls v.1.toList
  | .type_ m (.product _) => Parse.IsName k.cls m.toList
  | _ => True

/-- The word between the last blank, dot or slash before the cursor and the cursor. Directly before such a character there is none. -/
def WordAt (left right word : Text) : Prop :=
  (∃ c r, right = c :: r ∧ Shell.isSplit c = true ∧ word = []) ∨
    ((∀ c r, right = c :: r → Shell.isSplit c = false) ∧ ∃ pre, left = pre ++ word ∧ (∀ c ∈ word, Shell.isSplit c = false) ∧
      (pre = [] ∨ ∃ p c, pre = p ++ [c] ∧ Shell.isSplit c = true))

/-- What hovering over a word of a kind shows: the word, its kind, and the help if it is a command or a type that is defined. -/
def Shows (W : Wsp) (ty : Tags.NodeType) (t shown : Text) : Prop :=
  (∃ ks sh, ty = .command ∧ AMap.get W.defs.impls (String.ofList t) = some ks ∧ Help.all (W.order (Help.entries W.msg ks)) = some (some sh) ∧
    shown = addBody (docHeader t ty) (W.print sh)) ∨
  (∃ e sh, ty = .type ∧ AMap.get W.defs.types (String.ofList t) = some e ∧ Help.all [(none, W.tyMsg e)] = some (some sh) ∧
    shown = addBody (docHeader t ty) (W.print sh)) ∨
  ((ty = .command → W.defs.containsOp (String.ofList t) = false) ∧ (ty = .type → AMap.get W.defs.types (String.ofList t) = none) ∧ shown = docHeader t ty)

end Verif.Offer
