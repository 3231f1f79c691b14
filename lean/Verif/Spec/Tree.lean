import Verif.Model.Tree
/-! What C89 says about how values are shown. -/
namespace Verif.Tree
open Verif

variable {N : Type}

/-- The number of the last field of this name. -/
def Last (ns : List String) (i : Nat) (n : String) : Prop := ns[i]? = some n ∧ ∀ j : Nat, i < j → ns[j]? ≠ some n

/-- The tree of a value. Data of a defined type has the name of its variant, or of its type if that has fields only. Under the name of each field
is the tree of its value; of several fields of one name that of the last. The parts are in the order of their names. Tables and rows are only
called so. -/
inductive Pic (L : Names) : Tab.Value N → K N → Prop
  | nil : Pic L .nil .unit
  | bool (b : Bool) : Pic L (.bool b) (.bool b)
  | num (n : N) : Pic L (.num n) (.num n)
  | str (s : String) : Pic L (.str s) (.str s)
  | tab (rs : Tab.Rows N) : Pic L (.tab rs) (.str "<table>")
  | row (rs : Tab.Rows N) (i : Nat) : Pic L (.row rs i) (.str "<table row>")
  | named {t : String} {k : Nat} {id : String} : L t k = some (id, none) → Pic L (.ogma t k []) (.named id)
  | parts {t : String} {k : Nat} {id : String} {ns : List String} {vs : List (Tab.Value N)} {fs : List (String × K N)} (x : Nat → K N) :
      L t k = some (id, some ns) → ns.length = vs.length → (∀ (i : Nat) (v : Tab.Value N), vs[i]? = some v → Pic L v (x i)) →
      fs.Pairwise (fun a b => a.1 < b.1) → (∀ n y, (n, y) ∈ fs ↔ ∃ i : Nat, Last ns i n ∧ y = x i) → Pic L (.ogma t k vs) (.parts id fs)

/-- What is written for a result: numbers, text and tables themselves; for nothing, rows and booleans a word; for data its tree. -/
inductive Written (L : Names) : Tab.Value N → Out N → Prop
  | nil : Written L .nil (.text "()")
  | yes : Written L (.bool true) (.text "true")
  | no : Written L (.bool false) (.text "false")
  | num (n : N) : Written L (.num n) (.num n)
  | str (s : String) : Written L (.str s) (.text s)
  | tab (rs : Tab.Rows N) : Written L (.tab rs) (.table rs)
  | row (rs : Tab.Rows N) (i : Nat) : Written L (.row rs i) (.text "<table row>")
  | data {t : String} {k : Nat} {vs : List (Tab.Value N)} {x : K N} : Pic L (.ogma t k vs) x → Written L (.ogma t k vs) (.tree x)

/-- What is written for a value in a cell: of nothing a dash, of a table its size. -/
inductive InCell (L : Names) : Tab.Value N → Out N → Prop
  | nil : InCell L .nil (.text "-")
  | yes : InCell L (.bool true) (.text "true")
  | no : InCell L (.bool false) (.text "false")
  | num (n : N) : InCell L (.num n) (.num n)
  | str (s : String) : InCell L (.str s) (.text s)
  | empty : InCell L (.tab []) (.text "<table [0,0]>")
  | tab (r : List (Tab.Entry N)) (rs : Tab.Rows N) :
      InCell L (.tab (r :: rs)) (.text ("<table [" ++ toString (rs.length + 1) ++ "," ++ toString r.length ++ "]>"))
  | row (rs : Tab.Rows N) (i : Nat) : InCell L (.row rs i) (.text "<table row>")
  | data {t : String} {k : Nat} {vs : List (Tab.Value N)} {x : K N} : Pic L (.ogma t k vs) x → InCell L (.ogma t k vs) (.tree x)

/-- The names that are needed as identities of parts of the tree of a value. -/
inductive Uses (L : Names) : Tab.Value N → String → Prop
  | here {t : String} {k : Nat} {id : String} {o : Option (List String)} {vs : List (Tab.Value N)} : L t k = some (id, o) → Uses L (.ogma t k vs) id
  | inside {t : String} {k : Nat} {id : String} {v : Tab.Value N} {vs : List (Tab.Value N)} : v ∈ vs → Uses L v id → Uses L (.ogma t k vs) id

/-- The names are those of the fields the types have. -/
def Agree (L : Names) (sh : String → Lang.Shape) : Prop := ∀ t k us, (sh t).fields k = some us → ∃ id o, L t k = some (id, o) ∧
  match o with
  | none => us = []
  | some ns => ns.length = us.length

/-- The same but for what is in tables and rows. -/
inductive Same (L : Names) : Tab.Value N → Tab.Value N → Prop
  | nil : Same L .nil .nil
  | bool (b : Bool) : Same L (.bool b) (.bool b)
  | num (n : N) : Same L (.num n) (.num n)
  | str (s : String) : Same L (.str s) (.str s)
  | tab (rs rs' : Tab.Rows N) : Same L (.tab rs) (.tab rs')
  | row (rs rs' : Tab.Rows N) (i j : Nat) : Same L (.row rs i) (.row rs' j)
  | ogma {t : String} {j k : Nat} {vs ws : List (Tab.Value N)} : L t j = L t k → vs.length = ws.length →
      (∀ (i : Nat) (v w : Tab.Value N), vs[i]? = some v → ws[i]? = some w → Same L v w) → Same L (.ogma t j vs) (.ogma t k ws)

/-- No type has two variants of one name, or a variant with two fields of one name. -/
structure Distinct (d : Defs.Defs) : Prop where
  variants : ∀ t td vs, AMap.get d.types t = some (.def_ td) → td.shape = .sum vs → (vs.map (·.1)).Nodup
  ofVariant : ∀ t td vs, AMap.get d.types t = some (.def_ td) → td.shape = .sum vs → ∀ v ∈ vs, (v.2.map (·.name)).Nodup
  ofType : ∀ t td fs, AMap.get d.types t = some (.def_ td) → td.shape = .product fs → (fs.map (·.name)).Nodup

end Verif.Tree
