import Verif.Model.LangProg
/-! Code that commands compile for themselves: `sort-by` and `grp-by` compile `cmp $rhs`, and `cmp` and `eq` of tuples compile a
text made for the number of elements. -/
namespace Verif.Lang
open Verif Verif.Exp Verif.Comp Verif.Prog
variable {N : Type}

/-- `intrinsics/mod.rs:359`: the code for two values of a type. -/
def cmpText : String := "cmp $rhs"

/-- `cmp.rs:210-219`: what is written for an element. -/
def cmpPart (i : Nat) : String := s!"\{get t{i} | cmp $rhs.t{i}} $c{i} "

/-- `cmp.rs:224-227`. -/
def ifPart (i : Nat) : String := s!"\{\\ $c{i} | != Ord::Eq} $c{i} "

/-- `cmp.rs:202-232` `build_tuple_cmp_code`. -/
def tupleCmpText (els : Nat) : String :=
  "let " ++ String.join ((List.range els).map cmpPart) ++ "| if " ++ String.join ((List.range (els - 1)).map ifPart) ++ s!"$c{els - 1}"

/-- `cmp.rs:428-439` `build_tuple_eq_code`. -/
def tupleEqText (els : Nat) : String := "and " ++ String.join ((List.range els).map fun i => s!"\{ get t{i} | = $rhs.t{i} } ")

/-- `cmp.rs:161-164`, `:387-390`: the number of elements. -/
def elsOf : Shape → Nat
  | .product fs => fs.length
  | .sum _ => 0

/-- What code is compiled with: the definitions, with the environments of their texts; the environment in which the code is read; the
order in which the compiler looks at nodes, and how many rounds it gets; and the types without a name that are known
(`blk.compiler().tg().anon_tys()`). Which types these are depends on the program that the command is in, and how far it has been compiled. -/
structure Site (N : Type) where
  ks : String → Parse.Env
  d : Defs.Defs
  k : Parse.Env
  num : String → N
  ord : List Nat → List Nat
  fuel : Nat
  anon : List Tab.Ty

/-- Code that has been compiled. -/
structure Inject where
  g : Graph
  c : S Tab.Ty

/-- `eng/astgraph` of the code, as the compiler sees it. -/
def Site.ast (Q : Site N) (g : Graph) : Ast Tab.Ty := Prog.ast (defsOf Q.ks Q.d) (storedTypes Q.d) (number (cmdsOf Q.d)) g

/-- The surroundings of code. -/
def Site.world (Q : Site N) (W : World N) (g : Graph) : World N := (W.typed Q.d).on (cmdsOf Q.d) g

/-- `eng/eval.rs:129-140` `CodeInjector::new`, `:168-170` `new_var`, `:172-192` `compile`; `intrinsics/mod.rs:359-380`: the text is parsed and compiled for
input of this type, with a variable `rhs` of the same type, and has to return `u`. -/
def Site.compile (Q : Site N) (W : World N) (text : String) (t u : Tab.Ty) : Option Inject :=
  match Parse.expression Q.k text.toList with
  | .ok _ x => match init (defsOf Q.ks Q.d) (readE x) with
    | .error _ => none
    | .ok g => match begins (Q.ast g) (storedTypes Q.d) g t [("rhs", t)] (Q.anon.map .anon) with
      | .error _ => none
      | .ok s => match Comp.compile (Q.ast g) ((talks (Q.world W g)).builtins (Q.ast g)) Q.ord Q.fuel 0 s with
        | some (.ok c) => if (c.tg.kn 0 .out).ty = some u then some ⟨g, c⟩ else none
        | _ => none
  | _ => none

/-- `eng/comp/mod.rs:32-100`, `eng/var.rs` `Environment`, `intrinsics/mod.rs:435-445`: the environment has a place for each variable; `rhs` has the first one. -/
def Inject.env (p : Inject) (y : Tab.Value N) : List (Tab.Value N) := (List.replicate p.c.slots.length .nil).set 0 y

/-- `eng/eval.rs:216-245` `eval_with_env`: the value of the code; the second value has been made before. -/
def Site.eval (Q : Site N) (W : World N) (p : Inject) (x y : Tab.Value N) : Res (Tab.Value N) :=
  match evalExpr (Q.ast p.g) (exec (Q.world W p.g) (Q.ast p.g) (literal Q.num p.g)) p.c p.c.steps.length 0 x (p.env y) with
  | .ok r => .ok r.1
  | .err => .err
  | .stuck => .stuck
  | .more => .more

/-- `intrinsics/mod.rs:448-456` `cnv_value_to_ord`. -/
def ordOf : Tab.Value N → Ordering
  | .ogma _ 0 _ => .lt
  | .ogma _ 1 _ => .eq
  | _ => .gt

def boolOf : Tab.Value N → Bool
  | .bool b => b
  | _ => false

/-- A value, as something else; an error is `none`. -/
def resTo {V X : Type} (f : V → X) : Res V → Option X
  | .ok v => some (f v)
  | _ => none

/-- `types.rs:500-502` `is_tuple`; `intrinsics/mod.rs:403-428` `cmp_cmd`; `cmp.rs:157-199`, `:382-425`: the surroundings in which the commands compile code. The code is itself compiled in the surroundings `W`. -/
def Site.deeper (Q : Site N) (W : World N) : World N :=
  { W with
    isTuple := fun name => name.startsWith "U_"
    orders := fun u => (Q.compile W cmpText u ordTy).isSome
    order := fun u a b => (Q.compile W cmpText u ordTy).bind fun p => resTo ordOf (Q.eval W p a b)
    tupCmp := fun name => (Q.compile W (tupleCmpText (elsOf (shapeOf Q.d name))) (.def_ name) ordTy).map fun p a b => resTo ordOf (Q.eval W p a b)
    tupEq := fun name => (Q.compile W (tupleEqText (elsOf (shapeOf Q.d name))) (.def_ name) .bool).map fun p a b => resTo boolOf (Q.eval W p a b) }

/-- The surroundings in which code is compiled `n` deep. -/
def Site.deep (Q : Site N) (W : World N) : Nat → World N
  | 0 => W
  | n + 1 => Q.deeper (Q.deep W n)

end Verif.Lang
