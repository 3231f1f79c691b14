import Verif.Model.Defs
/-! What may happen to a store of definitions, as a relation. -/
namespace Verif.Defs

/-- The stores a session can get to from `d`, where each definition request satisfies `P` and comes from
the shell or a file, and each clear is allowed by `C`. -/
inductive Reach (P : Req → Prop) (C : Bool → Prop) (checked : Bool) (d : Defs) : Defs → Prop
  | refl : Reach P C checked d d
  | request {d1 d2 : Defs} {loc : Loc} {r : Req} : Reach P C checked d d1 → loc ≠ .ogma → P r →
      process checked d1 loc r = .ok d2 → Reach P C checked d d2
  | clear {d1 : Defs} {b : Bool} : Reach P C checked d d1 → C b → Reach P C checked d (d1.clear b)

/-- The requests of a session. -/
def Op.reqs : Op → List Req
  | .shell r => [r]
  | .load _ is => is.map (·.2)
  | .clear _ => []

/-- The direct clears of a session. -/
def Op.clears : Op → List Bool
  | .clear b => [b]
  | _ => []

/-- The parser only yields identifiers as the names of types and variants: no colon in them. -/
def Req.Ident : Req → Prop
  | .type_ n sh => ':' ∉ n.toList ∧ match sh with
      | .sum vs => ∀ v ∈ vs, ':' ∉ v.1.toList
      | .product _ => True
  | _ => True

/-- The request defines a record type with the name of a built-in generic command. -/
def Req.Clash : Req → Prop
  | .type_ n (.product _) => ∃ i, base.entry n none = some i
  | _ => False

/-- All the types a type definition mentions. -/
def Shape.mentions : Shape Field → List Ty
  | .sum vs => vs.flatMap fun v => v.2.flatMap fun f => f.ty :: f.params
  | .product fs => fs.flatMap fun f => f.ty :: f.params

/-- The store has the type. -/
def Defs.Known (d : Defs) (t : Ty) : Prop := ∃ n e, AMap.get d.types n = some e ∧ e.ty = t

end Verif.Defs
