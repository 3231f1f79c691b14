/-! A finite map as an association list, standing for `HashMap`. Iteration order is not part of any
result modelled with it. -/
namespace Verif

abbrev AMap (α β : Type) := List (α × β)

namespace AMap
variable {α β : Type} [DecidableEq α]

/-- `HashMap::get`. -/
def get (m : AMap α β) (k : α) : Option β :=
  match m with
  | [] => none
  | (a, b) :: m => if a = k then some b else get m k

/-- `HashMap::contains_key`. -/
def has (m : AMap α β) (k : α) : Bool := (m.get k).isSome

/-- `HashMap::insert`. -/
def insert (m : AMap α β) (k : α) (v : β) : AMap α β :=
  match m with
  | [] => [(k, v)]
  | (a, b) :: m => if a = k then (a, v) :: m else (a, b) :: insert m k v

/-- `HashMap::retain`. -/
def retain (m : AMap α β) (p : α → β → Bool) : AMap α β := m.filter fun x => p x.1 x.2

/-- `HashMap::values_mut().for_each`. -/
def mapVals (m : AMap α β) (f : β → β) : AMap α β := m.map fun x => (x.1, f x.2)

/-- No key occurs twice. -/
def Wf (m : AMap α β) : Prop := (m.map (·.1)).Nodup

end AMap
end Verif
