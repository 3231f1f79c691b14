import Verif.Model.Morph
/-! Model of the operators: variadic folds, `if`, comparison. -/
namespace Verif.Ops
variable {E T : Type}

/-! ### Variadic operators -/

/-- The loop of `ogma/src/lang/impls/intrinsics/mod.rs:107-120` and `:161-170`: arguments are evaluated in turn, with
the same input and variables, so each has one outcome. Gives the positions of the arguments that were evaluated
and the result. -/
def vloop (agg : T → T → T × Bool) : Nat → T → List (Except E T) → List Nat × Except E T
  | _, prev, [] => ([], .ok prev)
  | i, _, .error e :: _ => ([i], .error e)
  | i, prev, .ok next :: as =>
    let r := agg prev next
    if r.2 then ([i], .ok r.1)
    else
      let t := vloop agg (i + 1) r.1 as
      (i :: t.1, t.2)

/-- `mod.rs:72-121` `variadic_intrinsic_in_constrained`: the input is the seed; no arguments is a compile error
(`none`). -/
def inConstrained (agg : T → T → T × Bool) (input : T) (args : List (Except E T)) : Option (List Nat × Except E T) :=
  if args.isEmpty then none else some (vloop agg 0 input args)

/-- `mod.rs:126-172` `variadic_intrinsic_in_agnostic`: the first argument is the seed. -/
def inAgnostic (agg : T → T → T × Bool) : List (Except E T) → Option (List Nat × Except E T)
  | [] => none
  | .error e :: _ => some ([0], .error e)
  | .ok v :: as =>
    let t := vloop agg 1 v as
    some (0 :: t.1, t.2)

/-- `arithmetic.rs:25-33`: operators on numbers never stop early. `f` works on floating point numbers. -/
def arith (f : T → T → T) (input : T) (args : List (Except E T)) : Option (List Nat × Except E T) :=
  inConstrained (fun p n => (f p n, false)) input args

/-- `arithmetic.rs:74-79` `+` on strings. -/
def addStr (input : List Char) (args : List (Except E (List Char))) : Option (List Nat × Except E (List Char)) :=
  inConstrained (fun p n => (p ++ n, false)) input args

/-- `cmp.rs:459-464` `max`: `std::cmp::max` gives the second argument when the two are equal. -/
def maxN (ncmp : T → T → Ordering) (input : T) (args : List (Except E T)) : Option (List Nat × Except E T) :=
  inConstrained (fun p n => (if ncmp p n = .gt then p else n, false)) input args

/-- `cmp.rs:484-489` `min`: `std::cmp::min` gives the first argument when the two are equal. -/
def minN (ncmp : T → T → Ordering) (input : T) (args : List (Except E T)) : Option (List Nat × Except E T) :=
  inConstrained (fun p n => (if ncmp p n = .gt then n else p, false)) input args

/-- `logic.rs:24-29` `and`. -/
def and_ (args : List (Except E Bool)) : Option (List Nat × Except E Bool) :=
  inAgnostic (fun p n => let x := p && n; (x, !x)) args

/-- `logic.rs:143-148` `or`. -/
def or_ (args : List (Except E Bool)) : Option (List Nat × Except E Bool) :=
  inAgnostic (fun p n => let x := p || n; (x, x)) args

/-! ### if -/

/-- `logic.rs:74-85`: arguments are taken in pairs while more than one is left; the last is the else branch. -/
def pairUp {A : Type} : List A → Option (List (A × A) × A)
  | [] => none
  | [e] => some ([], e)
  | p :: b :: l => (pairUp l).map fun r => ((p, b) :: r.1, r.2)

/-- `logic.rs:101-109`: the positions evaluated and the result. `toBool` is the conversion of a predicate's value. -/
def ifLoop {V : Type} (toBool : V → Except E Bool) : Nat → List (Except E V × Except E V) → Except E V → List Nat × Except E V
  | i, [], els => ([i], els)
  | i, (p, b) :: cs, els => match p.bind toBool with
    | .error e => ([i], .error e)
    | .ok true => ([i, i + 1], b)
    | .ok false =>
      let t := ifLoop toBool (i + 2) cs els
      (i :: t.1, t.2)

/-- `logic.rs:60-110` `if`: an even number of arguments is a compile error (`none`). -/
def if_ {V : Type} (toBool : V → Except E Bool) (args : List (Except E V)) : Option (List Nat × Except E V) :=
  if args.length % 2 = 0 then none
  else (pairUp args).map fun r => ifLoop toBool 0 r.1 r.2

/-! ### Comparison -/

/-- Values of the types that can be compared (`cmp.rs:4-22`): nil, booleans, numbers, strings, `Ord`, tuples. -/
inductive CV (N : Type) : Type
  | nil
  | bool (b : Bool)
  | num (n : N)
  | str (s : String)
  | ord (o : Ordering)
  | tup (vs : List (CV N))

/-- `ogma/src/lang/types.rs`: `Ord` has the variants Lt, Eq, Gt. -/
def ordIdx : Ordering → Nat
  | .lt => 0
  | .eq => 1
  | .gt => 2

variable {N : Type}

/-- `cmp.rs:135-147`: `variant_idx().cmp`. -/
def ordCmp (a b : Ordering) : Ordering := Tab.natCmp (ordIdx a) (ordIdx b)

/-- The predicate of an `if` is a boolean: the type checker sees to that. -/
def cvBool : CV N → Except Unit Bool
  | .bool b => .ok b
  | _ => .error ()

/-- The arguments of the `if` in the generated code (`cmp.rs:219-227`): `{\ $c# | != Ord::Eq} $c#` for all but the
last, then `$c#`. -/
def ifArgs : List Ordering → List (Except Unit (CV N))
  | [] => []
  | [c] => [.ok (.ord c)]
  | c :: cs => .ok (.bool (!(ordIdx c == ordIdx .eq))) :: .ok (.ord c) :: ifArgs cs

/-- `cmp.rs:157-230`: the generated code `let {get t0 | cmp $rhs.t0} $c0 … | if {\ $c0 | != Ord::Eq} $c0 … $cn`,
given the outcomes of the comparisons. A tuple without elements does not compile. -/
def tupCmp (N : Type) (cs : List Ordering) : Option Ordering :=
  match if_ (E := Unit) (V := CV N) cvBool (ifArgs cs) with
  | some (_, .ok (.ord o)) => some o
  | _ => none

mutual
/-- `cmp.rs:25-230` `cmp`. Strings compare as their UTF-8 bytes, which is the order of their code points. `none`: the types differ or cannot be compared, a compile error. `ncmp` compares numbers. -/
def cmpV (ncmp : N → N → Ordering) : CV N → CV N → Option Ordering
  | .nil, .nil => some .eq
  | .bool a, .bool b => some (Tab.boolCmp a b)
  | .num a, .num b => some (ncmp a b)
  | .str a, .str b => some (Tab.strCmp a b)
  | .ord a, .ord b => some (ordCmp a b)
  | .tup as, .tup bs => (cmpAll ncmp as bs).bind (tupCmp N)
  | _, _ => none
/-- All elements are compared before any result is looked at. -/
def cmpAll (ncmp : N → N → Ordering) : List (CV N) → List (CV N) → Option (List Ordering)
  | [], [] => some []
  | a :: as, b :: bs => (cmpV ncmp a b).bind fun c => (cmpAll ncmp as bs).map (c :: ·)
  | _, _ => none
end

/-- `cmp.rs:382-439`: the generated code `and { get t0 | = $rhs.t0 } …`, given the outcomes. -/
def tupEq (bs : List Bool) : Option Bool :=
  match and_ (E := Unit) (bs.map .ok) with
  | some (_, .ok b) => some b
  | _ => none

mutual
/-- `cmp.rs:232-439` `eq`. `neq` tests numbers for equality. -/
def eqV (neq : N → N → Bool) : CV N → CV N → Option Bool
  | .nil, .nil => some true
  | .bool a, .bool b => some (a == b)
  | .num a, .num b => some (neq a b)
  | .str a, .str b => some (a == b)
  | .ord a, .ord b => some (ordIdx a == ordIdx b)
  | .tup as, .tup bs => (eqAll neq as bs).bind tupEq
  | _, _ => none
def eqAll (neq : N → N → Bool) : List (CV N) → List (CV N) → Option (List Bool)
  | [], [] => some []
  | a :: as, b :: bs => (eqV neq a b).bind fun c => (eqAll neq as bs).map (c :: ·)
  | _, _ => none
end

/-! `lang/defs.rs:44-128`: the derived operators. -/

/-- `def = (rhs) { eq $rhs }`. -/
def opEq (neq : N → N → Bool) (a b : CV N) : Option Bool := eqV neq a b
/-- `def != (rhs) { eq $rhs | not }`. -/
def opNe (neq : N → N → Bool) (a b : CV N) : Option Bool := (eqV neq a b).map (!·)
/-- `= Ord::X` on the outcome of `cmp`. -/
def isOrd (neq : N → N → Bool) (o : Ordering) (x : Ordering) : Option Bool := opEq neq (.ord o) (.ord x)
/-- `def > (rhs) { cmp $rhs | = Ord::Gt }`. -/
def opGt (ncmp : N → N → Ordering) (neq : N → N → Bool) (a b : CV N) : Option Bool :=
  (cmpV ncmp a b).bind fun o => isOrd neq o .gt
/-- `def < (rhs) { cmp $rhs | = Ord::Lt }`. -/
def opLt (ncmp : N → N → Ordering) (neq : N → N → Bool) (a b : CV N) : Option Bool :=
  (cmpV ncmp a b).bind fun o => isOrd neq o .lt
/-- `or { = Ord::X } { = Ord::Y }`. -/
def orOrd (neq : N → N → Bool) (o x y : Ordering) : Option Bool :=
  (isOrd neq o x).bind fun p => (isOrd neq o y).bind fun q => match or_ (E := Unit) [.ok p, .ok q] with
    | some (_, .ok b) => some b
    | _ => none
/-- `def >= (rhs) { cmp $rhs | or { = Ord::Gt } { = Ord::Eq } }`. -/
def opGe (ncmp : N → N → Ordering) (neq : N → N → Bool) (a b : CV N) : Option Bool :=
  (cmpV ncmp a b).bind fun o => orOrd neq o .gt .eq
/-- `def <= (rhs) { cmp $rhs | or { = Ord::Lt } { = Ord::Eq } }`. -/
def opLe (ncmp : N → N → Ordering) (neq : N → N → Bool) (a b : CV N) : Option Bool :=
  (cmpV ncmp a b).bind fun o => orOrd neq o .lt .eq

end Verif.Ops
