import Verif.Spec.Ops
import Verif.Lemmas.TabSort
/-! Properties of operators (C27), `if` (C28) and comparison (C26). -/
namespace Verif.Ops
open Std
variable {E T V N : Type}

/-! ### Variadic operators (C27) -/

/-- The loop over arguments that all succeed, when the operator never stops early. -/
theorem vloop_all (f : T → T → T) : ∀ (vs : List T) (i : Nat) (p : T),
    vloop (E := E) (fun p n => (f p n, false)) i p (vs.map .ok) = (List.range' i vs.length, .ok (vs.foldl f p))
  | [], _, _ => rfl
  | v :: vs, i, p => by
    simp only [List.map_cons, vloop, Bool.false_eq_true, if_false, vloop_all f vs (i + 1) (f p v)]
    rfl

/-- C27. An operator on numbers whose arguments all succeed is the left fold of the binary operator over input and
arguments; every argument is evaluated, once, from left to right. -/
theorem arith_fold (f : T → T → T) (input : T) (vs : List T) (h : vs ≠ []) :
    arith (E := E) f input (vs.map .ok) = some (List.range vs.length, .ok (vs.foldl f input)) := by
  unfold arith inConstrained
  rw [if_neg (by cases vs <;> simp_all), vloop_all, List.range_eq_range']

example : arith (E := String) (· - ·) (10 : Int) [.ok 3, .ok 4] = some ([0, 1], .ok ((10 - 3) - 4)) := by
  exact arith_fold _ 10 [3, 4] (by simp)

theorem vloop_fail (f : T → T → T) (e : E) (rest : List (Except E T)) : ∀ (vs : List T) (i : Nat) (p : T),
    vloop (fun p n => (f p n, false)) i p (vs.map .ok ++ .error e :: rest) = (List.range' i (vs.length + 1), .error e)
  | [], _, _ => rfl
  | v :: vs, i, p => by
    simp only [List.map_cons, List.cons_append, vloop, Bool.false_eq_true, if_false, vloop_fail f e rest vs (i + 1) (f p v)]
    rfl

/-- C27. When an argument fails, that failure is the result and no later argument is evaluated. -/
theorem arith_fail (f : T → T → T) (input : T) (vs : List T) (e : E) (rest : List (Except E T)) :
    arith f input (vs.map .ok ++ .error e :: rest) = some (List.range (vs.length + 1), .error e) := by
  unfold arith inConstrained
  rw [if_neg (by cases vs <;> simp), vloop_fail, List.range_eq_range']

example : arith (· + ·) (1 : Int) [.ok 3, .error "no", .ok 4] = some ([0, 1], .error "no") :=
  arith_fail _ 1 [3] "no" [.ok 4]

/-- C27. `+` on strings joins input and arguments in order. -/
theorem add_str_exact (input : List Char) (vs : List (List Char)) (h : vs ≠ []) :
    addStr (E := E) input (vs.map .ok) = some (List.range vs.length, .ok (input ++ vs.flatten)) := by
  have key : ∀ (vs : List (List Char)) (p : List Char), vs.foldl (· ++ ·) p = p ++ vs.flatten := by
    intro vs
    induction vs with
    | nil => intro p; simp
    | cons v vs ih => intro p; rw [List.foldl_cons, ih]; simp
  have := arith_fold (E := E) (· ++ ·) input vs h
  rw [key] at this
  exact this

example : addStr (E := String) ['a'] [.ok ['b'], .ok ['c', 'd']] = some ([0, 1], .ok ['a', 'b', 'c', 'd']) :=
  add_str_exact ['a'] [['b'], ['c', 'd']] (by simp)

/-- C27. `max` gives the input or an argument, and nothing among them is greater. -/
theorem max_exact (ncmp : T → T → Ordering) [TransCmp ncmp] (input : T) (vs : List T) (h : vs ≠ []) :
    ∃ m, maxN (E := E) ncmp input (vs.map .ok) = some (List.range vs.length, .ok m) ∧
      m ∈ input :: vs ∧ ∀ v ∈ input :: vs, ncmp v m ≠ .gt := by
  refine ⟨_, arith_fold _ input vs h, ?_⟩
  clear h
  induction vs generalizing input with
  | nil => simp [ReflCmp.compare_self (cmp := ncmp)]
  | cons v vs ih =>
    rw [List.foldl_cons]
    obtain ⟨hm, hle⟩ := ih (if ncmp input v = .gt then input else v)
    generalize List.foldl _ _ vs = m at hm hle
    have tr : ∀ a b, ncmp a b ≠ .gt → ncmp b m ≠ .gt → ncmp a m ≠ .gt := by
      intro a b h1 h2
      have := TransCmp.isLE_trans (cmp := ncmp) (a := a) (b := b) (c := m)
        (by cases hh : ncmp a b <;> simp_all) (by cases hh : ncmp b m <;> simp_all)
      intro h3; rw [h3] at this; cases this
    by_cases hc : ncmp input v = .gt
    · rw [if_pos hc] at hm hle
      refine ⟨by simp only [List.mem_cons] at hm ⊢; rcases hm with h | h <;> simp [h], fun x hx => ?_⟩
      rcases List.mem_cons.1 hx with rfl | hx
      · exact hle x (by simp)
      · rcases List.mem_cons.1 hx with rfl | hx
        · refine tr _ input ?_ (hle input (by simp))
          rw [OrientedCmp.eq_swap (cmp := ncmp), hc]; decide
        · exact hle x (by simp [hx])
    · rw [if_neg hc] at hm hle
      refine ⟨by simp only [List.mem_cons] at hm ⊢; rcases hm with h | h <;> simp [h], fun x hx => ?_⟩
      rcases List.mem_cons.1 hx with rfl | hx
      · exact tr _ v hc (hle v (by simp))
      · exact hle x hx

/-- C27. `min` gives the input or an argument, and nothing among them is less. -/
theorem min_exact (ncmp : T → T → Ordering) [TransCmp ncmp] (input : T) (vs : List T) (h : vs ≠ []) :
    ∃ m, minN (E := E) ncmp input (vs.map .ok) = some (List.range vs.length, .ok m) ∧
      m ∈ input :: vs ∧ ∀ v ∈ input :: vs, ncmp m v ≠ .gt := by
  refine ⟨_, arith_fold _ input vs h, ?_⟩
  clear h
  induction vs generalizing input with
  | nil => simp [ReflCmp.compare_self (cmp := ncmp)]
  | cons v vs ih =>
    rw [List.foldl_cons]
    obtain ⟨hm, hle⟩ := ih (if ncmp input v = .gt then v else input)
    generalize List.foldl _ _ vs = m at hm hle
    have tr : ∀ a b, ncmp m a ≠ .gt → ncmp a b ≠ .gt → ncmp m b ≠ .gt := by
      intro a b h1 h2
      have := TransCmp.isLE_trans (cmp := ncmp) (a := m) (b := a) (c := b)
        (by cases hh : ncmp m a <;> simp_all) (by cases hh : ncmp a b <;> simp_all)
      intro h3; rw [h3] at this; cases this
    by_cases hc : ncmp input v = .gt
    · rw [if_pos hc] at hm hle
      refine ⟨by simp only [List.mem_cons] at hm ⊢; rcases hm with h | h <;> simp [h], fun x hx => ?_⟩
      rcases List.mem_cons.1 hx with rfl | hx
      · refine tr v _ (hle v (by simp)) ?_
        rw [OrientedCmp.eq_swap (cmp := ncmp), hc]; decide
      · exact hle x hx
    · rw [if_neg hc] at hm hle
      refine ⟨by simp only [List.mem_cons] at hm ⊢; rcases hm with h | h <;> simp [h], fun x hx => ?_⟩
      rcases List.mem_cons.1 hx with rfl | hx
      · exact hle x (by simp)
      · rcases List.mem_cons.1 hx with rfl | hx
        · exact tr input _ (hle input (by simp)) hc
        · exact hle x (by simp [hx])

example : ([4, 9] : List Nat) ≠ [] ∧ maxN (E := String) Tab.natCmp 7 [.ok 4, .ok 9] = some ([0, 1], .ok 9) ∧
    minN (E := String) Tab.natCmp 7 [.ok 4, .ok 9] = some ([0, 1], .ok 4) := by decide +kernel

/-- C27. Without arguments no operator compiles. -/
theorem no_args (f : T → T → T) (input : T) (ncmp : T → T → Ordering) (s : List Char) :
    arith (E := E) f input [] = none ∧ addStr (E := E) s [] = none ∧ maxN (E := E) ncmp input [] = none ∧
      minN (E := E) ncmp input [] = none ∧ and_ (E := E) [] = none ∧ or_ (E := E) [] = none :=
  ⟨rfl, rfl, rfl, rfl, rfl, rfl⟩

/-! `and` and `or`. -/

theorem vloop_and (rest : List (Except E Bool)) : ∀ (n i : Nat),
    vloop (fun p n => let x := p && n; (x, !x)) i true (List.replicate n (.ok true) ++ rest) =
      (List.range' i n ++ (vloop (fun p n => let x := p && n; (x, !x)) (i + n) true rest).1,
        (vloop (fun p n => let x := p && n; (x, !x)) (i + n) true rest).2)
  | 0, i => by simp
  | n + 1, i => by
    rw [List.replicate_succ, List.cons_append]
    simp only [vloop]
    rw [if_neg (by decide)]
    have := vloop_and rest n (i + 1)
    simp only [Bool.and_true] at this ⊢
    rw [this, List.range'_succ]
    simp [Nat.add_assoc, Nat.add_comm 1 n]

theorem vloop_or (rest : List (Except E Bool)) : ∀ (n i : Nat),
    vloop (fun p n => let x := p || n; (x, x)) i false (List.replicate n (.ok false) ++ rest) =
      (List.range' i n ++ (vloop (fun p n => let x := p || n; (x, x)) (i + n) false rest).1,
        (vloop (fun p n => let x := p || n; (x, x)) (i + n) false rest).2)
  | 0, i => by simp
  | n + 1, i => by
    rw [List.replicate_succ, List.cons_append]
    simp only [vloop]
    rw [if_neg (by decide)]
    have := vloop_or rest n (i + 1)
    simp only [Bool.or_false] at this ⊢
    rw [this, List.range'_succ]
    simp [Nat.add_assoc, Nat.add_comm 1 n]

/-- C27. `and` of true arguments is true and evaluates them all. -/
theorem and_true (n : Nat) : and_ (E := E) (List.replicate (n + 1) (.ok true)) = some (List.range (n + 1), .ok true) := by
  rw [List.replicate_succ, and_, inAgnostic]
  have := vloop_and (E := E) [] n 1
  simp only [List.append_nil] at this
  simp only [this, vloop, List.append_nil, List.range_eq_range', List.range'_succ]

/-- C27. `and` is false when an argument at or after the second is the first to be false; nothing after it is
evaluated. -/
theorem and_false (n : Nat) (rest : List (Except E Bool)) :
    and_ (List.replicate (n + 1) (.ok true) ++ .ok false :: rest) = some (List.range (n + 2), .ok false) := by
  rw [List.replicate_succ, List.cons_append, and_, inAgnostic]
  have := vloop_and (E := E) (.ok false :: rest) n 1
  simp only [this, vloop, List.range_eq_range', List.range'_succ (n := n + 1)]
  rw [if_pos (by decide), List.range'_concat]
  simp

/-- C27. When the first argument of `and` is false the second is still evaluated: its failure is the result, and
otherwise the result is false; nothing after the second is evaluated. -/
theorem and_false_first (x : Except E Bool) (rest : List (Except E Bool)) :
    and_ [.ok false] = some ([0], Except.ok (ε := E) false) ∧
      and_ (.ok false :: x :: rest) = some ([0, 1], x.map fun _ => false) := by
  refine ⟨rfl, ?_⟩
  cases x <;> rfl

/-- C27. A failing argument of `and` after true ones is the result; nothing after it is evaluated. -/
theorem and_fail (n : Nat) (e : E) (rest : List (Except E Bool)) :
    and_ (List.replicate n (.ok true) ++ .error e :: rest) = some (List.range (n + 1), .error e) := by
  cases n with
  | zero => rfl
  | succ n =>
    rw [List.replicate_succ, List.cons_append, and_, inAgnostic]
    have := vloop_and (E := E) (.error e :: rest) n 1
    simp only [this, vloop, List.range_eq_range', List.range'_succ (n := n + 1)]
    rw [List.range'_concat]
    simp

/-- C27. `or` of false arguments is false and evaluates them all. -/
theorem or_false (n : Nat) : or_ (E := E) (List.replicate (n + 1) (.ok false)) = some (List.range (n + 1), .ok false) := by
  rw [List.replicate_succ, or_, inAgnostic]
  have := vloop_or (E := E) [] n 1
  simp only [List.append_nil] at this
  simp only [this, vloop, List.append_nil, List.range_eq_range', List.range'_succ]

/-- C27. `or` is true when an argument at or after the second is the first to be true; nothing after it is
evaluated. -/
theorem or_true (n : Nat) (rest : List (Except E Bool)) :
    or_ (List.replicate (n + 1) (.ok false) ++ .ok true :: rest) = some (List.range (n + 2), .ok true) := by
  rw [List.replicate_succ, List.cons_append, or_, inAgnostic]
  have := vloop_or (E := E) (.ok true :: rest) n 1
  simp only [this, vloop, List.range_eq_range', List.range'_succ (n := n + 1)]
  rw [if_pos (by decide), List.range'_concat]
  simp

/-- C27. When the first argument of `or` is true the second is still evaluated. -/
theorem or_true_first (x : Except E Bool) (rest : List (Except E Bool)) :
    or_ [.ok true] = some ([0], Except.ok (ε := E) true) ∧
      or_ (.ok true :: x :: rest) = some ([0, 1], x.map fun _ => true) := by
  refine ⟨rfl, ?_⟩
  cases x <;> rfl

/-- C27. A failing argument of `or` after false ones is the result; nothing after it is evaluated. -/
theorem or_fail (n : Nat) (e : E) (rest : List (Except E Bool)) :
    or_ (List.replicate n (.ok false) ++ .error e :: rest) = some (List.range (n + 1), .error e) := by
  cases n with
  | zero => rfl
  | succ n =>
    rw [List.replicate_succ, List.cons_append, or_, inAgnostic]
    have := vloop_or (E := E) (.error e :: rest) n 1
    simp only [this, vloop, List.range_eq_range', List.range'_succ (n := n + 1)]
    rw [List.range'_concat]
    simp

/-- C27. When every argument succeeds `and` is true iff all are true, and `or` is true iff any is. -/
theorem and_or_truth (bs : List Bool) (h : bs ≠ []) :
    (∃ tr, and_ (E := E) (bs.map .ok) = some (tr, .ok (bs.all id))) ∧
      ∃ tr, or_ (E := E) (bs.map .ok) = some (tr, .ok (bs.any id)) := by
  have ka : ∀ (bs : List Bool) (i : Nat) (p : Bool),
      (vloop (E := E) (fun p n => let x := p && n; (x, !x)) i p (bs.map .ok)).2 = .ok (p && bs.all id) := by
    intro bs
    induction bs with
    | nil => intro i p; simp [vloop]
    | cons b bs ih =>
      intro i p
      simp only [List.map_cons, vloop]
      by_cases hb : (p && b) = true
      · rw [if_neg (by simp [hb])]
        simp only [ih]; simp [Bool.and_assoc]
      · rw [if_pos (by cases hpb : (p && b) <;> simp_all)]
        simp only [List.all_cons, id]
        have : (p && b) = false := by simpa using hb
        rw [← Bool.and_assoc, this]; rfl
  have ko : ∀ (bs : List Bool) (i : Nat) (p : Bool),
      (vloop (E := E) (fun p n => let x := p || n; (x, x)) i p (bs.map .ok)).2 = .ok (p || bs.any id) := by
    intro bs
    induction bs with
    | nil => intro i p; simp [vloop]
    | cons b bs ih =>
      intro i p
      simp only [List.map_cons, vloop]
      by_cases hb : (p || b) = true
      · rw [if_pos hb]
        simp only [List.any_cons, id]
        rw [← Bool.or_assoc, hb]; rfl
      · rw [if_neg hb]
        simp only [ih]; simp [Bool.or_assoc]
  cases bs with
  | nil => exact absurd rfl h
  | cons b bs =>
    have a := ka bs 1 b
    have o := ko bs 1 b
    constructor
    · refine ⟨0 :: (vloop (E := E) (fun p n => let x := p && n; (x, !x)) 1 b (bs.map .ok)).1, ?_⟩
      simp only [List.map_cons, and_, inAgnostic]; rw [a]; rfl
    · refine ⟨0 :: (vloop (E := E) (fun p n => let x := p || n; (x, x)) 1 b (bs.map .ok)).1, ?_⟩
      simp only [List.map_cons, or_, inAgnostic]; rw [o]; rfl

example : ([true, false, true] : List Bool) ≠ [] ∧ and_ (E := String) [.ok true, .ok false, .error "x"] = some ([0, 1], .ok false) ∧
    or_ [.ok true, .error "x", .ok true] = some ([0, 1], .error "x") := by decide +kernel

/-! ### if (C28) -/

/-- C28. An even number of arguments is rejected, and only that. -/
theorem if_even (toBool : V → Except E Bool) (args : List (Except E V)) : if_ toBool args = none ↔ args.length % 2 = 0 := by
  have pu : ∀ (n : Nat) (l : List (Except E V)), l.length = 2 * n + 1 → (pairUp l).isSome := by
    intro n
    induction n with
    | zero => intro l hl; match l, hl with | [_], _ => rfl
    | succ n ih =>
      intro l hl
      match l, hl with
      | p :: b :: l, hl =>
        simp only [pairUp, Option.isSome_map]
        exact ih l (by simp only [List.length_cons] at hl; omega)
  unfold if_
  by_cases h : args.length % 2 = 0
  · simp [h]
  · rw [if_neg h]
    have := pu (args.length / 2) args (by omega)
    cases hp : pairUp args with
    | none => rw [hp] at this; cases this
    | some r => simp [h]

/-- The arguments of an `if` with the given branches. -/
def ifOf (conds : List (Except E V × Except E V)) (els : Except E V) : List (Except E V) :=
  conds.flatMap (fun c => [c.1, c.2]) ++ [els]

theorem pairUp_ifOf (conds : List (Except E V × Except E V)) (els : Except E V) : pairUp (ifOf conds els) = some (conds, els) := by
  unfold ifOf
  induction conds with
  | nil => rfl
  | cons c cs ih => simp [pairUp, ih]

theorem if_ifOf (toBool : V → Except E Bool) (conds : List (Except E V × Except E V)) (els : Except E V) :
    if_ toBool (ifOf conds els) = some (ifLoop toBool 0 conds els) := by
  have hl : (ifOf conds els).length = 2 * conds.length + 1 := by
    unfold ifOf; induction conds with
    | nil => rfl
    | cons c cs ih => simp_all; omega
  unfold if_
  rw [if_neg (by omega), pairUp_ifOf]; rfl

/-- C28. Every accepted `if` is a list of branches and an else. -/
theorem if_odd (args : List (Except E V)) (h : args.length % 2 = 1) : ∃ conds els, args = ifOf conds els := by
  suffices ∀ (n : Nat) (l : List (Except E V)), l.length = 2 * n + 1 → ∃ conds els, l = ifOf conds els from
    this (args.length / 2) args (by omega)
  intro n
  induction n with
  | zero => intro l hl; match l, hl with | [x], _ => exact ⟨[], x, rfl⟩
  | succ n ih =>
    intro l hl
    match l, hl with
    | p :: b :: l, hl =>
      obtain ⟨cs, e, he⟩ := ih l (by simp only [List.length_cons] at hl; omega)
      exact ⟨(p, b) :: cs, e, by rw [he]; rfl⟩

/-- The positions of the first `k` predicates. -/
def preds (k : Nat) : List Nat := (List.range k).map (2 * ·)

theorem ifLoop_skip (toBool : V → Except E Bool) (rest : List (Except E V × Except E V)) (els : Except E V) :
    ∀ (cs : List (Except E V × Except E V)) (i : Nat), (∀ c ∈ cs, c.1.bind toBool = .ok false) →
    ifLoop toBool i (cs ++ rest) els = ((List.range cs.length).map (i + 2 * ·) ++ (ifLoop toBool (i + 2 * cs.length) rest els).1,
      (ifLoop toBool (i + 2 * cs.length) rest els).2)
  | [], i, _ => by simp
  | (p, b) :: cs, i, h => by
    have hp : p.bind toBool = .ok false := h (p, b) (by simp)
    simp only [List.cons_append, ifLoop, hp]
    rw [ifLoop_skip toBool rest els cs (i + 2) fun c hc => h c (by simp [hc])]
    have e : i + 2 + 2 * cs.length = i + 2 * (cs.length + 1) := by omega
    simp only [e, List.length_cons, List.range_succ_eq_map, List.map_cons, List.map_map, List.cons_append]
    congr 2
    congr 1
    apply List.map_congr_left
    intro a _
    simp; omega

/-- C28. The predicates are evaluated in order up to the first that is true, then that branch and nothing else. -/
theorem if_true (toBool : V → Except E Bool) (cs : List (Except E V × Except E V)) (p b : Except E V)
    (rest : List (Except E V × Except E V)) (els : Except E V) (hcs : ∀ c ∈ cs, c.1.bind toBool = .ok false)
    (hp : p.bind toBool = .ok true) :
    if_ toBool (ifOf (cs ++ (p, b) :: rest) els) = some (preds (cs.length + 1) ++ [2 * cs.length + 1], b) := by
  rw [if_ifOf, ifLoop_skip toBool _ els cs 0 hcs]
  simp [ifLoop, hp, preds, List.range_succ]

/-- C28. When every predicate is false the else branch is evaluated, and no other branch. -/
theorem if_else (toBool : V → Except E Bool) (cs : List (Except E V × Except E V)) (els : Except E V)
    (hcs : ∀ c ∈ cs, c.1.bind toBool = .ok false) :
    if_ toBool (ifOf cs els) = some (preds (cs.length + 1), els) := by
  have := ifLoop_skip toBool [] els cs 0 hcs
  rw [List.append_nil] at this
  rw [if_ifOf, this]
  simp [ifLoop, preds, List.range_succ]

/-- C28. A predicate that fails ends the evaluation: no branch is evaluated. -/
theorem if_fail (toBool : V → Except E Bool) (cs : List (Except E V × Except E V)) (p b : Except E V)
    (rest : List (Except E V × Except E V)) (els : Except E V) (hcs : ∀ c ∈ cs, c.1.bind toBool = .ok false)
    (e : E) (hp : p.bind toBool = .error e) :
    if_ toBool (ifOf (cs ++ (p, b) :: rest) els) = some (preds (cs.length + 1), .error e) := by
  rw [if_ifOf, ifLoop_skip toBool _ els cs 0 hcs]
  simp [ifLoop, hp, preds, List.range_succ]

/-- C28. One of the three cases always applies. -/
theorem if_cases (toBool : V → Except E Bool) (conds : List (Except E V × Except E V)) :
    (∀ c ∈ conds, c.1.bind toBool = .ok false) ∨
      ∃ cs p b rest, conds = cs ++ (p, b) :: rest ∧ (∀ c ∈ cs, c.1.bind toBool = .ok false) ∧
        (p.bind toBool = .ok true ∨ ∃ e, p.bind toBool = .error e) := by
  induction conds with
  | nil => left; simp
  | cons c conds ih =>
    obtain ⟨p, b⟩ := c
    cases hp : p.bind toBool with
    | error e => exact .inr ⟨[], p, b, conds, rfl, by simp, .inr ⟨e, hp⟩⟩
    | ok x =>
      cases x with
      | true => exact .inr ⟨[], p, b, conds, rfl, by simp, .inl hp⟩
      | false =>
        rcases ih with h | ⟨cs, p', b', rest, rfl, h1, h2⟩
        · left; intro c hc
          rcases List.mem_cons.1 hc with rfl | hc
          · exact hp
          · exact h c hc
        · exact .inr ⟨(p, b) :: cs, p', b', rest, rfl, fun c hc => by
            rcases List.mem_cons.1 hc with rfl | hc
            · exact hp
            · exact h1 c hc, h2⟩

/-- `if {= 3} 2 {= 2} 1 0` on 2. -/
example : if_ (E := String) (V := Sum Bool Nat) (fun v => match v with | .inl b => .ok b | .inr _ => .error "type")
    [.ok (.inl false), .ok (.inr 2), .ok (.inl true), .ok (.inr 1), .error "never"] = some ([0, 2, 3], .ok (.inr 1)) :=
  if_true _ [(.ok (Sum.inl false), .ok (Sum.inr 2))] (.ok (Sum.inl true)) (.ok (Sum.inr 1)) [] (.error "never")
    (by intro c hc; rw [List.mem_singleton.1 hc]; rfl) rfl

end Verif.Ops
