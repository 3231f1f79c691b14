import Verif.Props.Ops
/-! Properties of comparison (C26). -/
namespace Verif.Ops
open Std
variable {N : Type}

/-! ### The generated code for tuples -/

theorem tupCmp_eq : ∀ (cs : List Ordering), cs ≠ [] → tupCmp N cs = some (firstDiff cs) := by
  have key : ∀ (cs : List Ordering) (i : Nat), cs ≠ [] → ∃ r, pairUp (ifArgs (N := N) cs) = some r ∧
      (ifLoop cvBool i r.1 r.2).2 = .ok (.ord (firstDiff cs)) := by
    intro cs
    induction cs with
    | nil => intro i h; exact absurd rfl h
    | cons c cs ih =>
      intro i _
      cases cs with
      | nil => exact ⟨_, rfl, by cases c <;> rfl⟩
      | cons d ds =>
        obtain ⟨r, h1, h2⟩ := ih (i + 2) (by simp)
        refine ⟨_, by simp only [ifArgs, pairUp, h1, Option.map_some]; rfl, ?_⟩
        cases c with
        | lt => rfl
        | gt => rfl
        | eq =>
          simp only [ifLoop, firstDiff]
          exact h2
  have len : ∀ (cs : List Ordering), cs ≠ [] → (ifArgs (N := N) cs).length % 2 = 1 := by
    intro cs
    induction cs with
    | nil => intro h; exact absurd rfl h
    | cons c cs ih =>
      intro _
      cases cs with
      | nil => rfl
      | cons d ds =>
        have := ih (by simp)
        simp only [ifArgs, List.length_cons] at this ⊢
        omega
  intro cs h
  obtain ⟨r, h1, h2⟩ := key cs 0 h
  unfold tupCmp if_
  rw [if_neg (by have := len cs h; omega), h1]
  simp only [Option.map_some]
  generalize ifLoop cvBool 0 r.1 r.2 = x at h2
  obtain ⟨x1, x2⟩ := x
  simp only at h2
  subst h2
  rfl

theorem tupCmp_nil : tupCmp N [] = none := rfl

theorem tupCmp_some {cs : List Ordering} {o : Ordering} : tupCmp N cs = some o ↔ cs ≠ [] ∧ o = firstDiff cs := by
  cases cs with
  | nil => simp [tupCmp_nil]
  | cons c cs => rw [tupCmp_eq _ (by simp)]; simp [eq_comm]

theorem tupEq_eq (bs : List Bool) (h : bs ≠ []) : tupEq bs = some (bs.all id) := by
  obtain ⟨⟨tr, hr⟩, -⟩ := and_or_truth (E := Unit) bs h
  unfold tupEq; rw [hr]

/-! ### Tuples compare lexicographically -/

theorem cmpAll_some (ncmp : N → N → Ordering) : ∀ (as bs : List (CV N)) (cs : List Ordering),
    cmpAll ncmp as bs = some cs ↔ as.length = cs.length ∧ bs.length = cs.length ∧
      ∀ (i : Nat) (a b : CV N), as[i]? = some a → bs[i]? = some b → cmpV ncmp a b = cs[i]?
  | [], [], cs => by simp [cmpAll]; cases cs <;> simp
  | [], b :: bs, cs => by simp [cmpAll]; intro h1 h2; omega
  | a :: as, [], cs => by simp [cmpAll]; intro h1 h2; omega
  | a :: as, b :: bs, cs => by
    simp only [cmpAll]
    constructor
    · intro h
      cases hc : cmpV ncmp a b with
      | none => rw [hc] at h; cases h
      | some c =>
        rw [hc] at h
        simp only [Option.bind_some, Option.map_eq_some_iff] at h
        obtain ⟨ds, hd, rfl⟩ := h
        obtain ⟨h1, h2, h3⟩ := (cmpAll_some ncmp as bs ds).1 hd
        refine ⟨by simp [h1], by simp [h2], fun i x y hx hy => ?_⟩
        cases i with
        | zero => simp at hx hy; subst hx hy; simp [hc]
        | succ i => simp at hx hy; simpa using h3 i x y hx hy
    · rintro ⟨h1, h2, h3⟩
      cases cs with
      | nil => simp at h1
      | cons c cs =>
        have h0 := h3 0 a b rfl rfl
        simp only [List.getElem?_cons_zero] at h0
        have := (cmpAll_some ncmp as bs cs).2 ⟨by simpa using h1, by simpa using h2, fun i x y hx hy => by
          have := h3 (i + 1) x y (by simpa using hx) (by simpa using hy); simpa using this⟩
        simp [h0, this]

/-- C26. Two tuples compare exactly when they have the same number of elements, at least one, and the elements
compare pairwise; the outcome is that of the first pair that differs, or "equal" when none does. -/
theorem tuple_lex (ncmp : N → N → Ordering) (as bs : List (CV N)) (o : Ordering) :
    cmpV ncmp (.tup as) (.tup bs) = some o ↔ ∃ cs : List Ordering, cs ≠ [] ∧ as.length = cs.length ∧ bs.length = cs.length ∧
      (∀ (i : Nat) (a b : CV N), as[i]? = some a → bs[i]? = some b → cmpV ncmp a b = cs[i]?) ∧ o = firstDiff cs := by
  simp only [cmpV]
  constructor
  · intro h
    cases hc : cmpAll ncmp as bs with
    | none => rw [hc] at h; cases h
    | some cs =>
      rw [hc] at h
      obtain ⟨h1, h2⟩ := tupCmp_some.1 h
      obtain ⟨a, b, c⟩ := (cmpAll_some ncmp as bs cs).1 hc
      exact ⟨cs, h1, a, b, c, h2⟩
  · rintro ⟨cs, h1, a, b, c, h2⟩
    rw [(cmpAll_some ncmp as bs cs).2 ⟨a, b, c⟩]
    exact tupCmp_some.2 ⟨h1, h2⟩

/-- The first outcome that is not "equal" is what its name says. -/
theorem firstDiff_spec (cs : List Ordering) :
    (firstDiff cs = .eq ↔ ∀ c ∈ cs, c = .eq) ∧
      ∀ o, o ≠ .eq → (firstDiff cs = o ↔ ∃ k : Nat, cs[k]? = some o ∧ ∀ j < k, cs[j]? = some .eq) := by
  induction cs with
  | nil => constructor <;> simp [firstDiff]; intro o h; exact fun e => h e.symm
  | cons c cs ih =>
    cases c with
    | eq =>
      simp only [firstDiff]
      refine ⟨by rw [ih.1]; simp, fun o ho => ?_⟩
      rw [ih.2 o ho]
      constructor
      · rintro ⟨k, h1, h2⟩
        exact ⟨k + 1, by simpa using h1, fun j hj => by cases j with
          | zero => rfl
          | succ j => simpa using h2 j (by omega)⟩
      · rintro ⟨k, h1, h2⟩
        cases k with
        | zero => simp at h1; exact absurd h1.symm ho
        | succ k => exact ⟨k, by simpa using h1, fun j hj => by simpa using h2 (j + 1) (by omega)⟩
    | lt =>
      refine ⟨by simp [firstDiff], fun o ho => ⟨fun h => ⟨0, by simpa [firstDiff] using h, by omega⟩, ?_⟩⟩
      rintro ⟨k, h1, h2⟩
      cases k with
      | zero => simpa [firstDiff] using h1
      | succ k => have := h2 0 (by omega); simp at this
    | gt =>
      refine ⟨by simp [firstDiff], fun o ho => ⟨fun h => ⟨0, by simpa [firstDiff] using h, by omega⟩, ?_⟩⟩
      rintro ⟨k, h1, h2⟩
      cases k with
      | zero => simpa [firstDiff] using h1
      | succ k => have := h2 0 (by omega); simp at this

example : cmpV Tab.natCmp (.tup [.num 1, .str "b"]) (.tup [.num 1, .str "a"]) = some .gt :=
  (tuple_lex _ _ _ _).2 ⟨[.eq, .gt], by simp, rfl, rfl, by
    intro i a b h1 h2
    match i with
    | 0 => simp at h1 h2; subst h1 h2; rfl
    | 1 => simp at h1 h2; subst h1 h2; decide +kernel
    | i + 2 => simp at h1, rfl⟩

/-! ### What can be compared -/

mutual
/-- C26. Values of one comparable type can be compared. -/
theorem cmp_total (ncmp : N → N → Ordering) : ∀ (t : CTy) (a b : CV N), HasTy a t → HasTy b t → ∃ o, cmpV ncmp a b = some o
  | .nil, a, b, ha, hb => by cases a <;> simp only [HasTy] at ha; cases b <;> simp only [HasTy] at hb; exact ⟨_, rfl⟩
  | .bool, a, b, ha, hb => by cases a <;> simp only [HasTy] at ha; cases b <;> simp only [HasTy] at hb; exact ⟨_, rfl⟩
  | .num, a, b, ha, hb => by cases a <;> simp only [HasTy] at ha; cases b <;> simp only [HasTy] at hb; exact ⟨_, rfl⟩
  | .str, a, b, ha, hb => by cases a <;> simp only [HasTy] at ha; cases b <;> simp only [HasTy] at hb; exact ⟨_, rfl⟩
  | .ord, a, b, ha, hb => by cases a <;> simp only [HasTy] at ha; cases b <;> simp only [HasTy] at hb; exact ⟨_, rfl⟩
  | .tup t ts, a, b, ha, hb => by
    match a, b, ha, hb with
    | .tup (v :: vs), .tup (w :: ws), ha, hb =>
      simp only [HasTy] at ha hb
      obtain ⟨c, hc⟩ := cmp_total ncmp t v w ha.1 hb.1
      obtain ⟨cs, hcs⟩ := cmpAll_total ncmp ts vs ws ha.2 hb.2
      refine ⟨firstDiff (c :: cs), ?_⟩
      simp only [cmpV, cmpAll, hc, hcs, Option.map_some, Option.bind_some]
      exact tupCmp_eq _ (by simp)
theorem cmpAll_total (ncmp : N → N → Ordering) : ∀ (ts : List CTy) (as bs : List (CV N)), HasTys as ts → HasTys bs ts →
    ∃ cs, cmpAll ncmp as bs = some cs
  | [], as, bs, ha, hb => by
    cases as <;> simp only [HasTys] at ha; cases bs <;> simp only [HasTys] at hb; exact ⟨_, rfl⟩
  | t :: ts, as, bs, ha, hb => by
    match as, bs, ha, hb with
    | v :: vs, w :: ws, ha, hb =>
      simp only [HasTys] at ha hb
      obtain ⟨c, hc⟩ := cmp_total ncmp t v w ha.1 hb.1
      obtain ⟨cs, hcs⟩ := cmpAll_total ncmp ts vs ws ha.2 hb.2
      exact ⟨c :: cs, by simp [cmpAll, hc, hcs]⟩
end

mutual
/-- C26. Values can only be compared when they are of one comparable type. -/
theorem cmp_typed (ncmp : N → N → Ordering) : ∀ (a b : CV N) (o : Ordering), cmpV ncmp a b = some o → ∃ t, HasTy a t ∧ HasTy b t
  | .nil, b, o, h => by cases b <;> simp only [cmpV, reduceCtorEq] at h; exact ⟨.nil, trivial, trivial⟩
  | .bool _, b, o, h => by cases b <;> simp only [cmpV, reduceCtorEq] at h; exact ⟨.bool, trivial, trivial⟩
  | .num _, b, o, h => by cases b <;> simp only [cmpV, reduceCtorEq] at h; exact ⟨.num, trivial, trivial⟩
  | .str _, b, o, h => by cases b <;> simp only [cmpV, reduceCtorEq] at h; exact ⟨.str, trivial, trivial⟩
  | .ord _, b, o, h => by cases b <;> simp only [cmpV, reduceCtorEq] at h; exact ⟨.ord, trivial, trivial⟩
  | .tup as, b, o, h => by
    cases b <;> simp only [cmpV, reduceCtorEq] at h
    rename_i bs
    cases hc : cmpAll ncmp as bs with
    | none => rw [hc] at h; cases h
    | some cs =>
      rw [hc] at h
      obtain ⟨h1, -⟩ := tupCmp_some.1 h
      obtain ⟨ts, ht1, ht2⟩ := cmpAll_typed ncmp as bs cs hc
      match as, bs, ts, ht1, ht2 with
      | [], [], _, _, _ => simp [cmpAll] at hc; exact absurd hc h1
      | v :: vs, w :: ws, t :: ts, ht1, ht2 =>
        simp only [HasTys] at ht1 ht2
        exact ⟨.tup t ts, by simpa only [HasTy] using ht1, by simpa only [HasTy] using ht2⟩
theorem cmpAll_typed (ncmp : N → N → Ordering) : ∀ (as bs : List (CV N)) (cs : List Ordering), cmpAll ncmp as bs = some cs →
    ∃ ts, HasTys as ts ∧ HasTys bs ts
  | [], bs, cs, h => by cases bs <;> simp only [cmpAll, reduceCtorEq] at h; exact ⟨[], trivial, trivial⟩
  | a :: as, bs, cs, h => by
    cases bs with
    | nil => simp [cmpAll] at h
    | cons b bs =>
      simp only [cmpAll] at h
      cases hc : cmpV ncmp a b with
      | none => rw [hc] at h; cases h
      | some c =>
        rw [hc] at h
        simp only [Option.bind_some, Option.map_eq_some_iff] at h
        obtain ⟨ds, hd, -⟩ := h
        obtain ⟨t, h1, h2⟩ := cmp_typed ncmp a b c hc
        obtain ⟨ts, h3, h4⟩ := cmpAll_typed ncmp as bs ds hd
        exact ⟨t :: ts, by simp only [HasTys]; exact ⟨h1, h3⟩, by simp only [HasTys]; exact ⟨h2, h4⟩⟩
end

mutual
theorem hasTy_unique : ∀ (a : CV N) (s t : CTy), HasTy a s → HasTy a t → s = t
  | .nil, s, t, h1, h2 => by cases s <;> simp only [HasTy] at h1; cases t <;> simp only [HasTy] at h2; rfl
  | .bool _, s, t, h1, h2 => by cases s <;> simp only [HasTy] at h1; cases t <;> simp only [HasTy] at h2; rfl
  | .num _, s, t, h1, h2 => by cases s <;> simp only [HasTy] at h1; cases t <;> simp only [HasTy] at h2; rfl
  | .str _, s, t, h1, h2 => by cases s <;> simp only [HasTy] at h1; cases t <;> simp only [HasTy] at h2; rfl
  | .ord _, s, t, h1, h2 => by cases s <;> simp only [HasTy] at h1; cases t <;> simp only [HasTy] at h2; rfl
  | .tup [], s, t, h1, h2 => by cases s <;> simp only [HasTy] at h1
  | .tup (v :: vs), s, t, h1, h2 => by
    cases s <;> simp only [HasTy] at h1; cases t <;> simp only [HasTy] at h2
    rw [hasTy_unique v _ _ h1.1 h2.1, hasTys_unique vs _ _ h1.2 h2.2]
theorem hasTys_unique : ∀ (as : List (CV N)) (s t : List CTy), HasTys as s → HasTys as t → s = t
  | [], s, t, h1, h2 => by cases s <;> simp only [HasTys] at h1; cases t <;> simp only [HasTys] at h2; rfl
  | a :: as, s, t, h1, h2 => by
    cases s <;> simp only [HasTys] at h1; cases t <;> simp only [HasTys] at h2
    rw [hasTy_unique a _ _ h1.1 h2.1, hasTys_unique as _ _ h1.2 h2.2]
end

/-- C26. Values of different types are rejected. -/
theorem mixed_rejected (ncmp : N → N → Ordering) (a b : CV N) (s t : CTy) (ha : HasTy a s) (hb : HasTy b t) (hst : s ≠ t) :
    cmpV ncmp a b = none := by
  cases h : cmpV ncmp a b with
  | none => rfl
  | some o =>
    obtain ⟨u, h1, h2⟩ := cmp_typed ncmp a b o h
    exact absurd ((hasTy_unique a s u ha h1).trans (hasTy_unique b t u hb h2).symm) hst

example : cmpV Tab.natCmp (.tup [.num 1]) (.tup [.num 1, .num 2]) = none :=
  mixed_rejected _ _ _ (.tup .num []) (.tup .num [.num]) (by simp [HasTy, HasTys]) (by simp [HasTy, HasTys]) (by simp)

/-! ### Order laws -/

theorem firstDiff_swap : ∀ cs : List Ordering, firstDiff (cs.map Ordering.swap) = (firstDiff cs).swap
  | [] => rfl
  | .eq :: cs => firstDiff_swap cs
  | .lt :: _ => rfl
  | .gt :: _ => rfl

theorem ordCmp_swap (a b : Ordering) : ordCmp b a = (ordCmp a b).swap := by cases a <;> cases b <;> rfl

mutual
/-- C26. Comparing the other way round gives the opposite outcome. -/
theorem cmp_swap (ncmp : N → N → Ordering) [OrientedCmp ncmp] : ∀ a b : CV N, cmpV ncmp b a = (cmpV ncmp a b).map Ordering.swap
  | .nil, b => by cases b <;> rfl
  | .bool x, b => by
    cases b <;> try rfl
    rename_i y; simp only [cmpV, Option.map_some]; cases x <;> cases y <;> rfl
  | .num x, b => by
    cases b <;> try rfl
    simp only [cmpV, Option.map_some]; rw [OrientedCmp.eq_swap (cmp := ncmp)]
  | .str x, b => by
    cases b <;> try rfl
    simp only [cmpV, Option.map_some]; rw [OrientedCmp.eq_swap (cmp := Tab.strCmp)]
  | .ord x, b => by
    cases b <;> try rfl
    simp only [cmpV, Option.map_some]; rw [ordCmp_swap]
  | .tup as, b => by
    cases b <;> try rfl
    rename_i bs
    simp only [cmpV, cmpAll_swap ncmp as bs]
    cases cmpAll ncmp as bs with
    | none => rfl
    | some cs =>
      simp only [Option.map_some, Option.bind_some]
      cases cs with
      | nil => rfl
      | cons c cs => rw [tupCmp_eq _ (by simp), tupCmp_eq _ (by simp), firstDiff_swap]; rfl
theorem cmpAll_swap (ncmp : N → N → Ordering) [OrientedCmp ncmp] : ∀ as bs : List (CV N),
    cmpAll ncmp bs as = (cmpAll ncmp as bs).map (List.map Ordering.swap)
  | [], [] => rfl
  | [], _ :: _ => rfl
  | _ :: _, [] => rfl
  | a :: as, b :: bs => by
    simp only [cmpAll, cmp_swap ncmp a b, cmpAll_swap ncmp as bs]
    cases cmpV ncmp a b <;> cases cmpAll ncmp as bs <;> rfl
end

theorem then_trans {T : Type} (cmp : T → T → Ordering) [TransCmp cmp] (a b c : T) (h1 : cmp a b ≠ .gt) (h2 : cmp b c ≠ .gt) :
    cmp a c = (cmp a b).then (cmp b c) := by
  cases ha : cmp a b with
  | gt => exact absurd ha h1
  | lt => cases hb : cmp b c with
    | gt => exact absurd hb h2
    | lt => exact TransCmp.lt_trans ha hb
    | eq => exact TransCmp.lt_of_lt_of_eq ha hb
  | eq => cases hb : cmp b c with
    | gt => exact absurd hb h2
    | lt => exact TransCmp.lt_of_eq_of_lt ha hb
    | eq => exact TransCmp.eq_trans ha hb

instance : TransCmp ordCmp := inferInstanceAs (TransCmp fun a b => Tab.natCmp (ordIdx a) (ordIdx b))

mutual
/-- C26. The order is transitive: when `a ≤ b ≤ c` then `a ≤ c`, with equality exactly when both steps are. -/
theorem cmp_trans (ncmp : N → N → Ordering) [TransCmp ncmp] : ∀ (a b c : CV N) (o p : Ordering), cmpV ncmp a b = some o →
    cmpV ncmp b c = some p → o ≠ .gt → p ≠ .gt → cmpV ncmp a c = some (o.then p)
  | .nil, b, c, o, p, h1, h2, ho, hp => by
    cases b <;> simp only [cmpV, reduceCtorEq] at h1; cases c <;> simp only [cmpV, reduceCtorEq] at h2
    cases h1; cases h2; rfl
  | .bool _, b, c, o, p, h1, h2, ho, hp => by
    cases b <;> simp only [cmpV, reduceCtorEq] at h1; cases c <;> simp only [cmpV, reduceCtorEq] at h2
    cases h1; cases h2; simp only [cmpV]; rw [then_trans Tab.boolCmp _ _ _ ho hp]
  | .num _, b, c, o, p, h1, h2, ho, hp => by
    cases b <;> simp only [cmpV, reduceCtorEq] at h1; cases c <;> simp only [cmpV, reduceCtorEq] at h2
    cases h1; cases h2; simp only [cmpV]; rw [then_trans ncmp _ _ _ ho hp]
  | .str _, b, c, o, p, h1, h2, ho, hp => by
    cases b <;> simp only [cmpV, reduceCtorEq] at h1; cases c <;> simp only [cmpV, reduceCtorEq] at h2
    cases h1; cases h2; simp only [cmpV]; rw [then_trans Tab.strCmp _ _ _ ho hp]
  | .ord _, b, c, o, p, h1, h2, ho, hp => by
    cases b <;> simp only [cmpV, reduceCtorEq] at h1; cases c <;> simp only [cmpV, reduceCtorEq] at h2
    cases h1; cases h2; simp only [cmpV]; rw [then_trans ordCmp _ _ _ ho hp]
  | .tup as, b, c, o, p, h1, h2, ho, hp => by
    cases b <;> simp only [cmpV, reduceCtorEq] at h1; cases c <;> simp only [cmpV, reduceCtorEq] at h2
    rename_i bs ds
    cases hc : cmpAll ncmp as bs with
    | none => rw [hc] at h1; cases h1
    | some cs =>
      cases hd : cmpAll ncmp bs ds with
      | none => rw [hd] at h2; cases h2
      | some es =>
        rw [hc] at h1; rw [hd] at h2
        obtain ⟨g1, rfl⟩ := tupCmp_some.1 h1
        obtain ⟨g2, rfl⟩ := tupCmp_some.1 h2
        obtain ⟨fs, hf, hl, hr⟩ := cmpAll_trans ncmp as bs ds cs es hc hd
        simp only [cmpV, hf, Option.bind_some]
        refine tupCmp_some.2 ⟨fun e => g1 (by rw [e] at hl; exact List.length_eq_zero_iff.1 hl.symm), (hr ho hp).symm⟩
theorem cmpAll_trans (ncmp : N → N → Ordering) [TransCmp ncmp] : ∀ (as bs ds : List (CV N)) (cs es : List Ordering),
    cmpAll ncmp as bs = some cs → cmpAll ncmp bs ds = some es → ∃ fs, cmpAll ncmp as ds = some fs ∧ fs.length = cs.length ∧
      (firstDiff cs ≠ .gt → firstDiff es ≠ .gt → firstDiff fs = (firstDiff cs).then (firstDiff es))
  | [], bs, ds, cs, es, h1, h2 => by
    cases bs <;> simp only [cmpAll, reduceCtorEq] at h1; cases ds <;> simp only [cmpAll, reduceCtorEq] at h2
    cases h1; cases h2; exact ⟨[], rfl, rfl, fun _ _ => rfl⟩
  | a :: as, bs, ds, cs, es, h1, h2 => by
    match bs, ds, h1, h2 with
    | b :: bs, d :: ds, h1, h2 =>
      simp only [cmpAll] at h1 h2
      cases hc : cmpV ncmp a b with
      | none => rw [hc] at h1; cases h1
      | some c =>
        cases he : cmpV ncmp b d with
        | none => rw [he] at h2; cases h2
        | some e =>
          rw [hc] at h1; rw [he] at h2
          simp only [Option.bind_some, Option.map_eq_some_iff] at h1 h2
          obtain ⟨cs, hcs, rfl⟩ := h1
          obtain ⟨es, hes, rfl⟩ := h2
          obtain ⟨fs, hf, hl, hr⟩ := cmpAll_trans ncmp as bs ds cs es hcs hes
          obtain ⟨t, ht1, ht2⟩ := cmp_typed ncmp a b c hc
          obtain ⟨t', ht3, ht4⟩ := cmp_typed ncmp b d e he
          have ht : t' = t := hasTy_unique b t' t ht3 ht2
          subst ht
          obtain ⟨f, hff⟩ := cmp_total ncmp t' a d ht1 ht4
          refine ⟨f :: fs, by simp [cmpAll, hff, hf], by simp [hl], fun g1 g2 => ?_⟩
          have hc' : c ≠ .gt := by rintro rfl; exact g1 rfl
          have he' : e ≠ .gt := by rintro rfl; exact g2 rfl
          have := cmp_trans ncmp a b d c e hc he hc' he'
          rw [hff] at this
          have := Option.some.inj this
          subst this
          cases c with
          | gt => exact absurd rfl hc'
          | lt => rfl
          | eq => cases e with
            | gt => exact absurd rfl he'
            | eq => exact hr g1 g2
            | lt =>
              show Ordering.lt = (firstDiff cs).then .lt
              have g1' : firstDiff cs ≠ .gt := g1
              cases hcs' : firstDiff cs with
              | gt => exact absurd hcs' g1'
              | lt => rfl
              | eq => rfl
end

example : cmpV Tab.natCmp (.tup [.num 1, .tup [.bool true]]) (.tup [.num 1, .tup [.bool true]]) = some .eq ∧
    cmpV Tab.natCmp (.tup [.num 1, .tup [.bool true]]) (.tup [.num 2, .tup [.bool false]]) = some .lt := by decide +kernel

/-! ### Equality -/

mutual
/-- C26. `eq` agrees with `cmp`, given that equality of numbers does. -/
theorem eq_cmp (ncmp : N → N → Ordering) (neq : N → N → Bool) (hn : ∀ x y, neq x y = (ncmp x y == .eq)) : ∀ a b : CV N,
    eqV neq a b = (cmpV ncmp a b).map (· == .eq)
  | .nil, b => by cases b <;> rfl
  | .bool x, b => by
    cases b <;> try rfl
    rename_i y; simp only [eqV, cmpV, Option.map_some]; cases x <;> cases y <;> rfl
  | .num x, b => by
    cases b <;> try rfl
    simp only [eqV, cmpV, Option.map_some, hn]
  | .str x, b => by
    cases b <;> try rfl
    rename_i y
    simp only [eqV, cmpV, Option.map_some, Option.some.injEq, Tab.strCmp]
    by_cases h1 : x < y
    · rw [if_pos h1]
      have : x ≠ y := fun e => String.lt_irrefl x (by rw [← e] at h1; exact h1)
      simp [this]
    · rw [if_neg h1]
      by_cases h2 : x = y <;> simp [h2]
  | .ord x, b => by
    cases b <;> try rfl
    rename_i y; simp only [eqV, cmpV, Option.map_some]; cases x <;> cases y <;> rfl
  | .tup as, b => by
    cases b <;> try rfl
    rename_i bs
    simp only [eqV, cmpV, eqAll_cmp ncmp neq hn as bs]
    cases cmpAll ncmp as bs with
    | none => rfl
    | some cs =>
      simp only [Option.map_some, Option.bind_some]
      cases cs with
      | nil => rfl
      | cons c cs =>
        rw [tupCmp_eq _ (by simp), tupEq_eq _ (by simp)]
        simp only [Option.map_some, Option.some.injEq]
        rw [Bool.eq_iff_iff]
        simp [(firstDiff_spec (c :: cs)).1]
theorem eqAll_cmp (ncmp : N → N → Ordering) (neq : N → N → Bool) (hn : ∀ x y, neq x y = (ncmp x y == .eq)) :
    ∀ as bs : List (CV N), eqAll neq as bs = (cmpAll ncmp as bs).map (List.map (· == .eq))
  | [], [] => rfl
  | [], _ :: _ => rfl
  | _ :: _, [] => rfl
  | a :: as, b :: bs => by
    simp only [eqAll, cmpAll, eq_cmp ncmp neq hn a b, eqAll_cmp ncmp neq hn as bs]
    cases cmpV ncmp a b <;> cases cmpAll ncmp as bs <;> rfl
end

mutual
/-- C26. Two values of a comparable type are equal exactly when they are the same value, given that for numbers. -/
theorem eq_same (neq : N → N → Bool) (hn : ∀ x y, neq x y = true ↔ x = y) : ∀ (t : CTy) (a b : CV N), HasTy a t → HasTy b t →
    (opEq neq a b = some true ↔ a = b)
  | .nil, a, b, ha, hb => by
    cases a <;> simp only [HasTy] at ha; cases b <;> simp only [HasTy] at hb; simp [opEq, eqV]
  | .bool, a, b, ha, hb => by
    cases a <;> simp only [HasTy] at ha; cases b <;> simp only [HasTy] at hb; simp [opEq, eqV]
  | .num, a, b, ha, hb => by
    cases a <;> simp only [HasTy] at ha; cases b <;> simp only [HasTy] at hb; simp [opEq, eqV, hn]
  | .str, a, b, ha, hb => by
    cases a <;> simp only [HasTy] at ha; cases b <;> simp only [HasTy] at hb; simp [opEq, eqV]
  | .ord, a, b, ha, hb => by
    cases a <;> simp only [HasTy] at ha; cases b <;> simp only [HasTy] at hb
    rename_i x y; cases x <;> cases y <;> simp [opEq, eqV, ordIdx]
  | .tup t ts, a, b, ha, hb => by
    match a, b, ha, hb with
    | .tup (v :: vs), .tup (w :: ws), ha, hb =>
      simp only [HasTy] at ha hb
      obtain ⟨bs, hbs, hiff⟩ := eqAll_same neq hn (t :: ts) (v :: vs) (w :: ws) (by simpa only [HasTys] using ha) (by simpa only [HasTys] using hb)
      have hne : bs ≠ [] := by
        intro e; subst e
        simp only [eqAll] at hbs
        cases h1 : eqV neq v w <;> cases h2 : eqAll neq vs ws <;> simp [h1, h2] at hbs
      simp only [opEq, eqV, hbs, Option.bind_some, tupEq_eq bs hne, Option.some.injEq, CV.tup.injEq]
      exact hiff
theorem eqAll_same (neq : N → N → Bool) (hn : ∀ x y, neq x y = true ↔ x = y) : ∀ (ts : List CTy) (as bs : List (CV N)),
    HasTys as ts → HasTys bs ts → ∃ cs, eqAll neq as bs = some cs ∧ (cs.all id = true ↔ as = bs)
  | [], as, bs, ha, hb => by
    cases as <;> simp only [HasTys] at ha; cases bs <;> simp only [HasTys] at hb; exact ⟨[], rfl, by simp⟩
  | t :: ts, as, bs, ha, hb => by
    match as, bs, ha, hb with
    | v :: vs, w :: ws, ha, hb =>
      simp only [HasTys] at ha hb
      have h1 := eq_same neq hn t v w ha.1 hb.1
      obtain ⟨cs, hcs, h2⟩ := eqAll_same neq hn ts vs ws ha.2 hb.2
      obtain ⟨o, ho⟩ := cmp_total (fun x y => if neq x y then .eq else .lt) t v w ha.1 hb.1
      have he := eq_cmp (fun x y => if neq x y then .eq else .lt) neq (fun x y => by cases neq x y <;> rfl) v w
      rw [ho] at he
      refine ⟨(o == .eq) :: cs, by simp [eqAll, he, hcs], ?_⟩
      unfold opEq at h1
      rw [he] at h1
      simp only [Option.map_some, Option.some.injEq] at h1
      rw [List.all_cons, Bool.and_eq_true, h2, List.cons.injEq]
      exact and_congr h1 Iff.rfl
end

/-! ### The operators -/

/-- C26. `!=` is the negation of `=`. -/
theorem ne_not_eq (neq : N → N → Bool) (a b : CV N) : opNe neq a b = (opEq neq a b).map (!·) := rfl

/-- C26. Every operator on values of one comparable type gives a result, and the result is read off one outcome of
comparing them. -/
theorem op_exact (ncmp : N → N → Ordering) (neq : N → N → Bool) (hn : ∀ x y, neq x y = (ncmp x y == .eq)) (t : CTy) (a b : CV N)
    (ha : HasTy a t) (hb : HasTy b t) : ∃ o, cmpV ncmp a b = some o ∧
      opLt ncmp neq a b = some (o == .lt) ∧ opEq neq a b = some (o == .eq) ∧ opGt ncmp neq a b = some (o == .gt) ∧
      opLe ncmp neq a b = some (o == .lt || o == .eq) ∧ opGe ncmp neq a b = some (o == .gt || o == .eq) ∧
      opNe neq a b = some (o != .eq) := by
  obtain ⟨o, ho⟩ := cmp_total ncmp t a b ha hb
  refine ⟨o, ho, ?_, ?_, ?_, ?_, ?_, ?_⟩
  · simp only [opLt, ho, Option.bind_some]; cases o <;> rfl
  · simp only [opEq, eq_cmp ncmp neq hn, ho, Option.map_some]
  · simp only [opGt, ho, Option.bind_some]; cases o <;> rfl
  · simp only [opLe, ho, Option.bind_some]; cases o <;> rfl
  · simp only [opGe, ho, Option.bind_some]; cases o <;> rfl
  · simp only [opNe, eq_cmp ncmp neq hn, ho, Option.map_some]; cases o <;> rfl

/-- C26. Exactly one of `<`, `=`, `>` holds; `<=` is `<` or `=`; `>=` is `>` or `=`. -/
theorem trichotomy (ncmp : N → N → Ordering) (neq : N → N → Bool) (hn : ∀ x y, neq x y = (ncmp x y == .eq)) (t : CTy) (a b : CV N)
    (ha : HasTy a t) (hb : HasTy b t) : ∃ lt eq gt : Bool,
      opLt ncmp neq a b = some lt ∧ opEq neq a b = some eq ∧ opGt ncmp neq a b = some gt ∧
      opLe ncmp neq a b = some (lt || eq) ∧ opGe ncmp neq a b = some (gt || eq) ∧
      (lt = true ∧ eq = false ∧ gt = false ∨ lt = false ∧ eq = true ∧ gt = false ∨ lt = false ∧ eq = false ∧ gt = true) := by
  obtain ⟨o, -, h1, h2, h3, h4, h5, -⟩ := op_exact ncmp neq hn t a b ha hb
  exact ⟨_, _, _, h1, h2, h3, h4, h5, by cases o <;> decide⟩

/-- C26. `<` and `<=` are transitive, and `a < b` says the same as `b > a`. -/
theorem op_trans (ncmp : N → N → Ordering) [TransCmp ncmp] (neq : N → N → Bool) (hn : ∀ x y, neq x y = (ncmp x y == .eq)) (t : CTy)
    (a b c : CV N) (ha : HasTy a t) (hb : HasTy b t) (hc : HasTy c t) :
    (opLt ncmp neq a b = some true → opLt ncmp neq b c = some true → opLt ncmp neq a c = some true) ∧
    (opLe ncmp neq a b = some true → opLe ncmp neq b c = some true → opLe ncmp neq a c = some true) ∧
    (opEq neq a b = some true → opEq neq b c = some true → opEq neq a c = some true) ∧
    opGt ncmp neq b a = opLt ncmp neq a b ∧ opGe ncmp neq b a = opLe ncmp neq a b := by
  obtain ⟨o, ho, h1, h2, h3, h4, h5, -⟩ := op_exact ncmp neq hn t a b ha hb
  obtain ⟨p, hp, g1, g2, g3, g4, g5, -⟩ := op_exact ncmp neq hn t b c hb hc
  obtain ⟨q, hq, k1, k2, k3, k4, k5, -⟩ := op_exact ncmp neq hn t a c ha hc
  obtain ⟨r, hr, l1, l2, l3, l4, l5, -⟩ := op_exact ncmp neq hn t b a hb ha
  have hsw := cmp_swap ncmp a b
  rw [ho, hr, Option.map_some, Option.some.injEq] at hsw
  have htr : o ≠ .gt → p ≠ .gt → q = o.then p := fun x y => by
    have := cmp_trans ncmp a b c o p ho hp x y
    rw [hq] at this; exact Option.some.inj this
  rw [h1, h2, h4, g1, g2, g4, k1, k2, k4, l3, l5, hsw]
  clear h1 h2 h3 h4 h5 g1 g2 g3 g4 g5 k1 k2 k3 k4 k5 l1 l2 l3 l4 l5 ho hp hq hr hsw
  cases o <;> cases p <;> simp at htr ⊢ <;> subst htr <;> decide

/-- C26. What `<` means on the basic types: the order of numbers, the order of strings, false before true,
`Ord::Lt` before `Ord::Eq` before `Ord::Gt`; `nil` is not less than itself. -/
theorem lt_leaves (ncmp : N → N → Ordering) (neq : N → N → Bool) :
    (∀ a b, opLt ncmp neq (.num a) (.num b) = some (decide (ncmp a b = .lt))) ∧
    (∀ a b, opLt ncmp neq (.str a) (.str b) = some (decide (a < b))) ∧
    (∀ a b, opLt ncmp neq (.bool a) (.bool b) = some (!a && b)) ∧
    (∀ a b, opLt ncmp neq (.ord a) (.ord b) =
      some (decide ((a, b) = (.lt, .eq) ∨ (a, b) = (.lt, .gt) ∨ (a, b) = (.eq, .gt)))) ∧
    opLt ncmp neq .nil .nil = some false := by
  have key : ∀ o, isOrd neq o .lt = some (decide (o = .lt)) := by intro o; cases o <;> rfl
  refine ⟨fun a b => ?_, fun a b => ?_, fun a b => ?_, fun a b => ?_, ?_⟩
  · simp only [opLt, cmpV, Option.bind_some, key]
  · simp only [opLt, cmpV, Option.bind_some, key, Tab.strCmp]
    by_cases h : a < b
    · simp [h]
    · rw [if_neg h]; by_cases h' : a = b <;> simp [h, h', String.lt_irrefl]
  · cases a <;> cases b <;> rfl
  · cases a <;> cases b <;> rfl
  · rfl

/-- Two points of a tuple type with numbers, a string and a nested tuple. -/
example : HasTy (N := Nat) (.tup [.num 1, .str "a", .tup [.bool true, .ord .lt]]) (.tup .num [.str, .tup .bool [.ord]]) ∧
    opLt Tab.natCmp (fun x y => x == y) (.tup [.num 1, .num 5]) (.tup [.num 2, .num 0]) = some true := by
  refine ⟨by simp [HasTy, HasTys], by decide +kernel⟩

example : ∀ x y : Nat, (fun x y => x == y) x y = (Tab.natCmp x y == .eq) := by
  intro x y
  unfold Tab.natCmp
  by_cases h1 : x < y
  · rw [if_pos h1]; have : x ≠ y := by omega
    simp [this]
  · rw [if_neg h1]; by_cases h2 : x = y <;> simp [h2]

end Verif.Ops
