import Verif.Spec.Tree
import Verif.Props.Tuple
import Verif.Props.Lang
/-! C89: how results are shown. -/
namespace Verif.Tree
open Verif

variable {N : Type} {okId : String → Bool} {L : Names} {sh : String → Lang.Shape}

/-! ### Maps in order -/

theorem mem_put {α : Type} (n : String) (x : α) : ∀ (m : List (String × α)), m.Pairwise (fun a b => a.1 < b.1) →
    (put n x m).Pairwise (fun a b => a.1 < b.1) ∧ ∀ a b, (a, b) ∈ put n x m ↔ (a = n ∧ b = x) ∨ (a ≠ n ∧ (a, b) ∈ m)
  | [], _ => ⟨by simp [put], fun a b => by simp [put]⟩
  | (k, y) :: m, h => by
    have hk : ∀ p ∈ m, k < p.1 := (List.pairwise_cons.1 h).1
    have hm := (List.pairwise_cons.1 h).2
    obtain ⟨i1, i2⟩ := mem_put n x m hm
    unfold put
    by_cases h1 : n < k
    · rw [if_pos h1]
      refine ⟨List.pairwise_cons.2 ⟨?_, h⟩, ?_⟩
      · intro p hp
        rcases List.mem_cons.1 hp with rfl | hp
        · exact h1
        · exact String.lt_trans h1 (hk p hp)
      · intro a b
        rw [List.mem_cons]
        constructor
        · rintro (e | e)
          · cases e; exact .inl ⟨rfl, rfl⟩
          · refine .inr ⟨?_, e⟩
            rintro rfl
            rcases List.mem_cons.1 e with e | e
            · cases e; exact String.lt_irrefl _ h1
            · exact String.lt_asymm h1 (hk _ e)
        · rintro (⟨rfl, rfl⟩ | ⟨_, e⟩)
          · exact .inl rfl
          · exact .inr e
    · rw [if_neg h1]
      by_cases h2 : k < n
      · rw [if_pos h2]
        refine ⟨List.pairwise_cons.2 ⟨?_, i1⟩, ?_⟩
        · intro p hp
          rcases (i2 p.1 p.2).1 hp with ⟨e, _⟩ | ⟨_, e⟩
          · show k < p.1
            rw [e]; exact h2
          · exact hk p e
        · intro a b
          rw [List.mem_cons, i2, List.mem_cons]
          constructor
          · rintro (e | e | ⟨e1, e2⟩)
            · cases e
              exact .inr ⟨fun e => String.lt_irrefl _ (e ▸ h2), .inl rfl⟩
            · exact .inl e
            · exact .inr ⟨e1, .inr e2⟩
          · rintro (e | ⟨e1, e2 | e2⟩)
            · exact .inr (.inl e)
            · exact .inl e2
            · exact .inr (.inr ⟨e1, e2⟩)
      · rw [if_neg h2]
        have e : k = n := String.le_antisymm h1 h2
        subst e
        refine ⟨List.pairwise_cons.2 ⟨hk, hm⟩, ?_⟩
        intro a b
        rw [List.mem_cons, List.mem_cons]
        constructor
        · rintro (e | e)
          · cases e; exact .inl ⟨rfl, rfl⟩
          · exact .inr ⟨fun e' => String.lt_irrefl _ (e' ▸ hk _ e), .inr e⟩
        · rintro (⟨rfl, rfl⟩ | ⟨e1, e2 | e2⟩)
          · exact .inl rfl
          · cases e2; exact absurd rfl e1
          · exact .inr e2

theorem last_zero {n a : String} {ns : List String} : Last (n :: ns) 0 a ↔ n = a ∧ a ∉ ns := by
  unfold Last
  constructor
  · rintro ⟨h1, h2⟩
    refine ⟨by simpa using h1, fun hm => ?_⟩
    obtain ⟨j, hj⟩ := List.mem_iff_getElem?.1 hm
    exact h2 (j + 1) (by omega) (by simpa using hj)
  · rintro ⟨rfl, h⟩
    refine ⟨rfl, fun j hj e => ?_⟩
    cases j with
    | zero => omega
    | succ j => exact h (List.mem_iff_getElem?.2 ⟨j, by simpa using e⟩)

theorem last_succ {n a : String} {ns : List String} {i : Nat} : Last (n :: ns) (i + 1) a ↔ Last ns i a := by
  unfold Last
  constructor
  · rintro ⟨h1, h2⟩
    exact ⟨by simpa using h1, fun j hj e => h2 (j + 1) (by omega) (by simpa using e)⟩
  · rintro ⟨h1, h2⟩
    refine ⟨by simpa using h1, fun j hj e => ?_⟩
    cases j with
    | zero => omega
    | succ j => exact h2 j (by omega) (by simpa using e)

/-! ### The tree -/

/-- What `parts` makes. -/
structure Made (L : Names) (ns : List String) (vs : List (Tab.Value N)) (m fs : List (String × K N)) (x : Nat → K N) : Prop where
  pics : ∀ (i : Nat) (v : Tab.Value N), vs[i]? = some v → Pic L v (x i)
  sorted : fs.Pairwise (fun a b => a.1 < b.1)
  mem : ∀ n y, (n, y) ∈ fs ↔ (∃ i : Nat, Last ns i n ∧ y = x i) ∨ (n ∉ ns ∧ (n, y) ∈ m)

mutual
theorem tree_made (hL : Agree L sh) : ∀ (v : Tab.Value N), Lang.okV sh v = true → (∀ id, Uses L v id → okId id = true) →
    ∃ k, tree okId L v = some k ∧ Pic L v k
  | .nil, _, _ => ⟨_, rfl, .nil⟩
  | .bool b, _, _ => ⟨_, rfl, .bool b⟩
  | .num n, _, _ => ⟨_, rfl, .num n⟩
  | .str s, _, _ => ⟨_, rfl, .str s⟩
  | .tab rs, _, _ => ⟨_, rfl, .tab rs⟩
  | .row rs i, _, _ => ⟨_, rfl, .row rs i⟩
  | .ogma t k vs, h, hu => by
    unfold Lang.okV at h
    rw [Bool.and_eq_true, decide_eq_true_iff] at h
    obtain ⟨id, o, h1, h2⟩ := hL t k _ h.2
    have hid := hu id (.here h1)
    unfold tree
    cases o with
    | none =>
      have e : vs = [] := List.map_eq_nil_iff.1 h2
      subst e
      simp only [h1, hid]
      exact ⟨_, rfl, .named h1⟩
    | some ns =>
      have h2 : ns.length = vs.length := by simpa using h2
      obtain ⟨fs, x, h3, h4⟩ := parts_made hL vs ns [] h.1 h2 .nil fun v hv id hi => hu id (.inside hv hi)
      simp only [h1, h3, hid, Option.bind_some]
      exact ⟨_, rfl, .parts x h1 h2 h4.pics h4.sorted fun n y => by
        rw [h4.mem]
        simp⟩
theorem parts_made (hL : Agree L sh) : ∀ (vs : List (Tab.Value N)) (ns : List String) (m : List (String × K N)), Lang.okVs sh vs = true →
    ns.length = vs.length → m.Pairwise (fun a b => a.1 < b.1) → (∀ v ∈ vs, ∀ id, Uses L v id → okId id = true) →
    ∃ fs x, parts okId L ns vs m = some fs ∧ Made L ns vs m fs x
  | [], ns, m, _, hl, hm, _ => by
    have e : ns = [] := List.length_eq_zero_iff.1 hl
    subst e
    refine ⟨m, fun _ => .unit, by unfold parts; rfl, fun i v e => by simp at e, hm, fun n y => ?_⟩
    constructor
    · exact fun h => .inr ⟨by simp, h⟩
    · rintro (⟨i, h, _⟩ | ⟨_, h⟩)
      · simp [Last] at h
      · exact h
  | v :: vs, ns, m, h, hl, hm, hu => by
    cases ns with
    | nil => simp at hl
    | cons n ns =>
      unfold Lang.okVs at h
      rw [Bool.and_eq_true] at h
      obtain ⟨k, h1, h2⟩ := tree_made hL v h.1 (hu v List.mem_cons_self)
      obtain ⟨p1, p2⟩ := mem_put n k m hm
      obtain ⟨fs, x, h3, h4⟩ := parts_made hL vs ns (put n k m) h.2 (by simpa using hl) p1 fun v hv => hu v (List.mem_cons_of_mem _ hv)
      refine ⟨fs, fun i => i.casesOn k x, ?_, ?_, h4.sorted, ?_⟩
      · unfold parts
        rw [h1]
        exact h3
      · intro i w hw
        cases i with
        | zero =>
          have e : v = w := by simpa using hw
          subst e
          exact h2
        | succ i => exact h4.pics i w (by simpa using hw)
      · intro a y
        rw [h4.mem, p2]
        constructor
        · rintro (⟨i, e1, e2⟩ | ⟨e1, ⟨rfl, rfl⟩ | ⟨e2, e3⟩⟩)
          · exact .inl ⟨i + 1, last_succ.2 e1, e2⟩
          · exact .inl ⟨0, last_zero.2 ⟨rfl, e1⟩, rfl⟩
          · exact .inr ⟨fun e => (List.mem_cons.1 e).elim e2 e1, e3⟩
        · rintro (⟨i, e1, e2⟩ | ⟨e1, e2⟩)
          · cases i with
            | zero =>
              obtain ⟨rfl, e1⟩ := last_zero.1 e1
              exact .inr ⟨e1, .inl ⟨rfl, e2⟩⟩
            | succ i => exact .inl ⟨i, last_succ.1 e1, e2⟩
          · exact .inr ⟨fun e => e1 (List.mem_cons_of_mem _ e), .inr ⟨fun e => e1 (e ▸ List.mem_cons_self), e2⟩⟩
end

mutual
/-- A panic for each name that is needed and not taken. -/
theorem tree_needs (hL : Agree L sh) : ∀ (v : Tab.Value N) (k : K N), Lang.okV sh v = true → tree okId L v = some k → ∀ id, Uses L v id → okId id = true
  | .ogma t k vs, r, h, he, id, hu => by
    unfold Lang.okV at h
    rw [Bool.and_eq_true, decide_eq_true_iff] at h
    obtain ⟨id', o, h1, h2⟩ := hL t k _ h.2
    unfold tree at he
    have hid : okId id' = true := by
      cases o with
      | none =>
        simp only [h1] at he
        by_cases hc : okId id' = true
        · exact hc
        · rw [if_neg hc] at he; cases he
      | some ns =>
        simp only [h1] at he
        by_cases hc : okId id' = true
        · exact hc
        · cases hp : parts okId L ns vs [] with
          | none => rw [hp] at he; cases he
          | some fs => rw [hp, Option.bind_some, if_neg hc] at he; cases he
    cases hu with
    | here e => rw [h1] at e; cases e; exact hid
    | inside hv hu =>
      rename_i w
      cases o with
      | none =>
        have e : vs = [] := List.map_eq_nil_iff.1 h2
        subst e
        cases hv
      | some ns =>
        simp only [h1] at he
        cases hp : parts okId L ns vs [] with
        | none => rw [hp] at he; cases he
        | some fs => exact parts_need hL vs ns [] fs h.1 hp w hv id hu
theorem parts_need (hL : Agree L sh) : ∀ (vs : List (Tab.Value N)) (ns : List String) (m fs : List (String × K N)), Lang.okVs sh vs = true →
    parts okId L ns vs m = some fs → ∀ v ∈ vs, ∀ id, Uses L v id → okId id = true
  | v :: vs, [], m, fs, _, he, _, _, _, _ => by unfold parts at he; cases he
  | v :: vs, n :: ns, m, fs, h, he, w, hw, id, hu => by
    unfold Lang.okVs at h
    rw [Bool.and_eq_true] at h
    unfold parts at he
    cases ht : tree okId L v with
    | none => rw [ht] at he; cases he
    | some x =>
      rw [ht, Option.bind_some] at he
      rcases List.mem_cons.1 hw with e | hw
      · rw [e] at hu
        exact tree_needs hL v x h.1 ht id hu
      · exact parts_need hL vs ns _ fs h.2 he w hw id hu
end

/-! ### Telling values apart -/

/-- What `Distinct` says of names. -/
structure Clear (L : Names) (sh : String → Lang.Shape) : Prop where
  fields : ∀ t k id ns, L t k = some (id, some ns) → ns.Nodup
  ids : ∀ t j k id a b, L t j = some (id, a) → L t k = some (id, b) → a = b ∧ (sh t).fields j = (sh t).fields k

theorem last_of_nodup {ns : List String} (h : ns.Nodup) {i : Nat} {n : String} (hi : ns[i]? = some n) : Last ns i n := by
  refine ⟨hi, fun j hj e => ?_⟩
  obtain ⟨h1, e1⟩ := List.getElem?_eq_some_iff.1 hi
  obtain ⟨h2, e2⟩ := List.getElem?_eq_some_iff.1 e
  have := List.pairwise_iff_getElem.1 h i j h1 h2 hj
  exact this (e1.trans e2.symm)

theorem okVs_get {vs : List (Tab.Value N)} (h : Lang.okVs sh vs = true) {i : Nat} {v : Tab.Value N} (hi : vs[i]? = some v) : Lang.okV sh v = true := by
  induction vs generalizing i with
  | nil => simp at hi
  | cons w vs ih =>
    unfold Lang.okVs at h
    rw [Bool.and_eq_true] at h
    cases i with
    | zero =>
      have e : w = v := by simpa using hi
      exact e ▸ h.1
    | succ i => exact ih h.2 (by simpa using hi)

theorem apart (hc : Clear L sh) {v w : Tab.Value N} {k : K N} (hv : Lang.okV sh v = true) (hw : Lang.okV sh w = true) (ht : v.ty = w.ty)
    (pv : Pic L v k) (pw : Pic L w k) : Same L v w := by
  induction pv generalizing w with
  | nil => cases pw; exact .nil
  | bool b => cases pw; exact .bool b
  | num n => cases pw; exact .num n
  | str s => cases pw with
    | str => exact .str s
    | tab => cases ht
    | row => cases ht
  | tab rs =>
    cases w <;> cases ht
    exact .tab _ _
  | row rs i =>
    cases w <;> cases ht
    exact .row _ _ _ _
  | named h => cases pw with
    | named h' =>
      cases ht
      exact .ogma (h.trans h'.symm) rfl fun i v w e => by simp at e
  | @parts t j id ns vs fs x h1 h2 h3 h4 h5 ih =>
    cases pw with
    | @parts t' k _ ns' ws _ x' h1' h2' h3' h4' h5' =>
      cases ht
      obtain ⟨e1, e2⟩ := hc.ids _ _ _ _ _ _ h1 h1'
      cases e1
      unfold Lang.okV at hv hw
      rw [Bool.and_eq_true, decide_eq_true_iff] at hv hw
      refine .ogma (h1.trans h1'.symm) (h2.symm.trans h2') fun i v w hi hi' => ?_
      have hn : ∃ n, ns[i]? = some n := by
        have hlt := (List.getElem?_eq_some_iff.1 hi).1
        exact ⟨ns[i]'(h2 ▸ hlt), List.getElem?_eq_getElem _⟩
      obtain ⟨n, hn⟩ := hn
      have hnd := hc.fields _ _ _ _ h1
      have hm := (h5' n (x i)).1 ((h5 n (x i)).2 ⟨i, last_of_nodup hnd hn, rfl⟩)
      obtain ⟨m, hm1, hm2⟩ := hm
      have e : m = i := by
        rcases Nat.lt_trichotomy m i with e | e | e
        · exact absurd hn (hm1.2 i e)
        · exact e
        · exact absurd hm1.1 ((last_of_nodup hnd hn).2 m e)
      subst e
      have hty : v.ty = w.ty := by
        have e3 := hv.2.symm.trans (e2.trans hw.2)
        have e4 := congrArg (fun l => l[m]?) (Option.some.inj e3)
        simpa [hi, hi'] using e4
      exact ih m v hi (okVs_get hv.1 hi) (okVs_get hw.1 hi') hty (hm2 ▸ h3' m w hi')

theorem pic_of_same {v w : Tab.Value N} {k : K N} (hs : Same L v w) (pv : Pic L v k) : Pic L w k := by
  induction pv generalizing w with
  | nil => cases hs; exact .nil
  | bool b => cases hs; exact .bool b
  | num n => cases hs; exact .num n
  | str s => cases hs; exact .str s
  | tab rs => cases hs; exact .tab _
  | row rs i => cases hs; exact .row _ _
  | named h => cases hs with
    | @ogma _ _ k _ ws e1 e2 e3 =>
      have e : ws = [] := List.length_eq_zero_iff.1 e2.symm
      subst e
      exact .named (e1.symm.trans h)
  | @parts t j id ns vs fs x h1 h2 h3 h4 h5 ih => cases hs with
    | @ogma _ _ k _ ws e1 e2 e3 =>
      refine .parts x (e1.symm.trans h1) (h2.trans e2) (fun i w hi => ?_) h4 h5
      have hlt := (List.getElem?_eq_some_iff.1 hi).1
      have hv : vs[i]? = some (vs[i]'(e2 ▸ hlt)) := List.getElem?_eq_getElem _
      exact ih i _ hv (e3 i _ _ hv hi)

theorem last_unique {ns : List String} {i j : Nat} {n : String} (hi : Last ns i n) (hj : Last ns j n) : i = j := by
  rcases Nat.lt_trichotomy i j with c | c | c
  · exact absurd hj.1 (hi.2 j c)
  · exact c
  · exact absurd hi.1 (hj.2 i c)

theorem sorted_ext {α : Type} {fs gs : List (String × α)} (hf : fs.Pairwise (fun a b => a.1 < b.1)) (hg : gs.Pairwise (fun a b => a.1 < b.1))
    (h : ∀ n y, (n, y) ∈ fs ↔ (n, y) ∈ gs) : fs = gs := by
  have nd : ∀ {l : List (String × α)}, l.Pairwise (fun a b => a.1 < b.1) → l.Nodup := fun hl =>
    List.Pairwise.imp (R := fun a b => a.1 < b.1) (fun {a b} hab (e : a = b) => String.lt_irrefl b.1 (by rw [e] at hab; exact hab)) hl
  refine List.Perm.eq_of_pairwise ?_ hf hg ((List.perm_ext_iff_of_nodup (nd hf) (nd hg)).2 fun p => h p.1 p.2)
  intro a b _ _ hab hba
  exact absurd hba (String.lt_asymm hab)

/-- A value has one tree. -/
theorem pic_unique {v : Tab.Value N} {k k' : K N} (h : Pic L v k) (h' : Pic L v k') : k = k' := by
  induction h generalizing k' with
  | nil => cases h'; rfl
  | bool b => cases h'; rfl
  | num n => cases h'; rfl
  | str s => cases h'; rfl
  | tab rs => cases h'; rfl
  | row rs i => cases h'; rfl
  | named h => cases h' with
    | named h2 => rw [h] at h2; cases h2; rfl
    | parts x h2 => rw [h] at h2; cases h2
  | @parts t j id ns vs fs x h1 h2 h3 h4 h5 ih => cases h' with
    | named h2' => rw [h1] at h2'; cases h2'
    | @parts _ _ _ ns' _ fs' x' h1' h2' h3' h4' h5' =>
      rw [h1] at h1'
      cases h1'
      have e : ∀ (i : Nat) n, ns[i]? = some n → x i = x' i := by
        intro i n hn
        have hlt := (List.getElem?_eq_some_iff.1 hn).1
        have hv : vs[i]? = some (vs[i]'(h2 ▸ hlt)) := List.getElem?_eq_getElem _
        exact ih i _ hv (h3' i _ hv)
      congr 1
      refine sorted_ext h4 h4' fun n y => ?_
      rw [h5, h5']
      constructor
      · rintro ⟨i, hi, rfl⟩
        exact ⟨i, hi, e i n hi.1⟩
      · rintro ⟨i, hi, rfl⟩
        exact ⟨i, hi, (e i n hi.1).symm⟩

/-! ### The names of a session -/

variable {br : String → Nat → Bool} {d : Defs.Defs}

theorem agree_names (br : String → Nat → Bool) (d : Defs.Defs) : Agree (namesOf br d) (Lang.shapeOf d) := by
  intro t k us h
  unfold Lang.shapeOf at h
  unfold namesOf
  have tuple : ∀ e, Lang.Shape.fields (match Tuple.parseName t.toList d.types with
      | some (.tuple ts) => .product ((Tuple.tupleFields ts).map fun p => (p.1, Lang.toTab p.2.key))
      | _ => .sum []) k = some us → e = (match Tuple.parseName t.toList d.types with
      | some (.tuple ts) => some (t, some ((Tuple.tupleFields ts).map (·.1)))
      | _ => none) → ∃ id o, e = some (id, o) ∧ match o with
        | none => us = []
        | some ns => ns.length = us.length := by
    intro e h he
    cases hp : Tuple.parseName t.toList d.types with
    | none => simp only [hp] at h; cases h
    | some x =>
      cases x with
      | base b => simp only [hp] at h; cases h
      | tuple ts =>
        simp only [hp] at h he
        cases h
        exact ⟨_, _, he, by simp⟩
  cases he : AMap.get d.types t with
  | none => simp only [he] at h ⊢; exact tuple _ h rfl
  | some x =>
    cases x with
    | prim p => simp only [he] at h ⊢; exact tuple _ h rfl
    | def_ td =>
      simp only [he] at h ⊢
      cases hs : td.shape with
      | product fs =>
        rw [hs] at h
        cases h
        exact ⟨_, _, rfl, by simp⟩
      | sum vs =>
        rw [hs] at h
        dsimp only [Lang.shapeAs, Lang.Shape.fields] at h ⊢
        rw [List.getElem?_map] at h
        cases hv : vs[k]? with
        | none => rw [hv] at h; cases h
        | some v =>
          rw [hv] at h
          cases h
          refine ⟨_, _, rfl, ?_⟩
          by_cases hc : (v.2.isEmpty && !br t k) = true
          · rw [if_pos hc]
            rw [Bool.and_eq_true, List.isEmpty_iff] at hc
            show List.map _ v.2 = []
            rw [hc.1]
            rfl
          · rw [if_neg hc]
            simp

theorem tuple_names_nodup (ts : List Tuple.TTy) : ((Tuple.tupleFields ts).map (·.1)).Nodup := by
  apply List.pairwise_iff_getElem.2
  intro a b _ _ hab e
  simp only [Tuple.tupleFields, List.getElem_map, List.getElem_zipIdx, Nat.zero_add] at e
  have e := congrArg String.toList e
  rw [String.toList_append, String.toList_append] at e
  have e := List.append_cancel_left e
  have e : toString a = toString b := String.toList_inj.1 e
  have : a = b := Nat.repr_inj.1 e
  omega

theorem clear_names (hd : Distinct d) : Clear (namesOf br d) (Lang.shapeOf d) := by
  constructor
  · intro t k id ns h
    unfold namesOf at h
    cases he : AMap.get d.types t with
    | none =>
      simp only [he] at h
      split at h
      · cases h; exact tuple_names_nodup _
      · cases h
    | some x =>
      cases x with
      | prim p =>
        simp only [he] at h
        split at h
        · cases h; exact tuple_names_nodup _
        · cases h
      | def_ td =>
        simp only [he] at h
        cases hs : td.shape with
        | product fs =>
          simp only [hs] at h
          cases h
          exact hd.ofType t td fs he hs
        | sum vs =>
          simp only [hs] at h
          cases hv : vs[k]? with
          | none => rw [hv] at h; cases h
          | some v =>
            rw [hv, Option.map_some] at h
            split at h
            · cases h
            · cases h
              exact hd.ofVariant t td vs he hs v (List.mem_of_getElem? hv)
  · intro t j k id a b h1 h2
    have other : ∀ (e : Option (String × Option (List String))), e = some (id, a) → e = some (id, b) → a = b := by
      intro e e1 e2
      rw [e1] at e2
      cases e2
      rfl
    have flat : ∀ fs, Lang.shapeOf d t = .product fs → (Lang.shapeOf d t).fields j = (Lang.shapeOf d t).fields k := by
      intro fs e
      rw [e]
      rfl
    unfold namesOf at h1 h2
    cases he : AMap.get d.types t with
    | none =>
      simp only [he] at h1 h2
      refine ⟨other _ h1 h2, ?_⟩
      split at h1
      · rename_i ts hp
        exact flat ((Tuple.tupleFields ts).map fun p => (p.1, Lang.toTab p.2.key)) (by unfold Lang.shapeOf; simp only [he, hp])
      · cases h1
    | some x =>
      cases x with
      | prim p =>
        simp only [he] at h1 h2
        refine ⟨other _ h1 h2, ?_⟩
        split at h1
        · rename_i ts hp
          exact flat ((Tuple.tupleFields ts).map fun p => (p.1, Lang.toTab p.2.key)) (by unfold Lang.shapeOf; simp only [he, hp])
        · cases h1
      | def_ td =>
        simp only [he] at h1 h2
        cases hs : td.shape with
        | product fs =>
          simp only [hs] at h1 h2
          refine ⟨other _ h1 h2, ?_⟩
          exact flat (fs.map fun f => (f.name, Lang.toTab f.ty)) (by unfold Lang.shapeOf; simp only [he, hs, Lang.shapeAs])
        | sum vs =>
          simp only [hs] at h1 h2
          cases hj : vs[j]? with
          | none => rw [hj] at h1; cases h1
          | some v =>
            cases hk : vs[k]? with
            | none => rw [hk] at h2; cases h2
            | some w =>
              rw [hj, Option.map_some] at h1
              rw [hk, Option.map_some] at h2
              have h1 := Option.some.inj h1
              have h2 := Option.some.inj h2
              have hid : v.1 = w.1 := (congrArg Prod.fst h1).trans (congrArg Prod.fst h2).symm
              have e : j = k := by
                have hn := hd.variants t td vs he hs
                obtain ⟨l1, e1⟩ := List.getElem?_eq_some_iff.1 hj
                obtain ⟨l2, e2⟩ := List.getElem?_eq_some_iff.1 hk
                have key := List.pairwise_iff_getElem.1 hn
                rcases Nat.lt_trichotomy j k with c | c | c
                · have hh := key j k (by simpa using l1) (by simpa using l2) c
                  exact absurd (by simp [e1, e2, hid]) hh
                · exact c
                · have hh := key k j (by simpa using l2) (by simpa using l1) c
                  exact absurd (by simp [e1, e2, hid]) hh
              subst e
              rw [hj] at hk
              cases hk
              exact ⟨(congrArg Prod.snd h1).symm.trans (congrArg Prod.snd h2), rfl⟩

/-! ### The property -/

/-- After any definitions, data that is as its type says is shown as its tree; it is not shown, but the program panics, only if a name of a type
or variant in it is not one that trees take. -/
theorem value_shown {v : Tab.Value N} (h : Lang.okV (Lang.shapeOf d) v = true) :
    (tree okId (namesOf br d) v ≠ none ↔ ∀ id, Uses (namesOf br d) v id → okId id = true) ∧
    ∀ k, tree okId (namesOf br d) v = some k → Pic (namesOf br d) v k := by
  have need : ∀ k, tree okId (namesOf br d) v = some k → ∀ id, Uses (namesOf br d) v id → okId id = true :=
    fun k hk => tree_needs (agree_names br d) v k h hk
  refine ⟨⟨fun hn => ?_, fun hu => ?_⟩, fun k hk => ?_⟩
  · cases hk : tree okId (namesOf br d) v with
    | none => exact absurd hk hn
    | some k => exact need k hk
  · obtain ⟨k, h1, _⟩ := tree_made (agree_names br d) v h hu
    rw [h1]
    exact Option.some_ne_none k
  · obtain ⟨k', h1, h2⟩ := tree_made (agree_names br d) v h (need k hk)
    rw [hk] at h1
    cases h1
    exact h2

/-- So are results, and the cells of a table. -/
theorem result_shown {v : Tab.Value N} (h : Lang.okV (Lang.shapeOf d) v = true) (hu : ∀ id, Uses (namesOf br d) v id → okId id = true) :
    (∃ o, result okId (namesOf br d) v = some o ∧ Written (namesOf br d) v o) ∧
    ∃ o, cell okId (namesOf br d) v.entry = some o ∧ InCell (namesOf br d) v o := by
  obtain ⟨k, h1, h2⟩ := tree_made (agree_names br d) v h hu
  cases v with
  | ogma t j vs =>
    have e1 : result okId (namesOf br d) (.ogma t j vs) = (tree okId (namesOf br d) (.ogma t j vs)).map .tree := rfl
    have e2 : cell okId (namesOf br d) (Tab.Value.ogma t j vs).entry = (tree okId (namesOf br d) (.ogma t j vs)).map .tree := rfl
    rw [e1, e2, h1]
    exact ⟨⟨_, rfl, .data h2⟩, _, rfl, .data h2⟩
  | nil => exact ⟨⟨_, rfl, .nil⟩, _, rfl, .nil⟩
  | bool b => cases b with
    | true => exact ⟨⟨_, rfl, .yes⟩, _, rfl, .yes⟩
    | false => exact ⟨⟨_, rfl, .no⟩, _, rfl, .no⟩
  | num n => exact ⟨⟨_, rfl, .num n⟩, _, rfl, .num n⟩
  | str s => exact ⟨⟨_, rfl, .str s⟩, _, rfl, .str s⟩
  | tab rs => cases rs with
    | nil =>
      have e : cell okId (namesOf br d) (Tab.Value.tab ([] : Tab.Rows N)).entry = some (.text "<table [0,0]>") := by
        have e : "<table [" ++ toString 0 ++ "," ++ toString 0 ++ "]>" = "<table [0,0]>" := by decide +kernel
        show some (Out.text ("<table [" ++ toString 0 ++ "," ++ toString 0 ++ "]>")) = _
        rw [e]
      exact ⟨⟨_, rfl, .tab _⟩, _, e, .empty⟩
    | cons r rs => exact ⟨⟨_, rfl, .tab _⟩, _, rfl, .tab r rs⟩
  | row rs i => exact ⟨⟨_, rfl, .row rs i⟩, _, rfl, .row rs i⟩

/-- Two values of one type are shown alike only if they are the same but for what is in tables, and then they are. -/
theorem shown_apart_partial (hd : Distinct d) {v w : Tab.Value N} (hv : Lang.okV (Lang.shapeOf d) v = true) (hw : Lang.okV (Lang.shapeOf d) w = true)
    (ht : v.ty = w.ty) (hu : ∀ id, Uses (namesOf br d) v id → okId id = true) (hu' : ∀ id, Uses (namesOf br d) w id → okId id = true) :
    tree okId (namesOf br d) v = tree okId (namesOf br d) w ↔ Same (namesOf br d) v w := by
  obtain ⟨k, h1, h2⟩ := tree_made (agree_names br d) v hv hu
  obtain ⟨k', h1', h2'⟩ := tree_made (agree_names br d) w hw hu'
  rw [h1, h1']
  constructor
  · intro e
    cases e
    exact apart (clear_names hd) hv hw ht h2 h2'
  · intro hs
    rw [pic_unique (pic_of_same hs h2) h2']

/-- Under the name of a field of a record is what reading the field gives. -/
theorem shown_is_read_partial (hd : Distinct d) {t : String} {td : Defs.TypeDef} {fs : List Defs.Field} (ht : AMap.get d.types t = some (.def_ td))
    (hs : td.shape = .product fs) {k : Nat} {vs : List (Tab.Value N)} (h : Lang.okV (Lang.shapeOf d) (.ogma t k vs) = true) {x : K N}
    (hx : tree okId (namesOf br d) (.ogma t k vs) = some x) :
    ∃ gs, x = .parts td.name gs ∧ (∀ n, (∃ y, (n, y) ∈ gs) ↔ ∃ f ∈ fs, f.name = n) ∧
      ∀ n i u v, Tuple.fieldIdx (fs.map fun f => (f.name, f.ty)) n = .ok (i, u) → vs[i]? = some v →
        ∃ y, (n, y) ∈ gs ∧ tree okId (namesOf br d) v = some y := by
  have hn : namesOf br d t k = some (td.name, some (fs.map (·.name))) := by
    unfold namesOf
    simp only [ht, hs]
  have hp := (value_shown h).2 x hx
  have hneed := (value_shown (okId := okId) (br := br) h).1.1 (by rw [hx]; exact Option.some_ne_none _)
  have hok := h
  unfold Lang.okV at hok
  rw [Bool.and_eq_true] at hok
  have hnd := hd.ofType t td fs ht hs
  cases hp with
  | named e => rw [hn] at e; cases e
  | @parts _ _ _ ns _ gs y h1 h2 h3 h4 h5 =>
    rw [hn] at h1
    cases h1
    refine ⟨gs, rfl, fun n => ?_, fun n i u v hi hv => ?_⟩
    · constructor
      · rintro ⟨z, hz⟩
        obtain ⟨i, hi, _⟩ := (h5 n z).1 hz
        obtain ⟨f, hf, e⟩ := List.mem_map.1 (List.mem_of_getElem? hi.1)
        exact ⟨f, hf, e⟩
      · rintro ⟨f, hf, e⟩
        obtain ⟨i, hi⟩ := List.mem_iff_getElem?.1 hf
        exact ⟨y i, (h5 n (y i)).2 ⟨i, last_of_nodup hnd (by rw [List.getElem?_map, hi, ← e]; rfl), rfl⟩⟩
    · have hni : (fs.map (·.name))[i]? = some n := by
        unfold Tuple.fieldIdx at hi
        cases hj : (fs.map fun f => (f.name, f.ty)).findIdx? (·.1 == n) with
        | none => rw [hj] at hi; cases hi
        | some j =>
          rw [hj] at hi
          obtain ⟨hl, he, _⟩ := List.findIdx?_eq_some_iff_getElem.1 hj
          simp only [List.getElem?_eq_getElem hl] at hi
          cases hi
          have hl' : i < fs.length := by simpa using hl
          have he : fs[i].name = n := by simpa using he
          rw [List.getElem?_map, List.getElem?_eq_getElem hl', ← he]
          rfl
      refine ⟨y i, (h5 n (y i)).2 ⟨i, last_of_nodup hnd hni, rfl⟩, ?_⟩
      obtain ⟨z, hz1, hz2⟩ := tree_made (agree_names br d) v (okVs_get hok.1 hv) fun id hu => hneed id (.inside (List.mem_of_getElem? hv) hu)
      rw [hz1, pic_unique hz2 (h3 i v hv)]

/-! ### Where it goes wrong -/

/-- The definitions after these lines. -/
def after (os : List Defs.Op) : Defs.Defs := (Defs.run false Defs.base os).getD Defs.base

/-- Names are words of letters, digits, `_` and `-`. -/
def word (s : String) : Bool := !s.isEmpty && s.toList.all fun c => c.isAlphanum || c == '_' || c == '-'

def none_ : String → Nat → Bool := fun _ _ => false

/-- Two fields of one name: the last is shown and the first is read. -/
def pair : Defs.Defs := after [.shell (.type_ "P" (.product [⟨"x", "Num", []⟩, ⟨"x", "Num", []⟩]))]

theorem last_shown_first_read : Lang.okV (Lang.shapeOf pair) (.ogma "P" 0 [.num 1, .num 2] : Tab.Value Nat) = true ∧
    tree word (namesOf none_ pair) (.ogma "P" 0 [.num 1, .num 2] : Tab.Value Nat) = some (.parts "P" [("x", .num 2)]) ∧
    (∃ td fs, AMap.get pair.types "P" = some (.def_ td) ∧ td.shape = .product fs ∧
      Tuple.fieldIdx (fs.map fun f => (f.name, f.ty)) "x" = .ok (0, .num)) := by
  refine ⟨by decide +kernel, ?_, ⟨.shell, "P", .product [⟨"x", .num, []⟩, ⟨"x", .num, []⟩]⟩, [⟨"x", .num, []⟩, ⟨"x", .num, []⟩], by decide +kernel, rfl, by decide +kernel⟩
  have h1 : namesOf none_ pair "P" 0 = some ("P", some ["x", "x"]) := by decide +kernel
  have h2 : word "P" = true := by decide +kernel
  have h3 : ¬ "x" < "x" := String.lt_irrefl _
  simp [tree, parts, put, h1, h2, h3]

/-- Two values are shown alike though they differ in a field. -/
theorem field_hidden : tree word (namesOf none_ pair) (.ogma "P" 0 [.num 1, .num 2] : Tab.Value Nat) =
    tree word (namesOf none_ pair) (.ogma "P" 0 [.num 7, .num 2]) ∧
    ¬ Same (namesOf none_ pair) (.ogma "P" 0 [.num 1, .num 2] : Tab.Value Nat) (.ogma "P" 0 [.num 7, .num 2]) := by
  have h1 : namesOf none_ pair "P" 0 = some ("P", some ["x", "x"]) := by decide +kernel
  have h3 : ¬ "x" < "x" := String.lt_irrefl _
  refine ⟨by simp [tree, parts, put, h1, h3], fun h => ?_⟩
  cases h with
  | ogma _ _ h => cases h 0 _ _ rfl rfl

/-- Two variants of one name: values of either are shown alike, though their fields are not of one type. -/
def twice : Defs.Defs := after [.shell (.type_ "A" (.sum [("X", [⟨"n", "Str", []⟩]), ("X", [⟨"n", "Table", []⟩])]))]

theorem variant_hidden : Lang.okV (Lang.shapeOf twice) (.ogma "A" 0 [.str "<table>"] : Tab.Value Nat) = true ∧
    Lang.okV (Lang.shapeOf twice) (.ogma "A" 1 [.tab []] : Tab.Value Nat) = true ∧
    tree word (namesOf none_ twice) (.ogma "A" 0 [.str "<table>"] : Tab.Value Nat) = some (.parts "X" [("n", .str "<table>")]) ∧
    tree word (namesOf none_ twice) (.ogma "A" 1 [.tab []] : Tab.Value Nat) = some (.parts "X" [("n", .str "<table>")]) := by
  have h1 : namesOf none_ twice "A" 0 = some ("X", some ["n"]) := by decide +kernel
  have h2 : namesOf none_ twice "A" 1 = some ("X", some ["n"]) := by decide +kernel
  have h3 : word "X" = true := by decide +kernel
  exact ⟨by decide +kernel, by decide +kernel, by simp [tree, parts, put, h1, h3], by simp [tree, parts, put, h2, h3]⟩

/-- A type may be given a name that trees do not take; then a value of it cannot be shown. This is so with any set of names that does not have
all words. -/
theorem unshowable {name : String} (hn : okId name = false) (ht : AMap.get d.types name = some (.def_ ⟨.shell, name, .product []⟩)) :
    Lang.okV (Lang.shapeOf d) (.ogma name 0 [] : Tab.Value N) = true ∧ result okId (namesOf br d) (.ogma name 0 [] : Tab.Value N) = none := by
  have h1 : namesOf br d name 0 = some (name, some []) := by unfold namesOf; simp only [ht]; rfl
  have h2 : Lang.shapeOf d name = .product [] := by unfold Lang.shapeOf; simp only [ht]; rfl
  exact ⟨by simp [Lang.okV, Lang.okVs, h2, Lang.Shape.fields], by simp [result, tree, parts, h1, hn]⟩

/-! ### An example -/

/-- A type with fields and one with variants. -/
def shapes : Defs.Defs := after [.shell (.type_ "Point" (.product [⟨"y", "Num", []⟩, ⟨"x", "Num", []⟩])),
  .shell (.type_ "Shape" (.sum [("Circle", [⟨"r", "Num", []⟩, ⟨"at", "Point", []⟩]), ("Nothing", [])]))]

def circle : Tab.Value Nat := .ogma "Shape" 0 [.num 3, .ogma "Point" 0 [.num 1, .num 2]]

/-- `Distinct`, of one entry. -/
def distinct : Defs.TyEntry → Bool
  | .def_ td => match td.shape with
    | .sum vs => decide (vs.map (·.1)).Nodup && vs.all fun v => decide (v.2.map (·.name)).Nodup
    | .product fs => decide (fs.map (·.name)).Nodup
  | .prim _ => true

theorem shapes_distinct : Distinct shapes := by
  have h : ∀ x ∈ shapes.types, distinct x.2 = true := by decide +kernel
  refine ⟨fun t td vs hg hs => ?_, fun t td vs hg hs => ?_, fun t td vs hg hs => ?_⟩
  all_goals
    have := h _ (AMap.mem_of_get hg)
    unfold distinct at this
    simp only [hs] at this
  · rw [Bool.and_eq_true, decide_eq_true_iff] at this
    exact this.1
  · rw [Bool.and_eq_true, List.all_eq_true] at this
    exact fun v hv => of_decide_eq_true (this.2 v hv)
  · exact of_decide_eq_true this

/-- For C89: a value of these types, in parentheses a tuple, and how it is shown: the parts in the order of their names. -/
example : Lang.okV (Lang.shapeOf shapes) circle = true ∧ (∀ id, Uses (namesOf none_ shapes) circle id → word id = true) ∧
    tree word (namesOf none_ shapes) circle = some (.parts "Circle" [("at", .parts "Point" [("x", .num 2), ("y", .num 1)]), ("r", .num 3)]) ∧
    tree word (namesOf none_ shapes) (.ogma "U_Num-Str_" 0 [.num 3, .str "a"] : Tab.Value Nat) =
      some (.parts "U_Num-Str_" [("t0", .num 3), ("t1", .str "a")]) ∧
    tree word (namesOf none_ shapes) (.ogma "Shape" 1 [] : Tab.Value Nat) = some (.named "Nothing") := by
  have h1 : namesOf none_ shapes "Shape" 0 = some ("Circle", some ["r", "at"]) := by decide +kernel
  have h2 : namesOf none_ shapes "Point" 0 = some ("Point", some ["y", "x"]) := by decide +kernel
  have h3 : namesOf none_ shapes "U_Num-Str_" 0 = some ("U_Num-Str_", some ["t0", "t1"]) := by decide +kernel
  have h4 : namesOf none_ shapes "Shape" 1 = some ("Nothing", none) := by decide +kernel
  have w : word "Circle" = true ∧ word "Point" = true ∧ word "U_Num-Str_" = true ∧ word "Nothing" = true := by decide +kernel
  have l : "at" < "r" ∧ "x" < "y" ∧ ¬ "t1" < "t0" ∧ "t0" < "t1" := by decide +kernel
  have hk : Lang.okV (Lang.shapeOf shapes) circle = true := by decide +kernel
  have ht : tree word (namesOf none_ shapes) circle = some (.parts "Circle" [("at", .parts "Point" [("x", .num 2), ("y", .num 1)]), ("r", .num 3)]) := by
    simp [circle, tree, parts, put, h1, h2, w, l]
  refine ⟨hk, (value_shown hk).1.1 (by rw [ht]; exact Option.some_ne_none _), ht, ?_, ?_⟩
  · simp [tree, parts, put, h3, w, l]
  · simp [tree, h4, w]

end Verif.Tree
