import Verif.Spec.TyGraph
/-! C33-C35: resolving the type graph. -/
namespace Verif.Ty
variable {T : Type} [DecidableEq T]
set_option linter.unusedSectionVars false

theorem settled_unique {k : Kn T} {a b : T} (ha : Settled k a) (hb : Settled k b) : a = b := by
  rcases ha with rfl | rfl <;> rcases hb with h | h <;> simp_all

theorem settled_of_firm {k : Kn T} (h : k.firm = true) : ∃ t, Settled k t := by
  cases k with
  | known t => exact ⟨t, Or.inl rfl⟩
  | obliged t => exact ⟨t, Or.inr rfl⟩
  | any => simp [Kn.firm] at h
  | inferred ts => simp [Kn.firm] at h

theorem firm_of_settled {k : Kn T} {t : T} (h : Settled k t) : k.firm = true := by
  rcases h with rfl | rfl <;> rfl

theorem hasTy_of_settled {k : Kn T} {t : T} (h : Settled k t) : k.hasTy = true := by
  rcases h with rfl | rfl <;> rfl

omit [DecidableEq T] in
theorem set_kn (s : State T) (n : Nat) (sd : Side) (k : Kn T) (m : Nat) (sd' : Side) :
    (s.set n sd k).kn m sd' = if m = n ∧ sd' = sd then k else s.kn m sd' := rfl

/-! ### Settled types stay -/

/-- Every settled point is settled with the same type afterwards. -/
def Keeps (s s' : State T) : Prop := ∀ n sd t, Settled (s.kn n sd) t → Settled (s'.kn n sd) t

omit [DecidableEq T] in
theorem Keeps.refl (s : State T) : Keeps s s := fun _ _ _ h => h

omit [DecidableEq T] in
theorem Keeps.trans {a b c : State T} (h : Keeps a b) (h' : Keeps b c) : Keeps a c :=
  fun n sd t hs => h' n sd t (h n sd t hs)

omit [DecidableEq T] in
theorem keeps_set {s : State T} {n : Nat} {sd : Side} {k : Kn T}
    (h : ∀ t, Settled (s.kn n sd) t → Settled k t) : Keeps s (s.set n sd k) := by
  intro m sd' t ht
  rw [set_kn]
  split
  · rename_i he
    obtain ⟨rfl, rfl⟩ := he
    exact h t ht
  · exact ht

omit [DecidableEq T] in
theorem Keeps.kn {a b c : State T} (h : Keeps a b) (e : c.kn = b.kn) : Keeps a c := by
  intro n sd t hs
  rw [e]
  exact h n sd t hs

/-- A flow onto a settled point carries the settled type. -/
theorem canFlow_settled {k k' : Kn T} {t : T} (h : canFlow k k' = .ok ()) (ht : Settled k' t) : Settled k t := by
  rcases ht with rfl | rfl <;> cases k <;> simp only [canFlow] at h <;> (try split at h) <;>
    simp_all [Settled]

theorem keeps_intersectEdge (s : State T) (e : Edge) : Keeps s (intersectEdge s e) := by
  unfold intersectEdge
  split
  · rename_i i hi
    have hs : ∃ a, s.kn e.src e.flow.srcSide = .inferred a := by
      unfold int at hi; split at hi
      · rename_i a b h1 h2; exact ⟨a, h1⟩
      · cases hi
    have hd : ∃ a, s.kn e.dst e.flow.dstSide = .inferred a := by
      unfold int at hi; split at hi
      · rename_i a b h1 h2; exact ⟨b, h2⟩
      · cases hi
    obtain ⟨a, ha⟩ := hs
    obtain ⟨b, hb⟩ := hd
    refine Keeps.trans (keeps_set ?_) (keeps_set ?_)
    · intro t ht; rw [ha] at ht; rcases ht with h | h <;> cases h
    · intro t ht
      rw [set_kn] at ht
      split at ht
      · rcases ht with h | h <;> cases h
      · rw [hb] at ht; rcases ht with h | h <;> cases h
  · exact Keeps.refl s

theorem intersectEdge_rest (s : State T) (e : Edge) :
    (intersectEdge s e).edges = s.edges ∧ (intersectEdge s e).done = s.done ∧ (intersectEdge s e).viaAny = s.viaAny := by
  unfold intersectEdge
  split <;> exact ⟨rfl, rfl, rfl⟩

theorem intersect_fold (es : List (Nat × Edge)) (s : State T) :
    Keeps s (es.foldl (fun s e => intersectEdge s e.2) s) ∧
    (es.foldl (fun s e => intersectEdge s e.2) s).edges = s.edges ∧
    (es.foldl (fun s e => intersectEdge s e.2) s).done = s.done ∧
    (es.foldl (fun s e => intersectEdge s e.2) s).viaAny = s.viaAny := by
  induction es generalizing s with
  | nil => exact ⟨Keeps.refl s, rfl, rfl, rfl⟩
  | cons e es ih =>
    obtain ⟨h1, h2, h3, h4⟩ := ih (intersectEdge s e.2)
    obtain ⟨g2, g3, g4⟩ := intersectEdge_rest s e.2
    exact ⟨(keeps_intersectEdge s e.2).trans h1, h2.trans g2, h3.trans g3, h4.trans g4⟩

theorem keeps_upgrade (s : State T) : Keeps s (upgrade s) := by
  intro n sd t h
  show Settled (upgrade1 (s.kn n sd)) t
  rcases h with h | h <;> rw [h]
  · exact Or.inl rfl
  · exact Or.inr rfl

/-- No singletons of inferred types, as `upgrade` leaves it. -/
def NoSingle (s : State T) : Prop := ∀ n sd t, s.kn n sd ≠ .inferred [t]

theorem upgrade_noSingle (s : State T) : NoSingle (upgrade s) := by
  intro n sd t h
  change upgrade1 (s.kn n sd) = _ at h
  generalize s.kn n sd = k at h
  unfold upgrade1 at h
  split at h
  · cases h
  · rename_i hk
    exact hk t h

/-- A type that is only inferred becomes an obligation, which may still be contradicted, never known. -/
theorem upgrade_known (s : State T) {n : Nat} {sd : Side} {t : T} (h : (upgrade s).kn n sd = .known t) : s.kn n sd = .known t := by
  change upgrade1 (s.kn n sd) = _ at h
  generalize s.kn n sd = k at h
  unfold upgrade1 at h
  split at h
  · cases h
  · exact h

theorem firm_of_hasTy {s : State T} (hn : NoSingle s) {n : Nat} {sd : Side} (h : (s.kn n sd).hasTy = true) :
    (s.kn n sd).firm = true := by
  have := hn n sd
  generalize s.kn n sd = k at *
  cases k with
  | known t => rfl
  | obliged t => rfl
  | any => simp [Kn.hasTy] at h
  | inferred ts =>
    simp only [Kn.hasTy, beq_iff_eq] at h
    match ts, h with
    | [t], _ => exact absurd rfl (this t)

/-- What an edge does when types flow over it. -/
inductive Moves (s : State T) (e : Edge) : Nat × Side × Kn T × Bool → Prop
  | fwd (hf : (s.srcKn e).firm = true) (hc : canFlow (s.srcKn e) (s.dstKn e) = .ok ()) :
      Moves s e (e.dst, e.flow.dstSide, s.srcKn e, false)
  | bwd (he : e.flow = .ii) (hu : (s.srcKn e).firm = false) (hf : (s.dstKn e).firm = true)
      (hc : canFlow (s.dstKn e) (s.srcKn e) = .ok ()) : Moves s e (e.src, e.flow.srcSide, s.dstKn e, false)
  | thru (he : e.flow = .ii) (hf : (s.dstKn e).firm = false) (ha : s.srcKn e = .any) :
      Moves s e (e.dst, e.flow.dstSide, .any, true)

theorem flowEdge_moves {s : State T} (hn : NoSingle s) {e : Edge} {r : Nat × Side × Kn T × Bool}
    (h : flowEdge s e = .ok (some r)) : Moves s e r := by
  unfold flowEdge at h
  dsimp only at h
  split at h
  · rename_i hk
    have hf := firm_of_hasTy hn hk
    split at h
    · rename_i hc
      cases h
      exact .fwd hf hc
    · cases h
  · rename_i hk
    have hu : (s.srcKn e).firm = false := by
      cases hx : (s.srcKn e).firm with
      | false => rfl
      | true =>
        obtain ⟨t, ht⟩ := settled_of_firm hx
        exact absurd (hasTy_of_settled ht) hk
    split at h
    · rename_i he
      split at h
      · rename_i hc
        cases h
        have : e.flow.srcSide = .inp := by rw [he.1]; rfl
        rw [← this]
        exact .bwd he.1 hu he.2 hc
      · cases h
    · rename_i hb
      split at h
      · rename_i he
        split at h
        · rename_i hc
          cases h
          have hs : e.flow.dstSide = .inp := by rw [he.1]; rfl
          rw [he.2, ← hs]
          refine .thru he.1 ?_ he.2
          cases hx : (s.dstKn e).firm with
          | false => rfl
          | true => exact absurd ⟨he.1, hx⟩ hb
        · cases h
      · cases h

theorem moves_keeps {s : State T} {e : Edge} {n : Nat} {sd : Side} {k : Kn T} {a : Bool}
    (h : Moves s e (n, sd, k, a)) : Keeps s (s.set n sd k) := by
  cases h with
  | fwd hf hc => exact keeps_set fun t ht => canFlow_settled hc ht
  | bwd he hu hf hc => exact keeps_set fun t ht => canFlow_settled hc ht
  | thru he hf ha =>
    refine keeps_set fun t ht => ?_
    have := firm_of_settled ht
    rw [show (s.kn e.dst e.flow.dstSide).firm = false from hf] at this
    cases this

theorem moves_noSingle {s : State T} (hn : NoSingle s) {e : Edge} {n : Nat} {sd : Side} {k : Kn T} {a : Bool}
    (h : Moves s e (n, sd, k, a)) : NoSingle (s.set n sd k) := by
  intro m sd' t
  rw [set_kn]
  split
  · cases h with
    | fwd hf hc => intro e; rw [e] at hf; cases hf
    | bwd he hu hf hc => intro e; rw [e] at hf; cases hf
    | thru he hf ha => intro e; cases e
  · exact hn m sd' t

theorem moves_agree {s : State T} {e : Edge} {n : Nat} {sd : Side} {k : Kn T}
    (h : Moves s e (n, sd, k, false)) : Agree (s.set n sd k) e := by
  cases h with
  | fwd hf hc =>
    obtain ⟨t, ht⟩ := settled_of_firm hf
    refine ⟨t, moves_keeps (.fwd hf hc) _ _ _ ht, ?_⟩
    show Settled ((s.set _ _ _).kn _ _) t
    rw [set_kn, if_pos ⟨rfl, rfl⟩]
    exact ht
  | bwd he hu hf hc =>
    obtain ⟨t, ht⟩ := settled_of_firm hf
    refine ⟨t, ?_, moves_keeps (.bwd he hu hf hc) _ _ _ ht⟩
    show Settled ((s.set _ _ _).kn _ _) t
    rw [set_kn, if_pos ⟨rfl, rfl⟩]
    exact ht

/-! ### A round -/

theorem mem_todo {s : State T} {i : Nat} {e : Edge} : (i, e) ∈ todo s ↔ s.edges[i]? = some e ∧ i ∉ s.done := by
  unfold todo
  simp only [List.mem_map, List.mem_filter, decide_eq_true_eq, Prod.exists, Prod.mk.injEq]
  constructor
  · rintro ⟨a, b, ⟨h1, h2⟩, rfl, rfl⟩
    exact ⟨List.mk_mem_zipIdx_iff_getElem?.1 h1, h2⟩
  · rintro ⟨h1, h2⟩
    exact ⟨e, i, ⟨List.mk_mem_zipIdx_iff_getElem?.2 h1, h2⟩, rfl, rfl⟩

theorem pending_iff {s : State T} {e : Edge} : Pending s e ↔ ∃ i, (i, e) ∈ todo s := by
  simp only [mem_todo, Pending]

/-- The state after types flowed over an edge. -/
def after (s : State T) (i : Nat) (r : Nat × Side × Kn T × Bool) : State T :=
  { s.set r.1 r.2.1 r.2.2.1 with done := i :: s.done, viaAny := if r.2.2.2 then i :: s.viaAny else s.viaAny }

/-- The flows of a round, one after the other. -/
inductive Flows : State T → List (Nat × Edge) → State T → Bool → Prop
  | nil (s : State T) : Flows s [] s false
  | skip {s s' : State T} {c : Bool} {i : Nat} {e : Edge} {es : List (Nat × Edge)} :
      flowEdge s e = .ok none → Flows s es s' c → Flows s ((i, e) :: es) s' c
  | flow {s s' : State T} {c : Bool} {i : Nat} {e : Edge} {es : List (Nat × Edge)} {r : Nat × Side × Kn T × Bool} :
      flowEdge s e = .ok (some r) → Flows (after s i r) es s' c → Flows s ((i, e) :: es) s' true

theorem flowLoop_flows {es : List (Nat × Edge)} : ∀ {s : State T} {b : Bool} {s' : State T} {b' : Bool},
    flowLoop s b es = .ok (s', b') → ∃ c, Flows s es s' c ∧ b' = (b || c) := by
  induction es with
  | nil => intro s b s' b' h; cases h; exact ⟨false, .nil s, by simp⟩
  | cons x es ih =>
    intro s b s' b' h
    obtain ⟨i, e⟩ := x
    unfold flowLoop at h
    split at h
    · cases h
    · rename_i hf
      obtain ⟨c, hc, rfl⟩ := ih h
      exact ⟨c, .skip hf hc, rfl⟩
    · rename_i n sd k a hf
      obtain ⟨c, hc, rfl⟩ := ih h
      exact ⟨true, .flow hf hc, by simp⟩

theorem flows_keeps {s s' : State T} {es : List (Nat × Edge)} {c : Bool} (h : Flows s es s' c) (hn : NoSingle s) :
    Keeps s s' ∧ NoSingle s' ∧ s'.edges = s.edges := by
  induction h with
  | nil s => exact ⟨Keeps.refl s, hn, rfl⟩
  | skip hf _ ih => exact ih hn
  | flow hf _ ih =>
    have hm := flowEdge_moves hn hf
    have h1 := moves_keeps hm
    obtain ⟨k, n', e⟩ := ih (moves_noSingle hn hm)
    exact ⟨h1.trans k, n', e⟩

theorem agree_keeps {s s' : State T} {e : Edge} (h : Keeps s s') (ha : Agree s e) : Agree s' e := by
  obtain ⟨t, h1, h2⟩ := ha
  exact ⟨t, h _ _ _ h1, h _ _ _ h2⟩

/-- What holds of the edges that are completed: `Any` flowed, input to input, or the ends agree. -/
def Inv (s : State T) : Prop :=
  ∀ i ∈ s.done, ∃ e, s.edges[i]? = some e ∧ ((i ∈ s.viaAny ∧ e.flow = .ii) ∨ Agree s e)

theorem Inv.mono {s s' : State T} (h : Inv s) (hk : Keeps s s') (hd : s'.done = s.done) (hv : s'.viaAny = s.viaAny)
    (he : ∀ (i : Nat) (e : Edge), s.edges[i]? = some e → s'.edges[i]? = some e) : Inv s' := by
  intro i hi
  rw [hd] at hi
  obtain ⟨e, h1, h2⟩ := h i hi
  refine ⟨e, he i e h1, ?_⟩
  rw [hv]
  exact h2.imp_right (agree_keeps hk)

theorem flows_inv {s s' : State T} {es : List (Nat × Edge)} {c : Bool} (h : Flows s es s' c) (hn : NoSingle s)
    (hi : Inv s) (he : ∀ i e, (i, e) ∈ es → s.edges[i]? = some e) : Inv s' := by
  induction h with
  | nil s => exact hi
  | skip hf _ ih => exact ih hn hi fun i e h => he i e (List.mem_cons_of_mem _ h)
  | @flow s s' c i e es r hf _ ih =>
    have hm := flowEdge_moves hn hf
    refine ih (moves_noSingle hn hm) ?_ fun i e h => he i e (List.mem_cons_of_mem _ h)
    intro j hj
    obtain ⟨n, sd, k, a⟩ := r
    have hk := moves_keeps hm
    rcases List.mem_cons.1 hj with rfl | hj
    · refine ⟨e, he _ e List.mem_cons_self, ?_⟩
      cases a with
      | true =>
        refine Or.inl ⟨List.mem_cons_self, ?_⟩
        generalize hr : ((n, sd, k, true) : Nat × Side × Kn T × Bool) = r at hm
        cases hm with
        | fwd => cases hr
        | bwd => cases hr
        | thru he _ _ => exact he
      | false => exact Or.inr (moves_agree hm)
    · obtain ⟨e', h1, h2⟩ := hi j hj
      refine ⟨e', h1, ?_⟩
      rcases h2 with ⟨h2, h3⟩ | h2
      · refine Or.inl ⟨?_, h3⟩
        show j ∈ (if a = true then i :: s.viaAny else s.viaAny)
        split
        · exact List.mem_cons_of_mem _ h2
        · exact h2
      · exact Or.inr (agree_keeps hk h2)

/-- The state before types flow in a round. -/
def ready (s : State T) : State T := upgrade (intersect s)

theorem ready_rest (s : State T) :
    Keeps s (ready s) ∧ NoSingle (ready s) ∧ (ready s).edges = s.edges ∧ (ready s).done = s.done ∧
    (ready s).viaAny = s.viaAny := by
  obtain ⟨h1, h2, h3, h4⟩ := intersect_fold (todo s) s
  exact ⟨h1.trans (keeps_upgrade _), upgrade_noSingle _, h2, h3, h4⟩

theorem todo_ready (s : State T) : todo (ready s) = todo s := by
  obtain ⟨_, _, h2, h3, _⟩ := ready_rest s
  unfold todo
  rw [h2, h3]

/-- A round of resolution that ends well. -/
def Round (s s' : State T) (c : Bool) : Prop := Flows (ready s) (todo s) s' c

theorem round_of {s s' : State T} {c : Bool} (h : flowTypes (upgrade (intersect s)) = .ok (s', c)) : Round s s' c := by
  obtain ⟨c', h1, h2⟩ := flowLoop_flows h
  simp only [Bool.false_or] at h2
  subst h2
  rw [show todo (upgrade (intersect s)) = todo s from todo_ready s] at h1
  exact h1

/-- The rounds of a resolution that ends well. -/
inductive Rounds : State T → State T → Prop
  | last {s s' : State T} : Round s s' false → Rounds s s'
  | more {s m s' : State T} : Round s m true → Rounds m s' → Rounds s s'

theorem rounds_of {f : Nat} : ∀ {s s' : State T}, resolve f s = some (.ok s') → Rounds s s' := by
  induction f with
  | zero => intro s s' h; cases h
  | succ f ih =>
    intro s s' h
    unfold resolve at h
    split at h
    · cases h
    · rename_i m hm
      exact .more (round_of hm) (ih h)
    · rename_i m hm
      cases h
      exact .last (round_of hm)

theorem round_keeps {s s' : State T} {c : Bool} (h : Round s s' c) :
    Keeps s s' ∧ NoSingle s' ∧ s'.edges = s.edges := by
  obtain ⟨k, n, e, _, _⟩ := ready_rest s
  obtain ⟨k', n', e'⟩ := flows_keeps h n
  exact ⟨k.trans k', n', e'.trans e⟩

theorem round_inv {s s' : State T} {c : Bool} (h : Round s s' c) (hi : Inv s) : Inv s' := by
  obtain ⟨k, n, e, d, v⟩ := ready_rest s
  refine flows_inv h n (hi.mono k d v fun i x hx => by rw [e]; exact hx) fun i x hx => ?_
  rw [e]
  exact (mem_todo.1 hx).1

theorem rounds_keeps {s s' : State T} (h : Rounds s s') : Keeps s s' ∧ NoSingle s' ∧ s'.edges = s.edges := by
  induction h with
  | last h => exact round_keeps h
  | more h _ ih =>
    obtain ⟨k, _, e⟩ := round_keeps h
    obtain ⟨k', n', e'⟩ := ih
    exact ⟨k.trans k', n', e'.trans e⟩

theorem rounds_inv {s s' : State T} (h : Rounds s s') (hi : Inv s) : Inv s' := by
  induction h with
  | last h => exact round_inv h hi
  | more h _ ih => exact ih (round_inv h hi)

/-! ### C34: resolution ends -/

theorem todo_length_le (s : State T) : (todo s).length ≤ s.edges.length := by
  unfold todo
  rw [List.length_map]
  exact Nat.le_trans (List.length_filter_le _ _) (by simp)

theorem flows_done {s s' : State T} {es : List (Nat × Edge)} {c : Bool} (h : Flows s es s' c) :
    (∀ i ∈ s.done, i ∈ s'.done) ∧ s'.edges = s.edges ∧ (c = true → ∃ x ∈ es, x.1 ∈ s'.done) := by
  induction h with
  | nil s => exact ⟨fun _ h => h, rfl, fun h => by cases h⟩
  | skip hf _ ih =>
    obtain ⟨h1, h2, h3⟩ := ih
    refine ⟨h1, h2, fun hc => ?_⟩
    obtain ⟨x, hx, hd⟩ := h3 hc
    exact ⟨x, List.mem_cons_of_mem _ hx, hd⟩
  | flow hf _ ih =>
    obtain ⟨h1, h2, h3⟩ := ih
    exact ⟨fun i hi => h1 i (List.mem_cons_of_mem _ hi), h2, fun _ => ⟨_, List.mem_cons_self, h1 _ List.mem_cons_self⟩⟩

theorem filter_shrinks {α : Type} (p q : α → Bool) (l : List α) (h : ∀ x, q x = true → p x = true) :
    (l.filter q).length ≤ (l.filter p).length ∧
    ((∃ x ∈ l, p x = true ∧ q x = false) → (l.filter q).length < (l.filter p).length) := by
  induction l with
  | nil => simp
  | cons a l ih =>
    obtain ⟨h1, h2⟩ := ih
    cases hq : q a with
    | true =>
      have hp := h a hq
      simp only [List.filter_cons, hq, hp, if_true, List.length_cons]
      refine ⟨by omega, ?_⟩
      rintro ⟨x, hx, hx1, hx2⟩
      rcases List.mem_cons.1 hx with rfl | hx
      · rw [hq] at hx2; cases hx2
      · have := h2 ⟨x, hx, hx1, hx2⟩; omega
    | false =>
      cases hp : p a with
      | true =>
        simp only [List.filter_cons, hq, hp, if_true, List.length_cons, Bool.false_eq_true, if_false]
        exact ⟨by omega, fun _ => by omega⟩
      | false =>
        simp only [List.filter_cons, hq, hp, Bool.false_eq_true, if_false]
        refine ⟨h1, ?_⟩
        rintro ⟨x, hx, hx1, hx2⟩
        rcases List.mem_cons.1 hx with rfl | hx
        · rw [hp] at hx1; cases hx1
        · exact h2 ⟨x, hx, hx1, hx2⟩

/-- A round that changes the graph completes an edge. -/
theorem round_shrinks {s s' : State T} (h : Round s s' true) : (todo s').length < (todo s).length := by
  obtain ⟨_, _, e, d, _⟩ := ready_rest s
  obtain ⟨h1, h2, h3⟩ := flows_done h
  obtain ⟨⟨i, x⟩, hx, hd⟩ := h3 rfl
  obtain ⟨hx1, hx2⟩ := mem_todo.1 hx
  unfold todo
  rw [List.length_map, List.length_map, h2, e]
  refine (filter_shrinks _ _ _ ?_).2 ⟨(x, i), List.mk_mem_zipIdx_iff_getElem?.2 hx1, by simpa using hx2, by simpa using hd⟩
  intro y hy
  simp only [decide_eq_true_eq] at hy ⊢
  intro hn
  rw [← d] at hn
  exact hy (h1 _ hn)

theorem resolve_fuel {f : Nat} : ∀ (s : State T), (todo s).length < f → resolve f s ≠ none := by
  induction f with
  | zero => intro s h; omega
  | succ f ih =>
    intro s h
    unfold resolve
    split
    · simp
    · rename_i m hm
      have := round_shrinks (round_of hm)
      exact ih m (by omega)
    · simp

/-- C34: however the graph looks, resolution ends within as many rounds as there are edges, plus one. -/
theorem resolve_ends (s : State T) : ∃ r, resolve (s.edges.length + 1) s = some r := by
  have := resolve_fuel s (f := s.edges.length + 1) (by have := todo_length_le s; omega)
  cases h : resolve (s.edges.length + 1) s with
  | none => exact absurd h this
  | some r => exact ⟨r, rfl⟩

/-- More rounds change nothing. -/
theorem resolve_mono {f : Nat} : ∀ {s : State T} {r : Except (Stop T) (State T)}, resolve f s = some r →
    ∀ g, resolve (f + g) s = some r := by
  induction f with
  | zero => intro s r h; cases h
  | succ f ih =>
    intro s r h g
    rw [show f + 1 + g = (f + g) + 1 by omega]
    unfold resolve at h ⊢
    split at h
    · exact h
    · exact ih h g
    · exact h

/-! ### C33 -/

theorem keeps_setKn {s s' : State T} {n : Nat} {sd : Side} {k : Kn T} (h : setKn s n sd k = .ok s') :
    Keeps s s' ∧ s'.edges = s.edges ∧ s'.done = s.done ∧ s'.viaAny = s.viaAny := by
  unfold setKn at h
  split at h
  · cases h; exact ⟨Keeps.refl _, rfl, rfl, rfl⟩
  · split at h
    · rename_i hc
      cases h
      exact ⟨keeps_set fun t ht => canFlow_settled hc ht, rfl, rfl, rfl⟩
    · cases h

theorem step_keeps {s s' : State T} {o : Op T} (h : step s o = .ok s') :
    Keeps s s' ∧ (Inv s → Inv s') := by
  cases o with
  | resolve =>
    obtain ⟨r, hr⟩ := resolve_ends s
    simp only [step, hr, Option.getD_some] at h
    subst h
    have := rounds_of hr
    exact ⟨(rounds_keeps this).1, rounds_inv this⟩
  | chg c =>
    have quiet : ∀ {s' : State T}, Keeps s s' ∧ s'.edges = s.edges ∧ s'.done = s.done ∧ s'.viaAny = s.viaAny →
        Keeps s s' ∧ (Inv s → Inv s') := fun ⟨h1, h2, h3, h4⟩ =>
      ⟨h1, fun hi => hi.mono h1 h3 h4 fun i e he => by rw [h2]; exact he⟩
    cases c with
    | known n sd t => exact quiet (keeps_setKn h)
    | oblige n sd t => exact quiet (keeps_setKn h)
    | remove n sd t =>
      cases h
      refine quiet ⟨keeps_set fun t' ht => ?_, rfl, rfl, rfl⟩
      rcases ht with h | h <;> rw [h]
      · exact Or.inl rfl
      · exact Or.inr rfl
    | anyInput n =>
      simp only [step, applyChg] at h
      split at h
      · exact quiet (keeps_setKn h)
      · cases h; exact quiet ⟨Keeps.refl _, rfl, rfl, rfl⟩
    | addEdge e =>
      simp only [step, applyChg] at h
      split at h
      · cases h; exact quiet ⟨Keeps.refl _, rfl, rfl, rfl⟩
      · cases h
        refine ⟨Keeps.refl s, fun hi => ?_⟩
        refine Inv.mono (s' := { s with edges := s.edges ++ [e] }) hi (Keeps.refl s) rfl rfl ?_
        intro i x hx
        show (s.edges ++ [e])[i]? = some x
        rw [List.getElem?_append_left (List.getElem?_eq_some_iff.1 hx).1]
        exact hx
    | anonTy t =>
      cases h
      refine quiet ⟨fun n sd t' ht => ?_, rfl, rfl, rfl⟩
      show Settled (addTy t (s.kn n sd)) t'
      rcases ht with h | h <;> rw [h]
      · exact Or.inl rfl
      · exact Or.inr rfl
  | reduce n keys =>
    cases h
    unfold reduceAt
    split
    · rename_i hm
      have : Keeps s (s.set n .inp (.inferred keys)) := by
        refine keeps_set fun t ht => ?_
        rcases ht with h | h <;> rw [h] at hm <;> cases hm
      exact ⟨this, fun hi => hi.mono this rfl rfl fun i e he => he⟩
    · exact ⟨Keeps.refl s, fun hi => hi⟩

theorem run_keeps {os : List (Op T)} : ∀ {s s' : State T}, run s os = .ok s' → Keeps s s' ∧ (Inv s → Inv s') := by
  induction os with
  | nil => intro s s' h; cases h; exact ⟨Keeps.refl s, fun hi => hi⟩
  | cons o os ih =>
    intro s s' h
    unfold run at h
    split at h
    · rename_i m hm
      obtain ⟨k, i⟩ := step_keeps hm
      obtain ⟨k', i'⟩ := ih h
      exact ⟨k.trans k', fun hi => i' (i hi)⟩
    · cases h

/-- C33: whatever is done to a graph, a settled type stays. -/
theorem settled_stays {s s' : State T} {os : List (Op T)} (h : run s os = .ok s') (n : Nat) (sd : Side) (t : T)
    (ht : Settled (s.kn n sd) t) : Settled (s'.kn n sd) t ∧ ∀ u, Settled (s'.kn n sd) u → u = t :=
  ⟨(run_keeps h).1 n sd t ht, fun _ hu => settled_unique hu ((run_keeps h).1 n sd t ht)⟩

/-- C33: whatever is done to a graph, the ends of a completed flow agree, unless `Any` flowed from input to input. -/
theorem flows_agree_partial {s s' : State T} {os : List (Op T)} (h0 : s.done = []) (h : run s os = .ok s')
    (i : Nat) (hi : i ∈ s'.done) :
    ∃ e, s'.edges[i]? = some e ∧ (i ∉ s'.viaAny → Agree s' e) ∧ (e.flow ≠ .ii → Agree s' e) := by
  have : Inv s' := (run_keeps h).2 (by intro j hj; rw [h0] at hj; cases hj)
  obtain ⟨e, h1, h2⟩ := this i hi
  refine ⟨e, h1, fun h3 => ?_, fun h3 => ?_⟩
  · rcases h2 with h2 | h2
    · exact absurd h2.1 h3
    · exact h2
  · rcases h2 with h2 | h2
    · exact absurd h2.2 h3
    · exact h2

/-- A round in which nothing flows. -/
theorem flows_none {s s' : State T} {es : List (Nat × Edge)} (h : Flows s es s' false) :
    s' = s ∧ ∀ x ∈ es, flowEdge s x.2 = .ok none := by
  generalize hc : false = c at h
  induction h with
  | nil s => exact ⟨rfl, fun x hx => by cases hx⟩
  | skip hf _ ih =>
    obtain ⟨h1, h2⟩ := ih hc
    refine ⟨h1, fun x hx => ?_⟩
    rcases List.mem_cons.1 hx with rfl | hx
    · exact hf
    · exact h2 x hx
  | flow => cases hc

theorem rounds_last {s s' : State T} (h : Rounds s s') : ∃ m, Round m s' false := by
  induction h with
  | last h => exact ⟨_, h⟩
  | more _ _ ih => exact ih

theorem idle_edge {s : State T} {e : Edge} (h : flowEdge s e = .ok none) :
    (s.srcKn e).hasTy = false ∧ (e.flow = .ii → (s.dstKn e).firm = false ∧ s.srcKn e ≠ .any) := by
  unfold flowEdge at h
  dsimp only at h
  split at h
  · split at h <;> cases h
  · rename_i hk
    refine ⟨by simpa [State.srcKn] using hk, fun he => ?_⟩
    split at h
    · split at h <;> cases h
    · rename_i hb
      split at h
      · split at h <;> cases h
      · rename_i ha
        exact ⟨by simpa [he, State.dstKn] using hb, fun h => ha ⟨he, h⟩⟩

/-- When resolution succeeds, nothing is left to flow: the type at the source of a pending flow is not settled, and if it
goes from input to input neither is the one at the target. -/
theorem resolved_complete {f : Nat} {s s' : State T} (h : resolve f s = some (.ok s')) {e : Edge} (he : Pending s' e) :
    (∀ t, ¬ Settled (s'.srcKn e) t) ∧ (e.flow = .ii → (∀ t, ¬ Settled (s'.dstKn e) t) ∧ s'.srcKn e ≠ .any) := by
  obtain ⟨m, hm⟩ := rounds_last (rounds_of h)
  obtain ⟨rfl, hall⟩ := flows_none hm
  obtain ⟨i, hi⟩ := pending_iff.1 he
  rw [todo_ready] at hi
  obtain ⟨h1, h2⟩ := idle_edge (hall _ hi)
  refine ⟨fun t ht => ?_, fun hf => ⟨fun t ht => ?_, (h2 hf).2⟩⟩
  · have := hasTy_of_settled ht
    rw [h1] at this; cases this
  · have := firm_of_settled ht
    rw [(h2 hf).1] at this; cases this

theorem flows_viaAny {s s' : State T} {es : List (Nat × Edge)} {c : Bool} (h : Flows s es s' c) (hn : NoSingle s)
    (i : Nat) (hi : i ∈ s'.viaAny) : i ∈ s.viaAny ∨ ∃ e, (i, e) ∈ es ∧ ∀ t, ¬ Settled (s.srcKn e) t := by
  induction h with
  | nil s => exact Or.inl hi
  | skip hf _ ih =>
    rcases ih hn hi with h | ⟨e, h, h'⟩
    · exact Or.inl h
    · exact Or.inr ⟨e, List.mem_cons_of_mem _ h, h'⟩
  | @flow s s' c j e es r hf _ ih =>
    have hm := flowEdge_moves hn hf
    obtain ⟨n, sd, k, a⟩ := r
    rcases ih (moves_noSingle hn hm) hi with h | ⟨e', h, h'⟩
    · change i ∈ (if a = true then j :: s.viaAny else s.viaAny) at h
      cases a with
      | true =>
        rcases List.mem_cons.1 h with rfl | h
        · refine Or.inr ⟨e, List.mem_cons_self, fun t ht => ?_⟩
          generalize hr : ((n, sd, k, true) : Nat × Side × Kn T × Bool) = r at hm
          cases hm with
          | fwd => cases hr
          | bwd => cases hr
          | thru _ _ ha =>
            rw [ha] at ht
            rcases ht with h | h <;> cases h
        · exact Or.inl h
      | false => exact Or.inl h
    · exact Or.inr ⟨e', List.mem_cons_of_mem _ h, fun t ht => h' t (moves_keeps hm _ _ _ ht)⟩

theorem rounds_viaAny {s s' : State T} (h : Rounds s s') (i : Nat) (hi : i ∈ s'.viaAny) :
    i ∈ s.viaAny ∨ ∃ e, s.edges[i]? = some e ∧ ∀ t, ¬ Settled (s.srcKn e) t := by
  have one : ∀ {s s' : State T} {c : Bool}, Round s s' c → i ∈ s'.viaAny →
      i ∈ s.viaAny ∨ ∃ e, s.edges[i]? = some e ∧ ∀ t, ¬ Settled (s.srcKn e) t := by
    intro s s' c h hi
    obtain ⟨k, n, e, d, v⟩ := ready_rest s
    rcases flows_viaAny h n i hi with h | ⟨x, hx, h⟩
    · rw [v] at h; exact Or.inl h
    · exact Or.inr ⟨x, (mem_todo.1 hx).1, fun t ht => h t (k _ _ _ ht)⟩
  induction h with
  | last h => exact one h hi
  | more h _ ih =>
    obtain ⟨k, _, e⟩ := round_keeps h
    rcases ih hi with h' | ⟨x, hx, h'⟩
    · exact one h h'
    · rw [e] at hx
      exact Or.inr ⟨x, hx, fun t ht => h' t (k _ _ _ ht)⟩

/-- C33: a pending flow whose ends are settled with different types makes resolution fail: it is never accepted. -/
theorem disagreement_fails {s : State T} (hv : ∀ i ∈ s.viaAny, i ∈ s.done) (hd : Inv s) {e : Edge} (hp : Pending s e)
    {a b : T} (ha : Settled (s.srcKn e) a) (hb : Settled (s.dstKn e) b) (hab : a ≠ b) :
    ∃ x, resolve (s.edges.length + 1) s = some (.error x) := by
  obtain ⟨r, hr⟩ := resolve_ends s
  cases r with
  | error x => exact ⟨x, hr⟩
  | ok s' =>
    exfalso
    have hR := rounds_of hr
    obtain ⟨k, _, he⟩ := rounds_keeps hR
    obtain ⟨i, hi, hnd⟩ := hp
    have ha' : Settled (s'.srcKn e) a := k _ _ _ ha
    have hb' : Settled (s'.dstKn e) b := k _ _ _ hb
    by_cases hdone : i ∈ s'.done
    · obtain ⟨e', he', h⟩ := rounds_inv hR hd i hdone
      rw [he, hi] at he'
      cases he'
      rcases h with ⟨h, _⟩ | ⟨t, h1, h2⟩
      · rcases rounds_viaAny hR i h with h | ⟨e', he', h⟩
        · exact hnd (hv i h)
        · rw [hi] at he'
          cases he'
          exact h a ha
      · exact hab ((settled_unique ha' h1).trans (settled_unique h2 hb'))
    · exact (resolved_complete hr ⟨i, by rw [he]; exact hi, hdone⟩).1 a ha'

/-! ### C35: what stops resolution -/

/-- Why no type fits both ends. -/
inductive Clash (s : State T) (e : Edge) : Stop T → Prop
  | types {t u : T} {x : Stop T} : t ≠ u → Settled (s.srcKn e) t → Settled (s.dstKn e) u →
      (x = .crash ↔ s.srcKn e = .obliged t ∧ s.dstKn e = .known u) → Clash s e x
  | dst {t : T} {ts : List T} : t ∉ ts → Settled (s.srcKn e) t → s.dstKn e = .inferred ts →
      Clash s e (.conflict (.unmatchedInferred [t] ts))
  | src {t : T} {ts : List T} : t ∉ ts → Settled (s.dstKn e) t → s.srcKn e = .inferred ts →
      Clash s e (.conflict (.unmatchedInferred [t] ts))

theorem flowEdge_error {s : State T} (hn : NoSingle s) {e : Edge} {x : Stop T} (h : flowEdge s e = .error x) :
    Clash s e x := by
  unfold flowEdge at h
  dsimp only at h
  split at h
  · rename_i hk
    have hf := firm_of_hasTy hn hk
    obtain ⟨t, ht⟩ := settled_of_firm hf
    split at h
    · cases h
    · rename_i y hc
      cases h
      have ht0 : Settled (s.srcKn e) t := ht
      cases hd : s.kn e.dst e.flow.dstSide with
      | any => rw [hd] at hc; rcases ht with h | h <;> rw [h] at hc <;> cases hc
      | inferred ts =>
        rw [hd] at hc
        have : t ∉ ts ∧ x = .conflict (.unmatchedInferred [t] ts) := by
          rcases ht with h | h <;> rw [h] at hc <;> simp only [canFlow] at hc <;> split at hc <;> cases hc <;>
            exact ⟨by assumption, rfl⟩
        rw [this.2]
        exact .dst this.1 ht hd
      | known u =>
        rw [hd] at hc
        rcases ht with h | h <;> rw [h] at hc <;> simp only [canFlow] at hc <;> split at hc <;> cases hc
        · refine .types (by assumption) ht0 (Or.inl hd) ⟨fun h => (by cases h), fun h' => ?_⟩
          have := h'.1
          rw [show s.srcKn e = _ from h] at this
          cases this
        · exact .types (by assumption) ht0 (Or.inl hd) ⟨fun _ => ⟨h, hd⟩, fun _ => rfl⟩
      | obliged u =>
        rw [hd] at hc
        have ho : ¬ s.dstKn e = .known u := by rw [show s.dstKn e = _ from hd]; intro h; cases h
        rcases ht with h | h <;> rw [h] at hc <;> simp only [canFlow] at hc <;> split at hc <;> cases hc
        · exact .types (by assumption) ht0 (Or.inr hd) ⟨fun h => (by cases h), fun h' => absurd h'.2 ho⟩
        · exact .types (by assumption) ht0 (Or.inr hd) ⟨fun h => (by cases h), fun h' => absurd h'.2 ho⟩
  · rename_i hk
    split at h
    · rename_i he
      obtain ⟨t, ht⟩ := settled_of_firm he.2
      split at h
      · cases h
      · rename_i y hc
        cases h
        cases hd : s.kn e.src e.flow.srcSide with
        | any => rw [hd] at hc; rcases ht with h | h <;> rw [h] at hc <;> cases hc
        | inferred ts =>
          rw [hd] at hc
          have : t ∉ ts ∧ x = .conflict (.unmatchedInferred [t] ts) := by
            rcases ht with h | h <;> rw [h] at hc <;> simp only [canFlow] at hc <;> split at hc <;> cases hc <;>
              exact ⟨by assumption, rfl⟩
          rw [this.2]
          exact .src this.1 ht hd
        | known u => exact absurd (by rw [hd]; rfl) hk
        | obliged u => exact absurd (by rw [hd]; rfl) hk
    · rename_i hb
      split at h
      · rename_i he
        split at h
        · cases h
        · rename_i y hc
          cases h
          exfalso
          rw [he.2] at hc
          cases hd : s.kn e.dst e.flow.dstSide with
          | any => rw [hd] at hc; cases hc
          | inferred ts => rw [hd] at hc; cases hc
          | known u => exact hb ⟨he.1, by rw [hd]; rfl⟩
          | obliged u => exact hb ⟨he.1, by rw [hd]; rfl⟩
      · cases h

theorem clash_untyped {s : State T} {e : Edge} {x : Stop T} (h : Clash s e x) {σ : Nat → Side → T} (hf : Fits σ s)
    (he : σ e.src e.flow.srcSide = σ e.dst e.flow.dstSide) : False := by
  have settled : ∀ {n sd t}, Settled (s.kn n sd) t → σ n sd = t := by
    intro n sd t ht
    have := hf n sd
    rcases ht with h | h <;> rw [h] at this <;> exact this
  have inf : ∀ {n sd ts}, s.kn n sd = .inferred ts → σ n sd ∈ ts := by
    intro n sd ts h
    have := hf n sd
    rw [h] at this
    exact this
  cases h with
  | types hne h1 h2 _ => exact hne ((settled h1).symm.trans (he.trans (settled h2)))
  | dst hn h1 h2 => exact hn (by rw [← settled h1, he]; exact inf h2)
  | src hn h1 h2 => exact hn (by rw [← settled h1, ← he]; exact inf h2)

theorem flowLoop_error {es : List (Nat × Edge)} : ∀ {s : State T} {b : Bool} {x : Stop T},
    flowLoop s b es = .error x →
    ∃ pre i e post m c, es = pre ++ (i, e) :: post ∧ Flows s pre m c ∧ flowEdge m e = .error x := by
  induction es with
  | nil => intro s b x h; cases h
  | cons y es ih =>
    intro s b x h
    obtain ⟨i, e⟩ := y
    unfold flowLoop at h
    split at h
    · rename_i hf
      cases h
      exact ⟨[], i, e, es, s, false, rfl, .nil s, hf⟩
    · rename_i hf
      obtain ⟨pre, j, e', post, m, c, rfl, hm, hx⟩ := ih h
      exact ⟨(i, e) :: pre, j, e', post, m, c, rfl, .skip hf hm, hx⟩
    · rename_i n sd k a hf
      obtain ⟨pre, j, e', post, m, c, rfl, hm, hx⟩ := ih h
      exact ⟨(i, e) :: pre, j, e', post, m, true, rfl, .flow hf hm, hx⟩

/-! Typings survive resolution -/

theorem fits_set {σ : Nat → Side → T} {s : State T} (hf : Fits σ s) {n : Nat} {sd : Side} {k : Kn T}
    (hk : Allows k (σ n sd)) : Fits σ (s.set n sd k) := by
  intro m sd'
  rw [set_kn]
  split
  · rename_i he
    obtain ⟨rfl, rfl⟩ := he
    exact hk
  · exact hf m sd'

theorem fits_intersectEdge {σ : Nat → Side → T} {s : State T} (hf : Fits σ s) {e : Edge}
    (he : σ e.src e.flow.srcSide = σ e.dst e.flow.dstSide) : Fits σ (intersectEdge s e) := by
  unfold intersectEdge
  split
  · rename_i i hi
    unfold int at hi
    split at hi
    · rename_i a b ha hb
      have h1 := hf e.src e.flow.srcSide
      have h2 := hf e.dst e.flow.dstSide
      rw [ha] at h1
      rw [hb] at h2
      split at hi
      · cases hi
      · cases hi
        refine fits_set (fits_set hf ?_) ?_
        · simp only [Allows] at h1 h2 ⊢
          simp only [List.mem_filter, decide_eq_true_eq]
          exact ⟨h1, by rw [he]; exact h2⟩
        · simp only [Allows] at h1 h2 ⊢
          simp only [List.mem_filter, decide_eq_true_eq]
          exact ⟨by rw [← he]; exact h1, h2⟩
    · cases hi
  · exact hf

theorem fits_fold {σ : Nat → Side → T} (es : List (Nat × Edge)) (he : ∀ x ∈ es,
    σ x.2.src x.2.flow.srcSide = σ x.2.dst x.2.flow.dstSide) {s : State T} (hf : Fits σ s) :
    Fits σ (es.foldl (fun s e => intersectEdge s e.2) s) := by
  induction es generalizing s with
  | nil => exact hf
  | cons x es ih =>
    exact ih (fun y hy => he y (List.mem_cons_of_mem _ hy)) (fits_intersectEdge hf (he x List.mem_cons_self))

theorem fits_upgrade {σ : Nat → Side → T} {s : State T} (hf : Fits σ s) : Fits σ (upgrade s) := by
  intro n sd
  have := hf n sd
  show Allows (upgrade1 (s.kn n sd)) _
  generalize s.kn n sd = k at *
  unfold upgrade1
  split
  · simpa [Allows] using this
  · exact this

theorem fits_firm {σ : Nat → Side → T} {s : State T} (hf : Fits σ s) {n : Nat} {sd : Side} {m : Nat} {sd' : Side}
    (hk : (s.kn n sd).firm = true) (he : σ n sd = σ m sd') : Fits σ (s.set m sd' (s.kn n sd)) := by
  refine fits_set hf ?_
  have := hf n sd
  generalize s.kn n sd = k at *
  cases k with
  | any => trivial
  | inferred ts => cases hk
  | known t => exact he.symm.trans this
  | obliged t => exact he.symm.trans this

theorem fits_flows {σ : Nat → Side → T} {s s' : State T} {es : List (Nat × Edge)} {c : Bool} (h : Flows s es s' c)
    (hn : NoSingle s) (hf : Fits σ s) (he : ∀ x ∈ es, σ x.2.src x.2.flow.srcSide = σ x.2.dst x.2.flow.dstSide) :
    Fits σ s' := by
  induction h with
  | nil s => exact hf
  | skip _ _ ih => exact ih hn hf fun x hx => he x (List.mem_cons_of_mem _ hx)
  | @flow s s' c i e es r hfl _ ih =>
    have hm := flowEdge_moves hn hfl
    have hE := he _ List.mem_cons_self
    refine ih (moves_noSingle hn hm) ?_ fun x hx => he x (List.mem_cons_of_mem _ hx)
    show Fits σ (s.set r.1 r.2.1 r.2.2.1)
    cases hm with
    | fwd h1 _ => exact fits_firm hf h1 hE
    | bwd _ _ h1 _ => exact fits_firm hf h1 hE.symm
    | thru _ _ _ => exact fits_set (k := .any) hf trivial

theorem fits_ready {σ : Nat → Side → T} {s : State T} (h : Typing σ s) : Fits σ (ready s) :=
  fits_upgrade (fits_fold _ (fun x hx => h.2 x.2 (pending_iff.2 ⟨x.1, hx⟩)) h.1)

theorem typing_todo {σ : Nat → Side → T} {s : State T} (h : Typing σ s) :
    ∀ x ∈ todo s, σ x.2.src x.2.flow.srcSide = σ x.2.dst x.2.flow.dstSide :=
  fun x hx => h.2 x.2 (pending_iff.2 ⟨x.1, hx⟩)

theorem typing_round {σ : Nat → Side → T} {s s' : State T} {c : Bool} (h : Round s s' c) (ht : Typing σ s) :
    Typing σ s' := by
  obtain ⟨_, n, e, d, _⟩ := ready_rest s
  refine ⟨fits_flows h n (fits_ready ht) (typing_todo ht), ?_⟩
  rintro x ⟨i, hi, hd⟩
  obtain ⟨h1, h2, _⟩ := flows_done h
  rw [h2, e] at hi
  exact ht.2 x ⟨i, hi, fun hx => hd (h1 i (by rw [d]; exact hx))⟩

/-- The states that resolution goes through, up to the flow over an edge. -/
inductive Passes : State T → State T → Edge → Prop
  | here {s m : State T} {pre post : List (Nat × Edge)} {i : Nat} {e : Edge} {c : Bool} :
      todo s = pre ++ (i, e) :: post → Flows (ready s) pre m c → Passes s m e
  | later {s s' m : State T} {e : Edge} : Round s s' true → Passes s' m e → Passes s m e

theorem resolve_error {f : Nat} : ∀ {s : State T} {x : Stop T}, resolve f s = some (.error x) →
    ∃ m e, Passes s m e ∧ flowEdge m e = .error x := by
  induction f with
  | zero => intro s x h; cases h
  | succ f ih =>
    intro s x h
    unfold resolve at h
    split at h
    · rename_i y hm
      cases h
      obtain ⟨pre, i, e, post, m, c, h1, h2, h3⟩ := flowLoop_error hm
      rw [show todo (upgrade (intersect s)) = todo s from todo_ready s] at h1
      exact ⟨m, e, .here h1 h2, h3⟩
    · rename_i m hm
      obtain ⟨m', e, h1, h2⟩ := ih h
      exact ⟨m', e, .later (round_of hm) h1, h2⟩
    · cases h

theorem passes_keeps {s m : State T} {e : Edge} (h : Passes s m e) :
    Keeps s m ∧ NoSingle m ∧ m.edges = s.edges ∧ e ∈ s.edges ∧
    ∀ σ, Typing σ s → Fits σ m ∧ σ e.src e.flow.srcSide = σ e.dst e.flow.dstSide := by
  induction h with
  | @here s m pre post i e c h1 h2 =>
    obtain ⟨k, n, e', d, _⟩ := ready_rest s
    obtain ⟨k', n', e''⟩ := flows_keeps h2 n
    have hmem : (i, e) ∈ todo s := by rw [h1]; simp
    refine ⟨k.trans k', n', e''.trans e', List.mem_of_getElem? (mem_todo.1 hmem).1, fun σ hσ => ⟨?_, typing_todo hσ _ hmem⟩⟩
    exact fits_flows h2 n (fits_ready hσ) fun x hx => typing_todo hσ x (by rw [h1]; simp [hx])
  | later h _ ih =>
    obtain ⟨k, _, e⟩ := round_keeps h
    obtain ⟨k', n', e', hm, ih⟩ := ih
    exact ⟨k.trans k', n', e'.trans e, by rw [← e]; exact hm, fun σ hσ => ih σ (typing_round h hσ)⟩

/-- C35: resolution of a graph with a consistent typing succeeds, and every consistent typing fits the result. -/
theorem typable_resolves {s : State T} {σ : Nat → Side → T} (h : Typing σ s) :
    ∃ s', resolve (s.edges.length + 1) s = some (.ok s') ∧ Typing σ s' := by
  obtain ⟨r, hr⟩ := resolve_ends s
  cases r with
  | error x =>
    exfalso
    obtain ⟨m, e, hp, hx⟩ := resolve_error hr
    obtain ⟨_, n, _, _, ht⟩ := passes_keeps hp
    obtain ⟨hf, he⟩ := ht σ h
    exact clash_untyped (flowEdge_error n hx) hf he
  | ok s' =>
    refine ⟨s', hr, ?_⟩
    have hR := rounds_of hr
    clear hr
    induction hR with
    | last hr => exact typing_round hr h
    | more hr _ ih => exact ih (typing_round hr h)

/-- The types that resolution settles are the only ones: every consistent typing has them. -/
theorem resolved_forced {s s' : State T} (h : resolve (s.edges.length + 1) s = some (.ok s')) {n : Nat} {sd : Side} {t : T}
    (ht : Settled (s'.kn n sd) t) {σ : Nat → Side → T} (hσ : Typing σ s) : σ n sd = t := by
  obtain ⟨s'', h', hs⟩ := typable_resolves hσ
  rw [h] at h'
  cases h'
  have := hs.1 n sd
  rcases ht with h | h <;> rw [h] at this <;> exact this

/-- C35: the unimplemented case is hit only where an obliged type flows to a different known one. Any other failure is a
conflict. -/
theorem crash_partial {s : State T} {x : Stop T} (h : resolve (s.edges.length + 1) s = some (.error x)) :
    (∃ c, x = .conflict c) ∨
    ∃ m : State T, ∃ e ∈ s.edges, ∃ t u, Keeps s m ∧ m.srcKn e = .obliged t ∧ m.dstKn e = .known u ∧ t ≠ u := by
  obtain ⟨m, e, hp, hx⟩ := resolve_error h
  obtain ⟨k, n, _, hm, _⟩ := passes_keeps hp
  cases x with
  | conflict c => exact Or.inl ⟨c, rfl⟩
  | crash =>
    generalize hy : (Stop.crash : Stop T) = y at hx
    have := flowEdge_error n hx
    cases this with
    | types hne _ _ hi =>
      obtain ⟨h1, h2⟩ := hi.1 hy.symm
      exact Or.inr ⟨m, e, hm, _, _, k, h1, h2, hne⟩
    | dst => cases hy
    | src => cases hy

/-- Changing the graph hits the unimplemented case exactly when a node with a known type is obliged to have another. -/
theorem change_crash_iff (s : State T) (c : Chg T) :
    applyChg s c = .error .crash ↔ ∃ n sd t u, c = .oblige n sd t ∧ s.kn n sd = .known u ∧ t ≠ u := by
  cases c with
  | known n sd t =>
    simp only [applyChg, setKn, reduceCtorEq, false_and, exists_false, iff_false]
    split
    · simp
    · split
      · simp
      · rename_i x hx
        intro h
        cases h
        cases hk : s.kn n sd <;> rw [hk] at hx <;> simp only [canFlow] at hx <;> (try split at hx) <;> cases hx
  | oblige n sd t =>
    simp only [applyChg, setKn]
    constructor
    · intro h
      split at h
      · cases h
      · split at h
        · cases h
        · rename_i x hx
          cases h
          cases hk : s.kn n sd <;> rw [hk] at hx <;> simp only [canFlow] at hx <;> (try split at hx) <;> cases hx
          exact ⟨n, sd, t, _, rfl, hk, by assumption⟩
    · rintro ⟨n', sd', t', u, he, hk, hne⟩
      cases he
      simp [hk, canFlow, hne]
  | remove n sd t => simp [applyChg]
  | anyInput n =>
    simp only [applyChg, setKn, reduceCtorEq, false_and, exists_false, iff_false]
    split
    · rename_i ht
      split
      · simp
      · split
        · simp
        · rename_i x hx
          intro h
          cases h
          cases hk : s.kn n .inp <;> rw [hk] at hx ht <;> simp_all [canFlow, Kn.ty]
    · simp
  | addEdge e => simp [applyChg]
  | anonTy t => simp [applyChg]

/-! ### Witnesses -/

/-- Nothing is known. -/
def blank (es : List Edge) : State Nat := { kn := fun _ _ => .inferred [0, 1, 2], edges := es, done := [], viaAny := [] }

/-- Two nodes in a row: the output of the first is the input of the second. The input of the first flows to its argument,
node 2, and the output of that has to be the type of its input. -/
def sample : State Nat := blank [⟨0, 1, .oi⟩, ⟨0, 2, .ii⟩, ⟨2, 2, .io⟩]

def points : List (Nat × Side) := [(0, .inp), (0, .out), (1, .inp), (1, .out), (2, .inp), (2, .out)]

def look (r : Except (Stop Nat) (State Nat)) : Except (Stop Nat) (List (Kn Nat) × List Nat × List Nat) :=
  r.map fun s => (points.map fun p => s.kn p.1 p.2, s.done, s.viaAny)

example : look (run sample [.chg (.known 0 .inp 1), .resolve, .chg (.oblige 1 .inp 2), .chg (.known 0 .out 2), .resolve]) =
    .ok ([.known 1, .known 2, .known 2, .inferred [0, 1, 2], .known 1, .known 1], [0, 2, 1], []) := by decide +kernel

/-- C33 fails where `Any` flows: two inputs are joined by a completed flow and end up with different types. -/
theorem any_disagrees : look (run (blank [⟨0, 1, .ii⟩])
    [.chg (.anyInput 0), .resolve, .chg (.known 0 .inp 1), .chg (.known 1 .inp 2), .resolve]) =
    .ok ([.known 1, .inferred [0, 1, 2], .known 2, .inferred [0, 1, 2], .inferred [0, 1, 2], .inferred [0, 1, 2]], [0], [0]) := by
  decide +kernel

/-- C35 fails: an obliged type flows to another type that is known. -/
theorem obliged_known_crashes :
    look (run (blank [⟨0, 1, .oi⟩]) [.chg (.oblige 0 .out 1), .chg (.known 1 .inp 2), .resolve]) = .error .crash := by
  decide +kernel

/-- The other way round it is a conflict. -/
theorem known_obliged_conflicts :
    look (run (blank [⟨0, 1, .oi⟩]) [.chg (.known 0 .out 1), .chg (.oblige 1 .inp 2), .resolve]) =
      .error (.conflict (.unmatchedObligation 1 2)) := by
  decide +kernel

/-- `sample` has a typing, before and after something is known. -/
example : Typing (fun _ _ => 1) sample := by
  refine ⟨fun n sd => ?_, fun e _ => rfl⟩
  simp [sample, blank, Allows]

end Verif.Ty
