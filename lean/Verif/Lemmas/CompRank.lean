import Verif.Spec.Comp
import Verif.Props.TyGraph
import Verif.Props.Locals
/-! What goes down while a program is compiled: the types left open, the edges types have not flowed over, the locals not
yet defined. -/
namespace Verif.Comp
open Verif
set_option linter.unusedSectionVars false
variable {T : Type} [DecidableEq T]

/-! ### Sums -/

def total : Nat → (Nat → Nat) → Nat
  | 0, _ => 0
  | n + 1, f => total n f + f n

theorem total_le {f g : Nat → Nat} : ∀ {n : Nat}, (∀ i, i < n → f i ≤ g i) → total n f ≤ total n g
  | 0, _ => Nat.le_refl _
  | n + 1, h => by
    have := total_le (n := n) fun i hi => h i (by omega)
    have := h n (by omega)
    simp only [total]; omega

theorem total_lt {f g : Nat → Nat} : ∀ {n : Nat}, (∀ i, i < n → f i ≤ g i) → ∀ m, m < n → f m < g m → total n f < total n g
  | 0, _, m, hm, _ => by omega
  | n + 1, h, m, hm, hlt => by
    have h1 := total_le (n := n) fun i hi => h i (by omega)
    have h2 := h n (by omega)
    simp only [total]
    by_cases e : m = n
    · subst e; omega
    · have := total_lt (n := n) (fun i hi => h i (by omega)) m (by omega) hlt
      omega

theorem total_bump {f g : Nat → Nat} (m : Nat) (hm : f m ≤ g m + 1) :
    ∀ {n : Nat}, (∀ i, i < n → i ≠ m → f i ≤ g i) → total n f ≤ total n g + 1
  | 0, _ => by simp [total]
  | n + 1, h => by
    simp only [total]
    by_cases e : m = n
    · subst e
      have := total_le (n := m) fun i hi => h i (by omega) (by omega)
      omega
    · have h1 := total_bump m hm (n := n) fun i hi hne => h i (by omega) hne
      have h2 := h n (by omega) (fun e' => e e'.symm)
      omega

/-! ### Ranks -/

/-- How far from settled: `kd` tells whether the point is one that becomes known or one that becomes obliged. -/
def rank (kd : Bool) : Ty.Kn T → Nat
  | .inferred ts => 3 + ts.length
  | .any => 2
  | .known _ => if kd then 0 else 1
  | .obliged _ => if kd then 1 else 0

theorem rank_firm {kd : Bool} {k : Ty.Kn T} (h : k.firm = true) : rank kd k ≤ 1 := by
  cases k <;> simp [Ty.Kn.firm] at h <;> simp only [rank] <;> split <;> omega

theorem rank_multiple {kd : Bool} {k : Ty.Kn T} (h : k.isMultiple = true) : 5 ≤ rank kd k := by
  cases k <;> simp [Ty.Kn.isMultiple] at h
  simp only [rank]; omega

/-- Changing the kind changes a rank by at most one. -/
theorem rank_kind (a b : Bool) (k : Ty.Kn T) : rank a k ≤ rank b k + 1 := by
  cases k <;> simp only [rank] <;> (try split) <;> (try split) <;> omega

/-- Nothing happened at this point, or it is settled now or takes anything, and less open than before. -/
def Good (kd : Bool) (k0 k : Ty.Kn T) : Prop := k = k0 ∨ (rank kd k ≤ 2 ∧ rank kd k < rank kd k0)

theorem Good.le {kd : Bool} {k0 k : Ty.Kn T} (h : Good kd k0 k) : rank kd k ≤ rank kd k0 := by
  rcases h with rfl | ⟨_, h⟩ <;> omega

theorem good_known {kd : Bool} {k0 k : Ty.Kn T} {t : T} (h : Good kd k0 k) (hv : kd = true ∨ k0.isMultiple = true)
    (hc : Ty.canFlow (.known t) k = .ok ()) : Good kd k0 (.known t) ∧ (k ≠ .known t → k0 ≠ .known t) := by
  rcases hv with rfl | hm
  · cases k0 with
    | known u =>
      have : k = .known u := by
        rcases h with h | ⟨_, h⟩
        · exact h
        · simp [rank] at h
      subst this
      have : t = u := by
        simp only [Ty.canFlow] at hc; split at hc
        · assumption
        · cases hc
      subst this
      exact ⟨.inl rfl, fun h => h⟩
    | obliged u => exact ⟨.inr (by simp [rank]), fun _ => by simp⟩
    | any => exact ⟨.inr (by simp [rank]), fun _ => by simp⟩
    | inferred ts => exact ⟨.inr (by simp [rank]; omega), fun _ => by simp⟩
  · have h5 := rank_multiple (kd := kd) hm
    have h1 := rank_firm (kd := kd) (k := Ty.Kn.known t) rfl
    refine ⟨.inr ⟨by omega, by omega⟩, fun _ e => ?_⟩
    subst e; simp [Ty.Kn.isMultiple] at hm

theorem good_obliged {kd : Bool} {k0 k : Ty.Kn T} {t : T} (h : Good kd k0 k) (hv : kd = false ∨ k0.isMultiple = true)
    (hc : Ty.canFlow (.obliged t) k = .ok ()) : Good kd k0 (.obliged t) ∧ (k ≠ .obliged t → k0 ≠ .obliged t) := by
  rcases hv with rfl | hm
  · cases k0 with
    | obliged u =>
      have : k = .obliged u := by
        rcases h with h | ⟨_, h⟩
        · exact h
        · simp [rank] at h
      subst this
      have : t = u := by
        simp only [Ty.canFlow] at hc; split at hc
        · assumption
        · cases hc
      subst this
      exact ⟨.inl rfl, fun h => h⟩
    | known u => exact ⟨.inr (by simp [rank]), fun _ => by simp⟩
    | any => exact ⟨.inr (by simp [rank]), fun _ => by simp⟩
    | inferred ts => exact ⟨.inr (by simp [rank]; omega), fun _ => by simp⟩
  · have h5 := rank_multiple (kd := kd) hm
    have h1 := rank_firm (kd := kd) (k := Ty.Kn.obliged t) rfl
    refine ⟨.inr ⟨by omega, by omega⟩, fun _ e => ?_⟩
    subst e; simp [Ty.Kn.isMultiple] at hm

theorem good_any {kd : Bool} {k0 k : Ty.Kn T} (h : Good kd k0 k) (hn : k.ty = none) (hne : k ≠ .any) :
    Good kd k0 .any ∧ k0 ≠ .any := by
  cases k with
  | any => exact absurd rfl hne
  | known t => simp [Ty.Kn.ty] at hn
  | obliged t => simp [Ty.Kn.ty] at hn
  | inferred ts =>
    rcases h with rfl | ⟨h, _⟩
    · exact ⟨.inr (by simp [rank]; omega), by simp⟩
    · simp [rank] at h; omega

/-! ### Edges -/

def allEdges (n : Nat) : List Ty.Edge :=
  (List.range n).flatMap fun a => (List.range n).flatMap fun b => [⟨a, b, .oi⟩, ⟨a, b, .ii⟩, ⟨a, b, .oo⟩, ⟨a, b, .io⟩]

theorem mem_allEdges {n : Nat} {e : Ty.Edge} (h1 : e.src < n) (h2 : e.dst < n) : e ∈ allEdges n := by
  obtain ⟨a, b, f⟩ := e
  simp only [allEdges, List.mem_flatMap, List.mem_range]
  refine ⟨a, h1, b, h2, ?_⟩
  cases f <;> simp

/-- Edges not completed count two, edges not added three. -/
def edgeM (n : Nat) (g : Ty.State T) : Nat :=
  2 * (Ty.todo g).length + 3 * ((allEdges n).filter fun e => e ∉ g.edges).length

theorem todo_append (g : Ty.State T) (e : Ty.Edge) :
    (Ty.todo { g with edges := g.edges ++ [e] }).length ≤ (Ty.todo g).length + 1 := by
  simp only [Ty.todo, List.length_map, List.zipIdx_append, List.filter_append, List.length_append]
  refine Nat.add_le_add_left (Nat.le_trans (List.length_filter_le _ _) ?_) _
  simp

theorem edgeM_append {n : Nat} {g : Ty.State T} {e : Ty.Edge} (h1 : e.src < n) (h2 : e.dst < n) (h : e ∉ g.edges) :
    edgeM n { g with edges := g.edges ++ [e] } < edgeM n g := by
  have ht := todo_append g e
  have := (Ty.filter_shrinks (fun x => decide (x ∉ g.edges)) (fun x => decide (x ∉ g.edges ++ [e])) (allEdges n)
    (by intro x hx; simp only [decide_eq_true_eq] at *; exact fun h => hx (List.mem_append_left _ h))).2
    ⟨e, mem_allEdges h1 h2, by simpa using h, by simp⟩
  simp only [edgeM]
  omega

theorem edgeM_congr {n : Nat} {g g' : Ty.State T} (h1 : g'.edges = g.edges) (h2 : g'.done = g.done) :
    edgeM n g' = edgeM n g := by
  simp only [edgeM, Ty.todo, h1, h2]

/-! ### Resolution -/

/-- The types left open in a graph. -/
def rankSum (kd : Nat → Ty.Side → Bool) (n : Nat) (g : Ty.State T) : Nat :=
  total n fun i => rank (kd i .inp) (g.kn i .inp) + rank (kd i .out) (g.kn i .out)

theorem rankSum_le {kd : Nat → Ty.Side → Bool} {n : Nat} {g g' : Ty.State T}
    (h : ∀ i, i < n → ∀ sd, rank (kd i sd) (g'.kn i sd) ≤ rank (kd i sd) (g.kn i sd)) : rankSum kd n g' ≤ rankSum kd n g := by
  refine total_le fun i hi => ?_
  have := h i hi .inp; have := h i hi .out; omega

def Sets (g : Ty.State T) : Prop := ∀ n sd ts, g.kn n sd = .inferred ts → ts.Nodup

theorem filter_sub_length {a b : List T} (ha : a.Nodup) : (a.filter (· ∈ b)).length ≤ b.length := by
  have h1 : (a.filter (· ∈ b)).Nodup := List.Pairwise.filter _ ha
  have h2 : ∀ x ∈ a.filter (· ∈ b), x ∈ b := by intro x hx; simp at hx; exact hx.2
  generalize a.filter (· ∈ b) = c at *
  clear ha
  induction c generalizing b with
  | nil => simp
  | cons x c ih =>
    have hx := h2 x (by simp)
    obtain ⟨hn, hc⟩ := List.nodup_cons.1 h1
    have := ih (b := b.erase x) hc fun y hy => by
      have hyx : y ≠ x := fun e => hn (e ▸ hy)
      exact (List.mem_erase_of_ne hyx).2 (h2 y (by simp [hy]))
    rw [List.length_erase_of_mem hx] at this
    have : 0 < b.length := List.length_pos_of_mem hx
    simp only [List.length_cons]; omega

theorem intersectEdge_rank {g : Ty.State T} (hs : Sets g) (e : Ty.Edge) (kd : Bool) (n : Nat) (sd : Ty.Side) :
    rank kd ((Ty.intersectEdge g e).kn n sd) ≤ rank kd (g.kn n sd) ∧ Sets (Ty.intersectEdge g e) := by
  unfold Ty.intersectEdge
  split
  · rename_i i hi
    unfold Ty.int at hi
    split at hi
    · rename_i a b h1 h2
      split at hi
      · cases hi
      · cases hi
        have hna := hs _ _ _ h1
        have hl1 : (a.filter (· ∈ b)).length ≤ a.length := List.length_filter_le _ _
        have hl2 := filter_sub_length (b := b) hna
        constructor
        · rw [Ty.set_kn]
          split
          · rename_i he
            obtain ⟨rfl, rfl⟩ := he
            rw [h2]; simp only [rank]; omega
          · rw [Ty.set_kn]
            split
            · rename_i he
              obtain ⟨rfl, rfl⟩ := he
              rw [h1]; simp only [rank]; omega
            · exact Nat.le_refl _
        · intro m sd' ts h
          rw [Ty.set_kn] at h
          split at h
          · cases h; exact List.Pairwise.filter _ hna
          · rw [Ty.set_kn] at h
            split at h
            · cases h; exact List.Pairwise.filter _ hna
            · exact hs _ _ _ h
    · cases hi
  · exact ⟨Nat.le_refl _, hs⟩

theorem intersect_rank {g : Ty.State T} (hs : Sets g) (kd : Bool) (n : Nat) (sd : Ty.Side) :
    rank kd ((Ty.intersect g).kn n sd) ≤ rank kd (g.kn n sd) ∧ Sets (Ty.intersect g) := by
  unfold Ty.intersect
  generalize Ty.todo g = es
  induction es generalizing g with
  | nil => exact ⟨Nat.le_refl _, hs⟩
  | cons e es ih =>
    obtain ⟨h1, h2⟩ := intersectEdge_rank hs e.2 kd n sd
    obtain ⟨h3, h4⟩ := ih h2
    exact ⟨Nat.le_trans h3 h1, h4⟩

theorem upgrade1_rank (kd : Bool) (k : Ty.Kn T) : rank kd (Ty.upgrade1 k) ≤ rank kd k := by
  unfold Ty.upgrade1
  split
  · simp only [rank]; split <;> omega
  · exact Nat.le_refl _

theorem ready_rank {g : Ty.State T} (hs : Sets g) (kd : Bool) (n : Nat) (sd : Ty.Side) :
    rank kd ((Ty.ready g).kn n sd) ≤ rank kd (g.kn n sd) ∧ Sets (Ty.ready g) := by
  obtain ⟨h1, h2⟩ := intersect_rank hs kd n sd
  refine ⟨Nat.le_trans (upgrade1_rank _ _) h1, ?_⟩
  intro m sd' ts h
  change Ty.upgrade1 _ = _ at h
  unfold Ty.upgrade1 at h
  split at h
  · cases h
  · exact h2 _ _ _ h

/-- A flow leaves a firm point or `Any` behind. -/
theorem moves_rank {g : Ty.State T} {e : Ty.Edge} {n : Nat} {sd : Ty.Side} {k : Ty.Kn T} {a : Bool}
    (h : Ty.Moves g e (n, sd, k, a)) (kd : Bool) :
    rank kd k ≤ rank kd (g.kn n sd) + 1 ∧ ∀ ts, k ≠ .inferred ts := by
  cases h with
  | fwd hf hc =>
    refine ⟨by have := rank_firm (kd := kd) hf; omega, fun ts e => ?_⟩
    rw [e] at hf; cases hf
  | bwd he hu hf hc =>
    refine ⟨by have := rank_firm (kd := kd) hf; omega, fun ts e => ?_⟩
    rw [e] at hf; cases hf
  | thru he hf ha =>
    refine ⟨?_, fun ts e => by cases e⟩
    change (g.kn _ _).firm = false at hf
    have : rank kd (Ty.Kn.any : Ty.Kn T) ≤ rank kd (g.kn e.dst e.flow.dstSide) := by
      cases hk : g.kn e.dst e.flow.dstSide <;> rw [hk] at hf <;> simp [Ty.Kn.firm] at hf <;> simp [rank]
      omega
    exact Nat.le_trans this (Nat.le_succ _)

theorem sets_set {g : Ty.State T} (hs : Sets g) {n : Nat} {sd : Ty.Side} {k : Ty.Kn T} (hk : ∀ ts, k = .inferred ts → ts.Nodup) :
    Sets (g.set n sd k) := by
  intro m sd' ts h
  rw [Ty.set_kn] at h
  split at h
  · exact hk _ h
  · exact hs _ _ _ h

theorem todo_done (g : Ty.State T) (i : Nat) (e : Ty.Edge) (h : (i, e) ∈ Ty.todo g) (r : Nat × Ty.Side × Ty.Kn T × Bool) :
    (Ty.todo (Ty.after g i r)).length < (Ty.todo g).length := by
  obtain ⟨h1, h2⟩ := Ty.mem_todo.1 h
  simp only [Ty.todo, List.length_map, Ty.after, Ty.State.set]
  refine (Ty.filter_shrinks _ _ _ ?_).2 ⟨(e, i), List.mk_mem_zipIdx_iff_getElem?.2 h1, by simpa using h2, by simp⟩
  intro x hx
  simp only [decide_eq_true_eq, List.mem_cons, not_or] at *
  exact hx.2

theorem rankSum_set {kd : Nat → Ty.Side → Bool} {n : Nat} {g : Ty.State T} {m : Nat} {sd : Ty.Side} {k : Ty.Kn T}
    (h : rank (kd m sd) k ≤ rank (kd m sd) (g.kn m sd) + 1) : rankSum kd n (g.set m sd k) ≤ rankSum kd n g + 1 := by
  refine total_bump m ?_ fun i _ hne => ?_
  · cases sd <;> simp only [Ty.set_kn] <;> simp <;> omega
  · simp [Ty.set_kn, hne]

theorem flows_rank {kd : Nat → Ty.Side → Bool} {n : Nat} {g g' : Ty.State T} {es : List (Nat × Ty.Edge)} {c : Bool}
    (h : Ty.Flows g es g' c) (hn : Ty.NoSingle g) (hs : Sets g) (he : ∀ x ∈ es, x ∈ Ty.todo g)
    (hd : (es.map (·.1)).Nodup) :
    rankSum kd n g' + edgeM n g' ≤ rankSum kd n g + edgeM n g ∧ Sets g' := by
  induction h with
  | nil g => exact ⟨Nat.le_refl _, hs⟩
  | skip hf _ ih =>
    exact ih hn hs (fun x hx => he x (List.mem_cons_of_mem _ hx)) (List.nodup_cons.1 hd).2
  | @flow g g' c i e es r hf _ ih =>
    have hm := Ty.flowEdge_moves hn hf
    obtain ⟨m, sd, k, a⟩ := r
    obtain ⟨hr, hk⟩ := moves_rank hm (kd m sd)
    obtain ⟨hi, hd'⟩ := List.nodup_cons.1 hd
    have hn' : Ty.NoSingle (Ty.after g i (m, sd, k, a)) := Ty.moves_noSingle hn hm
    have hs' : Sets (Ty.after g i (m, sd, k, a)) := sets_set hs fun ts e => absurd e (hk ts)
    have ht := todo_done g i e (he _ (by simp)) (m, sd, k, a)
    obtain ⟨h1, h2⟩ := ih hn' hs' (fun x hx => by
      obtain ⟨x1, x2⟩ := x
      obtain ⟨h1, h2⟩ := Ty.mem_todo.1 (he _ (List.mem_cons_of_mem _ hx))
      refine Ty.mem_todo.2 ⟨h1, ?_⟩
      show x1 ∉ i :: g.done
      simp only [List.mem_cons, not_or]
      refine ⟨fun e => hi ?_, h2⟩
      exact List.mem_map.2 ⟨(x1, x2), hx, e⟩) hd'
    refine ⟨Nat.le_trans h1 ?_, h2⟩
    have h3 : rankSum kd n (Ty.after g i (m, sd, k, a)) ≤ rankSum kd n g + 1 := rankSum_set (n := n) hr
    have h4 : edgeM n (Ty.after g i (m, sd, k, a)) + 2 ≤ edgeM n g := by
      simp only [edgeM]
      have : (Ty.after g i (m, sd, k, a)).edges = g.edges := rfl
      rw [this]; omega
    omega

theorem todo_nodup (g : Ty.State T) : ((Ty.todo g).map (·.1)).Nodup := by
  unfold Ty.todo
  rw [List.map_map]
  have : ((fun x : Nat × Ty.Edge => x.1) ∘ fun x : Ty.Edge × Nat => (x.2, x.1)) = fun x => x.2 := rfl
  rw [this]
  have h : (g.edges.zipIdx.map fun x => x.2).Nodup := by
    have := List.zipIdx_map_snd 0 g.edges
    simp only [show (fun x : Ty.Edge × Nat => x.2) = Prod.snd from rfl, this]
    exact List.nodup_range'
  exact List.Sublist.nodup (List.Sublist.map _ List.filter_sublist) h

theorem rounds_rank {kd : Nat → Ty.Side → Bool} {n : Nat} {g g' : Ty.State T} (h : Ty.Rounds g g') (hs : Sets g) :
    rankSum kd n g' + edgeM n g' ≤ rankSum kd n g + edgeM n g ∧ Sets g' := by
  have one : ∀ {g g' : Ty.State T} {c : Bool}, Ty.Round g g' c → Sets g →
      rankSum kd n g' + edgeM n g' ≤ rankSum kd n g + edgeM n g ∧ Sets g' := by
    intro g g' c h hs
    obtain ⟨_, hn, he, hd, _⟩ := Ty.ready_rest g
    obtain ⟨h1, h2⟩ := flows_rank (kd := kd) (n := n) h hn (ready_rank hs false 0 .inp).2
      (fun x hx => by rw [Ty.todo_ready]; exact hx) (todo_nodup g)
    refine ⟨Nat.le_trans h1 ?_, h2⟩
    rw [edgeM_congr he hd]
    exact Nat.add_le_add_right (rankSum_le fun i _ sd => (ready_rank hs _ i sd).1) _
  induction h with
  | last h => exact one h hs
  | more h _ ih =>
    obtain ⟨h1, h2⟩ := one h hs
    obtain ⟨h3, h4⟩ := ih h2
    exact ⟨Nat.le_trans h3 h1, h4⟩

end Verif.Comp
