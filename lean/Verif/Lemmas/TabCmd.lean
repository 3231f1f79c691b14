import Verif.Lemmas.TabGrp
/-! Lemmas on single commands. -/
namespace Verif.Tab
variable {N : Type}

theorem columns_iff (t : Rows N) : ∀ (names : List (Res String)) (cs : List Nat),
    resolveIndices t names = .ok cs ↔ ∃ ns, names = ns.map .ok ∧ Columns t ns cs := by
  intro names
  induction names with
  | nil =>
    intro cs
    constructor
    · intro h; cases h; exact ⟨[], rfl, trivial⟩
    · rintro ⟨ns, h, hc⟩
      cases ns with
      | nil => cases cs with
        | nil => rfl
        | cons c cs => exact hc.elim
      | cons => cases h
  | cons n names ih =>
    intro cs
    unfold resolveIndices
    constructor
    · intro h
      cases n with
      | error => cases h
      | ok name =>
        simp only [Except.bind] at h
        cases hc : colIdx t name with
        | error e => rw [hc] at h; cases h
        | ok c =>
          rw [hc] at h
          simp only [liftErr] at h
          cases hr : resolveIndices t names with
          | error e => rw [hr] at h; cases h
          | ok cs' =>
            rw [hr] at h; cases h
            obtain ⟨ns, rfl, hcs⟩ := (ih cs').1 hr
            exact ⟨name :: ns, rfl, (colIdx_ok t name c).1 hc, hcs⟩
    · rintro ⟨ns, h, hc⟩
      cases ns with
      | nil => cases h
      | cons n' ns =>
        cases h
        cases cs with
        | nil => exact hc.elim
        | cons c cs =>
          have h1 := (colIdx_ok t n' c).2 hc.1
          have h2 := (ih cs).2 ⟨ns, rfl, hc.2⟩
          simp only [Except.bind, h1, liftErr, h2]
          rfl

theorem columns_lt {t : Rows N} : ∀ {ns : List String} {cs : List Nat}, Columns t ns cs → ∀ c ∈ cs, c < width t := by
  intro ns
  induction ns with
  | nil => intro cs h c hc; cases cs with
    | nil => cases hc
    | cons => exact h.elim
  | cons n ns ih => intro cs h c hc; cases cs with
    | nil => cases hc
    | cons c' cs =>
      rcases List.mem_cons.1 hc with rfl | hc
      · exact colIdx_lt ((colIdx_ok t n c).2 h.1)
      · exact ih h.2 c hc

theorem columns_length {t : Rows N} : ∀ {ns : List String} {cs : List Nat}, Columns t ns cs → cs.length = ns.length := by
  intro ns
  induction ns with
  | nil => intro cs h; cases cs with
    | nil => rfl
    | cons => exact h.elim
  | cons n ns ih => intro cs h; cases cs with
    | nil => exact h.elim
    | cons c' cs => simp [ih h.2]

theorem resolve_no_panic (t : Rows N) (names : List (Res String)) (h : ∀ n ∈ names, n ≠ .error .panic) :
    resolveIndices t names ≠ .error .panic := by
  induction names with
  | nil => intro h; cases h
  | cons n names ih =>
    unfold resolveIndices
    intro hp
    cases n with
    | error e => cases e with
      | err e => cases hp
      | panic => exact h _ (by simp) rfl
    | ok name =>
      simp only [Except.bind] at hp
      cases hc : colIdx t name with
      | error e => rw [hc] at hp; cases hp
      | ok c =>
        rw [hc] at hp
        simp only [liftErr] at hp
        cases hr : resolveIndices t names with
        | error e => rw [hr] at hp; cases hp; exact ih (fun n hn => h n (by simp [hn])) hr
        | ok cs' => rw [hr] at hp; cases hp

/-! ### sequence -/

theorem sequence_ok {α : Type} : ∀ {l : List (Res α)} {out : List α}, sequence l = .ok out ↔ l = out.map .ok := by
  intro l
  induction l with
  | nil => intro out; constructor
           · intro h; cases h; rfl
           · intro h; cases out with
             | nil => rfl
             | cons => cases h
  | cons a l ih =>
    intro out
    unfold sequence
    constructor
    · intro h
      cases a with
      | error => cases h
      | ok a =>
        simp only [Except.bind] at h
        cases hl : sequence l with
        | error => rw [hl] at h; cases h
        | ok o => rw [hl] at h; cases h; simp [ih.1 hl]
    · intro h
      cases out with
      | nil => cases h
      | cons o out =>
        simp only [List.map_cons, List.cons.injEq] at h
        obtain ⟨rfl, h⟩ := h
        simp only [Except.bind, ih.2 h]; rfl

theorem sequence_error {α : Type} {l : List (Res α)} {b : Bad} (h : sequence l = .error b) : .error b ∈ l := by
  induction l with
  | nil => cases h
  | cons a l ih =>
    unfold sequence at h
    cases a with
    | error e => cases h; simp
    | ok a =>
      simp only [Except.bind] at h
      cases hl : sequence l with
      | error e => rw [hl] at h; cases h; exact List.mem_cons_of_mem _ (ih hl)
      | ok o => rw [hl] at h; cases h

/-! ### filter --cols -/

theorem sel_append {α : Type} (q : Nat → Bool) (a b : List α) : sel q (a ++ b) = sel q a ++ sel (fun i => q (i + a.length)) b := by
  unfold sel
  rw [List.zipIdx_append, List.filter_append, List.map_append]
  congr 1
  rw [Nat.zero_add]
  have : b.zipIdx a.length = b.zipIdx.map (fun x => (x.1, x.2 + a.length)) := by
    apply List.ext_getElem?
    intro i
    rw [List.getElem?_map, List.getElem?_zipIdx, List.getElem?_zipIdx]
    cases b[i]? <;> simp [Nat.add_comm]
  rw [this, List.filter_map, List.map_map]; rfl

theorem sel_all {α : Type} {q : Nat → Bool} {a : List α} (h : ∀ i, i < a.length → q i = true) : sel q a = a := by
  unfold sel
  rw [List.filter_eq_self.2]
  · exact List.zipIdx_map_fst _ _
  · intro x hx; have := List.mem_zipIdx hx; exact h x.2 (by omega)

theorem sel_congr {α : Type} {q q' : Nat → Bool} {a : List α} (h : ∀ i, i < a.length → q i = q' i) : sel q a = sel q' a := by
  unfold sel
  congr 1
  apply List.filter_congr
  intro x hx; have := List.mem_zipIdx hx; exact h x.2 (by omega)

theorem sel_split {α : Type} (q : Nat → Bool) (r : List α) (i : Nat) (hi : i < r.length) :
    sel (fun c => decide (c < i + 1) || q c) r = r.take i ++ r[i] :: sel (fun c => q (c + (i + 1))) (r.drop (i + 1)) ∧
    sel (fun c => decide (c < i) || q c) r = r.take i ++ (if q i then [r[i]] else []) ++ sel (fun c => q (c + (i + 1))) (r.drop (i + 1)) := by
  have e : r = (r.take i ++ [r[i]]) ++ r.drop (i + 1) := by simp
  have hl : (r.take i).length = i := by simp; omega
  have hl' : (r.take i ++ [r[i]]).length = i + 1 := by simp; omega
  constructor
  · conv => lhs; rw [e]
    rw [sel_append, hl', sel_all (a := r.take i ++ [r[i]])]
    · simp only [List.append_assoc, List.cons_append, List.nil_append]
      congr 2
      apply sel_congr; intro j _
      have : ¬ j + (i + 1) < i + 1 := by omega
      simp [this]
    · intro j hj; rw [hl'] at hj; simp [hj]
  · conv => lhs; rw [e]
    rw [sel_append, hl', sel_append, hl, sel_all (a := r.take i)]
    · congr 1
      · congr 1
        unfold sel
        simp only [List.zipIdx_cons, List.zipIdx_nil, List.filter_cons, Nat.zero_add, List.filter_nil]
        cases q i <;> simp
      · apply sel_congr; intro j _
        have : ¬ j + (i + 1) < i := by omega
        simp [this]
    · intro j hj; rw [hl] at hj; simp [hj]

theorem filterCols_norm {t : Rows N} (ht : Rect t) (q : Nat → Bool) (i : Nat) (hi : i < width t) :
    norm (t.map (sel fun c => decide (c < i + 1) || q c)) = t.map (sel fun c => decide (c < i + 1) || q c) := by
  have rlen : ∀ r ∈ t, i < r.length := by intro r hr; have := (ht.len hr).1; omega
  cases t with
  | nil => rfl
  | cons a d =>
    unfold norm; rw [if_neg]
    have := (sel_split q a i (rlen a (by simp))).1
    simp only [List.map_cons, width, this, List.length_append, List.length_cons]; omega

theorem filterCols_head {t : Rows N} (ht : Rect t) (q : Nat → Bool) (i : Nat) (hi : i < width t) :
    (col (norm (t.map (sel fun c => decide (c < i + 1) || q c))) i).bind (·.head?) = t[0]?.bind (·[i]?) := by
  have rlen : ∀ r ∈ t, i < r.length := by intro r hr; have := (ht.len hr).1; omega
  rw [filterCols_norm ht q i hi]
  cases t with
  | nil => rfl
  | cons a d =>
    have hr := rlen a (by simp)
    have := (sel_split q a i hr).1
    have e : (sel (fun c => decide (c < i + 1) || q c) a)[i]? = a[i]? := by
      rw [this, List.getElem?_append_right (by simp; omega), List.getElem?_eq_getElem hr]
      have : i - (List.take i a).length = 0 := by simp; omega
      rw [this]; rfl
    unfold col
    rw [if_pos]
    · simp only [List.map_cons, Option.bind_some, List.head?_cons, List.getElem?_cons_zero]
      unfold at_
      rw [e, List.getElem?_eq_getElem hr]; rfl
    · simp only [List.map_cons, width, this, List.length_append, List.length_cons, List.length_take]; omega

theorem filterCols_step {t : Rows N} (ht : Rect t) (q : Nat → Bool) (i : Nat) (hi : i < width t) :
    (if q i = true then norm (t.map (sel fun c => decide (c < i + 1) || q c))
      else removeCol (norm (t.map (sel fun c => decide (c < i + 1) || q c))) i) = norm (t.map (sel fun c => decide (c < i) || q c)) := by
  have rlen : ∀ r ∈ t, i < r.length := by intro r hr; have := (ht.len hr).1; omega
  rw [filterCols_norm ht q i hi]
  cases hq : q i with
  | true =>
    rw [if_pos rfl]
    have e : t.map (sel fun c => decide (c < i) || q c) = t.map (sel fun c => decide (c < i + 1) || q c) := by
      apply List.map_congr_left
      intro r hr
      have := sel_split q r i (rlen r hr)
      rw [this.1, this.2, if_pos hq, List.append_assoc]; rfl
    rw [e, filterCols_norm ht q i hi]
  | false =>
    rw [if_neg (by decide)]
    unfold removeCol
    rw [List.map_map]
    congr 1
    apply List.map_congr_left
    intro r hr
    have := sel_split q r i (rlen r hr)
    simp only [Function.comp]
    rw [this.1, this.2, hq, List.eraseIdx_append_of_length_le (by simp; omega)]
    have : i - (List.take i r).length = 0 := by have := rlen r hr; simp; omega
    rw [this]; simp

theorem filterColsLoop_spec {t : Rows N} (ht : Rect t) (p : String → Res Bool) (q : Nat → Bool) : ∀ (i : Nat), i ≤ width t →
    (∀ c, c < i → p (headerText (t[0]?.bind (·[c]?))) = .ok (q c)) →
    filterColsLoop p i (norm (t.map (sel fun c => decide (c < i) || q c))) = .ok (norm (t.map (sel q))) := by
  intro i
  induction i with
  | zero => intro _ _; unfold filterColsLoop; simp
  | succ i ih =>
    intro hi hp
    unfold filterColsLoop
    rw [filterCols_head ht q i (by omega), hp i (by omega)]
    simp only [Except.bind]
    rw [filterCols_step ht q i (by omega)]
    exact ih (by omega) (fun c hc => hp c (by omega))

end Verif.Tab

namespace Verif.Tab
variable {N : Type}

/-! ### sort-by -/

theorem parStep_length {W T : Type} (f : W → Nat → T → Res T × W) (p : Par W T) (s : Nat × Nat) : (parStep f p s).buf.length = p.buf.length := by
  unfold parStep
  split
  · rfl
  · dsimp only
    split
    · simp
    · rfl
    · rfl

theorem parOver_length {W T : Type} {f : W → Nat → T → Res T × W} {init : W} {buf out : List T} {sched : Sched}
    (h : parOver f init buf sched = .ok out) : out.length = buf.length := by
  have : ∀ (l : Sched) (p : Par W T), (l.foldl (parStep f) p).buf.length = p.buf.length := by
    intro l
    induction l with
    | nil => intro p; rfl
    | cons s l ih => intro p; rw [List.foldl_cons, ih, parStep_length]
  unfold parOver at h
  dsimp only at h
  split at h
  · cases h
  · split at h
    · cases h
    · cases h; exact this _ _

theorem reorderOwned_eq (t : Rows N) : ∀ (is : List Nat) (t' : Rows N), is.Nodup → (∀ i ∈ is, t'[i]? = t[i]? ∧ i < t.length) →
    reorderOwned is t' = .ok (is.map fun i => t[i]?.getD []) := by
  intro is
  induction is with
  | nil => intro t' _ _; rfl
  | cons i is ih =>
    intro t' hn h
    have hi := h i (by simp)
    have e : t[i]? = some t[i] := List.getElem?_eq_getElem hi.2
    have hn' := List.nodup_cons.1 hn
    unfold reorderOwned
    rw [hi.1, e]
    simp only
    rw [ih (t'.set i []) hn'.2]
    · simp [Except.map, e]
    · intro j hj
      have hne : i ≠ j := fun e => hn'.1 (e ▸ hj)
      rw [List.getElem?_set_ne hne]
      exact h j (by simp [hj])

theorem reorderShared_eq (t : Rows N) (is : List Nat) (h : ∀ i ∈ is, i < t.length) :
    reorderShared is t = .ok (is.map fun i => t[i]?.getD []) := by
  unfold reorderShared
  rw [sequence_ok, List.map_map]
  apply List.map_congr_left
  intro i hi
  have hi := h i hi
  have e : t[i]? = some t[i] := List.getElem?_eq_getElem hi
  simp [e]

/-- The row numbers that come out of the sort. -/
theorem sortValues_idx {V : Type} {cmp : V → V → Res Ordering} {probe : List (Nat × V) → List (V × V)} {vs : List V} {l : List (Nat × V)}
    (h : sortValues cmp probe (vs.zipIdx.map fun x => (x.2, x.1)) = .ok l) :
    (l.map (·.1)).Perm (List.range vs.length) := by
  have hperm : l.Perm (vs.zipIdx.map fun x => (x.2, x.1)) := by
    generalize hL : (vs.zipIdx.map fun x => (x.2, x.1)) = L at h
    unfold sortValues at h
    split at h
    · cases h
    · split at h
      · cases h
      · cases h; exact (List.mergeSort_perm _ _).cons _
  have := hperm.map (·.1)
  have e : (vs.zipIdx.map fun x => (x.2, x.1)).map (·.1) = List.range vs.length := by
    rw [List.map_map, List.range_eq_range']
    exact List.zipIdx_map_snd _ _
  rwa [e] at this

theorem reorder_owned_shared {V : Type} {cmp : V → V → Res Ordering} {probe : List (Nat × V) → List (V × V)} {vs : List V} {l : List (Nat × V)}
    {t : Rows N} (hl : vs.length = t.length) (h : sortValues cmp probe (vs.zipIdx.map fun x => (x.2, x.1)) = .ok l) (o : Owner) :
    reorder o (l.map (·.1)) t = .ok ((l.map (·.1)).map fun i => t[i]?.getD []) := by
  have hp := sortValues_idx h
  have hn : (l.map (·.1)).Nodup := hp.nodup_iff.2 List.nodup_range
  have hlt : ∀ i ∈ l.map (·.1), i < t.length := by intro i hi; have := hp.mem_iff.1 hi; rw [List.mem_range] at this; omega
  cases o with
  | owned => exact reorderOwned_eq t _ t hn (fun i hi => ⟨rfl, hlt i hi⟩)
  | shared => exact reorderShared_eq t _ hlt

theorem cons_head {α : Type} {l : List α} {a : α} (h : l[0]? = some a) : l = a :: l.drop 1 := by
  cases l with
  | nil => cases h
  | cons b l => simp at h; simp [h]

/-- Sorting values paired with their row numbers. -/
theorem sortValues_sorted {V : Type} {cmp : V → V → Res Ordering} [Std.TransCmp (cmpOrEq cmp)] {probe : List (Nat × V) → List (V × V)} {vs : List V}
    {l : List (Nat × V)} (key : Nat → V) (hk : ∀ i : Nat, 1 ≤ i → i < vs.length → vs[i]? = some (key i))
    (h : sortValues cmp probe (vs.zipIdx.map fun x => (x.2, x.1)) = .ok l) :
    ∃ p : List Nat, l.map (·.1) = 0 :: p ∧ p.Perm (List.range' 1 (vs.length - 1)) ∧
      p.Pairwise fun i j => cmpOrEq cmp (key i) (key j) = .lt ∨ (cmpOrEq cmp (key i) (key j) = .eq ∧ i < j) := by
  cases vs with
  | nil => cases h
  | cons v vs =>
    have e : ((v :: vs).zipIdx.map fun x => (x.2, x.1)) = (0, v) :: (List.range' 1 vs.length).map fun i => (i, key i) := by
      rw [List.zipIdx_cons, List.map_cons]
      congr 1
      apply List.ext_getElem?
      intro i
      rw [List.getElem?_map, List.getElem?_map, List.getElem?_zipIdx]
      by_cases hi : i < vs.length
      · have := hk (1 + i) (by omega) (by simp; omega)
        rw [List.getElem?_range' hi]
        rw [Nat.add_comm 1 i, List.getElem?_cons_succ] at this
        simp [this, Nat.add_comm]
      · rw [List.getElem?_eq_none (by omega), List.getElem?_eq_none (by simp; omega)]; rfl
    rw [e] at h
    unfold sortValues at h
    simp only at h
    split at h
    · cases h
    · cases h
      refine ⟨((List.range' 1 vs.length).mergeSort fun i j => cmpOrEq cmp (key i) (key j) != .gt), ?_, ?_, ?_⟩
      · simp only [List.map_cons]
        congr 1
        rw [← List.map_mergeSort (f := fun i => (i, key i)) (r := fun i j => cmpOrEq cmp (key i) (key j) != .gt)]
        · rw [List.map_map]; exact List.map_id _
        · intro a _ b _; rfl
      · exact List.mergeSort_perm _ _
      · exact mergeSort_cmp (fun i j => cmpOrEq cmp (key i) (key j)) (R := fun i j => i < j) (fun i => Nat.lt_irrefl i) List.pairwise_lt_range'

end Verif.Tab
