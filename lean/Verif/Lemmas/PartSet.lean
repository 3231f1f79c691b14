import Verif.Lemmas.Part
namespace Verif.Part

/-! ### Sorting and removing duplicates -/

theorem mem_dedup (l : List Nat) (x : Nat) : x ∈ dedup l ↔ x ∈ l := by
  induction l with
  | nil => rfl
  | cons a l ih =>
    unfold dedup
    cases h : dedup l with
    | nil => rw [h] at ih; simp at ih ⊢; intro hx; exact absurd hx ih
    | cons b m =>
      rw [h] at ih
      simp only
      split
      · rename_i e; subst e
        rw [ih]; constructor
        · exact fun h => List.mem_cons_of_mem _ h
        · intro hx; rcases List.mem_cons.1 hx with rfl | hx
          · exact ih.1 (by simp)
          · exact hx
      · rw [List.mem_cons, ih, List.mem_cons]

theorem dedup_sorted (l : List Nat) (h : l.Pairwise (· ≤ ·)) : (dedup l).Pairwise (· < ·) := by
  induction l with
  | nil => exact .nil
  | cons a l ih =>
    have ⟨h1, h2⟩ := List.pairwise_cons.1 h
    have ih := ih h2
    have hm := mem_dedup l
    unfold dedup
    cases e : dedup l with
    | nil => simp
    | cons b m =>
      rw [e] at ih hm
      simp only
      split
      · exact ih
      · rename_i hne
        refine List.pairwise_cons.2 ⟨?_, ih⟩
        have hb : a < b := Nat.lt_of_le_of_ne (h1 b ((hm b).1 (by simp))) hne
        intro x hx
        rcases List.mem_cons.1 hx with rfl | hx
        · exact hb
        · exact Nat.lt_trans hb ((List.pairwise_cons.1 ih).1 x hx)

theorem sortDedup_lt (l : List Nat) : (dedup (l.mergeSort fun a b => decide (a ≤ b))).Pairwise (· < ·) := by
  apply dedup_sorted
  have := List.pairwise_mergeSort (le := fun a b : Nat => decide (a ≤ b)) (by simp; omega) (by simp; omega) l
  exact this.imp (by simp)

theorem mem_sortDedup (l : List Nat) (x : Nat) : x ∈ dedup (l.mergeSort fun a b => decide (a ≤ b)) ↔ x ∈ l := by
  rw [mem_dedup, List.mem_mergeSort]

theorem nodeLe_trans {a b c : Node} (h : nodeLe a b = true) (k : nodeLe b c = true) : nodeLe a c = true := by
  simp only [nodeLe, Bool.or_eq_true, Bool.and_eq_true, beq_iff_eq, decide_eq_true_eq] at *
  rcases h with h | ⟨h, h'⟩ <;> rcases k with k | ⟨k, k'⟩
  · exact .inl (String.lt_trans h k)
  · exact .inl (k ▸ h)
  · exact .inl (h ▸ k)
  · exact .inr ⟨h.trans k, by omega⟩

theorem nodeLe_total (a b : Node) : nodeLe a b = true ∨ nodeLe b a = true := by
  simp only [nodeLe, Bool.or_eq_true, Bool.and_eq_true, beq_iff_eq, decide_eq_true_eq]
  by_cases h : a.name < b.name
  · exact .inl (.inl h)
  · by_cases h2 : b.name < a.name
    · exact .inr (.inl h2)
    · have e : a.name = b.name := String.le_antisymm (String.not_lt.1 h2) (String.not_lt.1 h)
      rcases Nat.le_total (rank a.item) (rank b.item) with h3 | h3
      · exact .inl (.inr ⟨e, h3⟩)
      · exact .inr (.inr ⟨e.symm, h3⟩)

theorem idLe_trans (ps : Parts) (a b c : Nat) (h : idLe ps a b = true) (k : idLe ps b c = true) :
    idLe ps a c = true := by
  unfold idLe at *
  cases e1 : ps[a]? <;> cases e2 : ps[b]? <;> cases e3 : ps[c]? <;> rw [e1, e2] at h <;> rw [e2, e3] at k <;>
    simp only at h k ⊢ <;> first | exact nodeLe_trans h k | exact absurd h (by decide) | exact absurd k (by decide)

theorem idLe_total (ps : Parts) (a b : Nat) : (idLe ps a b || idLe ps b a) = true := by
  unfold idLe
  cases e1 : ps[a]? <;> cases e2 : ps[b]? <;> simp only [Bool.or_eq_true, Bool.or_true, Bool.true_or]
  exact nodeLe_total _ _

/-- A set of ids as the code keeps it. -/
def Sorted (ps : Parts) (s : List Nat) : Prop := s.Pairwise (fun a b => idLe ps a b = true) ∧ s.Nodup

theorem mem_fromVec (ps : Parts) (ids : List Nat) (x : Nat) : x ∈ fromVec ids ps ↔ x ∈ ids := by
  unfold fromVec
  by_cases h : ids.isEmpty = true
  · rw [if_pos h]; rw [List.isEmpty_iff] at h; rw [h]
  · rw [if_neg h, List.mem_mergeSort, mem_sortDedup]

theorem fromVec_sorted (ps : Parts) (ids : List Nat) : Sorted ps (fromVec ids ps) := by
  unfold fromVec
  by_cases h : ids.isEmpty = true
  · rw [if_pos h]; exact ⟨.nil, .nil⟩
  · rw [if_neg h]
    refine ⟨List.pairwise_mergeSort (idLe_trans ps) (idLe_total ps) _, ?_⟩
    rw [(List.mergeSort_perm _ _).nodup_iff]
    exact (sortDedup_lt ids).imp (fun h => Nat.ne_of_lt h)

/-! ### Bisection -/

theorem bisect_spec (l : List Nat) (p : Nat → Bool)
    (hp : ∀ i j a b : Nat, i ≤ j → l[i]? = some a → l[j]? = some b → p b = true → p a = true) :
    ∀ fuel lo hi, hi - lo ≤ fuel → lo ≤ hi → hi ≤ l.length →
      (∀ i a : Nat, i < lo → l[i]? = some a → p a = true) → (∀ i a : Nat, hi ≤ i → l[i]? = some a → p a = false) →
      bisect l p fuel lo hi ≤ l.length ∧
      (∀ i a : Nat, i < bisect l p fuel lo hi → l[i]? = some a → p a = true) ∧
      (∀ i a : Nat, bisect l p fuel lo hi ≤ i → l[i]? = some a → p a = false) := by
  intro fuel
  induction fuel with
  | zero =>
    intro lo hi h1 h2 h3 h4 h5
    have : lo = hi := by omega
    subst this
    exact ⟨h3, h4, h5⟩
  | succ fuel ih =>
    intro lo hi h1 h2 h3 h4 h5
    unfold bisect
    by_cases h : lo < hi
    · rw [if_pos h]
      have hmid : (lo + hi) / 2 < l.length := by omega
      have e : l[(lo + hi) / 2]? = some (l[(lo + hi) / 2]'hmid) := List.getElem?_eq_getElem hmid
      simp only [e]
      by_cases hb : p (l[(lo + hi) / 2]'hmid) = true
      · rw [if_pos hb]
        exact ih _ _ (by omega) (by omega) h3 (fun i a hi' ha => hp i _ a _ (by omega) ha e hb) h5
      · rw [if_neg hb]
        refine ih _ _ (by omega) (by omega) (by omega) h4 (fun i a hi' ha => ?_)
        cases hpa : p a with
        | false => rfl
        | true => exact absurd (hp _ i _ a hi' e ha hpa) hb
    · rw [if_neg h]
      have : lo = hi := by omega
      subst this
      exact ⟨h3, h4, h5⟩

theorem partitionPoint_spec (l : List Nat) (p : Nat → Bool)
    (hp : ∀ i j a b : Nat, i ≤ j → l[i]? = some a → l[j]? = some b → p b = true → p a = true) :
    partitionPoint l p ≤ l.length ∧ (∀ i a : Nat, i < partitionPoint l p → l[i]? = some a → p a = true) ∧
    (∀ i a : Nat, partitionPoint l p ≤ i → l[i]? = some a → p a = false) :=
  bisect_spec l p hp _ _ _ (by omega) (by omega) (Nat.le_refl _) (by omega) (by
    intro i a h1 h2
    have := (List.getElem?_eq_some_iff.1 h2).1
    omega)

/-- Taking the slice between two bounds is filtering, when the test holds exactly between them. -/
theorem slice_eq_filter (l : List Nat) (q : Nat → Bool) (lo hi : Nat)
    (h1 : ∀ i a : Nat, l[i]? = some a → (q a = true ↔ lo ≤ i ∧ i < hi)) :
    (l.take hi).drop lo = l.filter q := by
  induction l generalizing lo hi with
  | nil => simp
  | cons a l ih =>
    have h0 := h1 0 a rfl
    have hs : ∀ i b : Nat, l[i]? = some b → (q b = true ↔ lo ≤ i + 1 ∧ i + 1 < hi) := fun i b hb => h1 (i + 1) b (by simpa using hb)
    have hs' : ∀ i b : Nat, l[i]? = some b → (q b = true ↔ lo - 1 ≤ i ∧ i < hi - 1) := fun i b hb => by
      rw [hs i b hb]; omega
    have key := ih (lo - 1) (hi - 1) hs'
    cases hi with
    | zero =>
      have : q a = false := by
        cases hq : q a with
        | false => rfl
        | true => have := h0.1 hq; omega
      rw [List.filter_cons, this, if_neg (by simp), ← key]; simp
    | succ hi =>
      rw [List.take_succ_cons]
      cases lo with
      | zero =>
        have : q a = true := h0.2 (by omega)
        rw [List.filter_cons, if_pos this, ← key]; simp
      | succ lo =>
        have : q a = false := by
          cases hq : q a with
          | false => rfl
          | true => have := h0.1 hq; omega
        rw [List.filter_cons, this, if_neg (by simp), ← key]; simp

theorem idLe_name {ps : Parts} {a b : Nat} {n m : Node} (ha : ps[a]? = some n) (hb : ps[b]? = some m)
    (h : idLe ps a b = true) : n.name ≤ m.name := by
  unfold idLe at h
  rw [ha, hb] at h
  simp only [nodeLe, Bool.or_eq_true, Bool.and_eq_true, beq_iff_eq, decide_eq_true_eq] at h
  rcases h with h | ⟨h, _⟩
  · exact String.not_lt.1 (String.lt_asymm h)
  · rw [h]; exact String.le_refl _

theorem setFind_eq {ps : Parts} {s : List Nat} (hs : Sorted ps s) (hr : ∀ x ∈ s, x < ps.length) (name : String) :
    setFind ps s name = s.filter (is ps fun n => n.name == name) := by
  have node : ∀ i a : Nat, s[i]? = some a → ∃ n : Node, ps[a]? = some n := by
    intro i a h
    exact ⟨_, List.getElem?_eq_getElem (hr a (List.mem_of_getElem? h))⟩
  have mono : ∀ (i j a b : Nat) (n m : Node), i ≤ j → s[i]? = some a → s[j]? = some b → ps[a]? = some n → ps[b]? = some m →
      n.name ≤ m.name := by
    intro i j a b n m hij ha hb hn hm
    rcases Nat.lt_or_eq_of_le hij with hlt | rfl
    · obtain ⟨hi, rfl⟩ := List.getElem?_eq_some_iff.1 ha
      obtain ⟨hj, rfl⟩ := List.getElem?_eq_some_iff.1 hb
      exact idLe_name hn hm (List.pairwise_iff_getElem.1 hs.1 i j hi hj hlt)
    · rw [ha] at hb; cases hb; rw [hn] at hm; cases hm; exact String.le_refl _
  have p1 := partitionPoint_spec s (is ps fun n => decide (n.name < name)) (by
    intro i j a b hij ha hb hpb
    obtain ⟨m, hm, hlt⟩ := is_iff.1 hpb
    obtain ⟨n, hn⟩ := node i a ha
    refine is_iff.2 ⟨n, hn, ?_⟩
    simp only [decide_eq_true_eq] at hlt ⊢
    have := mono i j a b n m hij ha hb hn hm
    apply String.not_le.1
    intro hle
    exact (String.not_le.2 hlt) (String.le_trans hle this))
  have p2 := partitionPoint_spec s (is ps fun n => decide (n.name ≤ name)) (by
    intro i j a b hij ha hb hpb
    obtain ⟨m, hm, hlt⟩ := is_iff.1 hpb
    obtain ⟨n, hn⟩ := node i a ha
    refine is_iff.2 ⟨n, hn, ?_⟩
    simp only [decide_eq_true_eq] at hlt ⊢
    exact String.le_trans (mono i j a b n m hij ha hb hn hm) hlt)
  unfold setFind
  apply slice_eq_filter
  intro i a ha
  obtain ⟨n, hn⟩ := node i a ha
  have v1 : is ps (fun n => decide (n.name < name)) a = decide (n.name < name) := by simp [is, hn]
  have v2 : is ps (fun n => decide (n.name ≤ name)) a = decide (n.name ≤ name) := by simp [is, hn]
  have v3 : is ps (fun n => n.name == name) a = (n.name == name) := by simp [is, hn]
  rw [v3]
  have a1 := p1.2.1 i a; have a2 := p1.2.2 i a; have b1 := p2.2.1 i a; have b2 := p2.2.2 i a
  rw [v1] at a1 a2; rw [v2] at b1 b2
  simp only [beq_iff_eq]
  constructor
  · intro e
    constructor
    · apply Nat.le_of_not_lt; intro hlt
      have := a1 hlt ha
      simp only [decide_eq_true_eq, e] at this
      exact String.lt_irrefl _ this
    · apply Nat.lt_of_not_le; intro hle
      have := b2 hle ha
      simp only [decide_eq_false_iff_not, e] at this
      exact this (String.le_refl _)
  · rintro ⟨hlo, hhi⟩
    have x1 := a2 hlo ha; have x2 := b1 hhi ha
    simp only [decide_eq_false_iff_not, decide_eq_true_eq] at x1 x2
    exact String.le_antisymm x2 (String.not_lt.1 x1)

end Verif.Part
