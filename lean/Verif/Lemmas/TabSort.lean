import Verif.Lemmas.TabOps
/-! Lemmas on sorting: the stable sort, sorting by several columns, and the order of cells. -/
namespace Verif.Tab
open Std
variable {N : Type}

theorem nodup_of_pairwise {α : Type} {R : α → α → Prop} (hR : ∀ a, ¬ R a a) {l : List α} (h : l.Pairwise R) : l.Nodup :=
  h.imp (by intro a b hab e; subst e; exact hR a hab)

theorem pair_or {α : Type} {l : List α} {a b : α} (ha : a ∈ l) (hb : b ∈ l) (hab : a ≠ b) :
    [a, b].Sublist l ∨ [b, a].Sublist l := by
  induction l with
  | nil => cases ha
  | cons x l ih =>
    rcases List.mem_cons.1 ha with rfl | ha'
    · left
      rcases List.mem_cons.1 hb with rfl | hb'
      · exact absurd rfl hab
      · exact (List.singleton_sublist.2 hb').cons_cons _
    · rcases List.mem_cons.1 hb with rfl | hb'
      · right; exact (List.singleton_sublist.2 ha').cons_cons _
      · rcases ih ha' hb' with h | h
        · left; exact h.cons _
        · right; exact h.cons _

theorem not_both {α : Type} {l : List α} (hn : l.Nodup) {a b : α} (h1 : [a, b].Sublist l) (h2 : [b, a].Sublist l) : False := by
  induction l with
  | nil => cases h1
  | cons x l ih =>
    have hx := List.nodup_cons.1 hn
    cases h1 with
    | cons _ h1 => cases h2 with
      | cons _ h2 => exact ih hx.2 h1 h2
      | cons_cons _ h2 =>
        exact hx.1 (h1.subset (by simp))
    | cons_cons _ h1 =>
      cases h2 with
      | cons _ h2 => exact hx.1 (h2.subset (by simp))
      | cons_cons _ h2 => exact hx.1 (h1.subset (by simp))

/-- The stable sort: a list in order of `R` is sorted by `le`, and ties stay in order of `R`. -/
theorem mergeSort_stable {α : Type} {le : α → α → Bool} (trans : ∀ a b c, le a b = true → le b c = true → le a c = true)
    (total : ∀ a b, (le a b || le b a) = true) {R : α → α → Prop} (hR : ∀ a, ¬ R a a) {l : List α} (h : l.Pairwise R) :
    (l.mergeSort le).Pairwise fun a b => le a b = true ∧ (le b a = true → R a b) := by
  have hn := nodup_of_pairwise hR h
  have hn' : (l.mergeSort le).Nodup := (List.mergeSort_perm l le).nodup_iff.2 hn
  have hp := List.pairwise_mergeSort trans total l
  rw [List.pairwise_iff_forall_sublist] at *
  intro a b hab
  refine ⟨hp hab, fun hba => ?_⟩
  have ha : a ∈ l := List.mem_mergeSort.1 (hab.subset (by simp))
  have hb : b ∈ l := List.mem_mergeSort.1 (hab.subset (by simp))
  have hne : a ≠ b := by
    have := (List.pairwise_iff_forall_sublist.1 hn') hab
    exact this
  rcases pair_or ha hb hne with h1 | h1
  · exact h h1
  · exact (not_both hn' hab (List.pair_sublist_mergeSort trans total hba h1)).elim

theorem le_trans_cmp {α : Type} (cmp : α → α → Ordering) [TransCmp cmp] (a b c : α) (h1 : (cmp a b != .gt) = true) (h2 : (cmp b c != .gt) = true) :
    (cmp a c != .gt) = true := by
  have conv : ∀ o : Ordering, (o != .gt) = o.isLE := by intro o; cases o <;> rfl
  rw [conv] at *
  exact TransCmp.isLE_trans h1 h2

theorem le_total_cmp {α : Type} (cmp : α → α → Ordering) [OrientedCmp cmp] (a b : α) : ((cmp a b != .gt) || (cmp b a != .gt)) = true := by
  rw [OrientedCmp.eq_swap (cmp := cmp) (a := b)]
  cases cmp a b <;> rfl

/-- Sorting by a key with a lawful comparison. -/
theorem mergeSort_cmp {α : Type} (cmp : α → α → Ordering) [TransCmp cmp] {R : α → α → Prop} (hR : ∀ a, ¬ R a a) {l : List α} (h : l.Pairwise R) :
    (l.mergeSort fun a b => cmp a b != .gt).Pairwise fun a b => cmp a b = .lt ∨ (cmp a b = .eq ∧ R a b) := by
  refine (mergeSort_stable (le := fun a b => cmp a b != .gt) (le_trans_cmp cmp) (le_total_cmp cmp) hR h).imp ?_
  intro a b ⟨h1, h2⟩
  rw [OrientedCmp.eq_swap (cmp := cmp) (a := b)] at h2
  cases hc : cmp a b with
  | lt => exact .inl rfl
  | eq => exact .inr ⟨rfl, h2 (by rw [hc]; rfl)⟩
  | gt => rw [hc] at h1; cases h1

theorem before_irrefl (cmp : Entry N → Entry N → Ordering) [OrientedCmp cmp] (t : Rows N) (cs : List Nat) : ∀ i, ¬ Before cmp t cs i i := by
  intro i
  induction cs with
  | nil => exact Nat.lt_irrefl i
  | cons c cs ih =>
    intro h
    rcases h with h | h
    · rw [ReflCmp.compare_self (cmp := cmp)] at h; cases h
    · exact ih h.2

instance transOn {α β : Type} (cmp : β → β → Ordering) [TransCmp cmp] (f : α → β) : TransCmp fun a b => cmp (f a) (f b) where
  eq_swap := OrientedCmp.eq_swap (cmp := cmp)
  isLE_trans := TransCmp.isLE_trans (cmp := cmp)

theorem cell_eq {t : Rows N} (i c : Nat) : cell t i c = at_ (t[i]?.getD []) c := by
  unfold cell at_
  cases t[i]? <;> rfl

/-- One more sort of an already sorted table. -/
theorem sortCol_sorted (cmp : Entry N → Entry N → Ordering) [TransCmp cmp] {t u : Rows N} (cs : List Nat) (c : Nat)
    (h : SortedBy (Before cmp t cs) t u) : SortedBy (Before cmp t (c :: cs)) t (sortCol (fun a b => cmp a b != .gt) c u) := by
  obtain ⟨p, hp, hs, rfl⟩ := h
  cases t with
  | nil =>
    refine ⟨p, hp, ?_, ?_⟩
    · simp at hp; subst hp; exact .nil
    · simp at hp; subst hp; rfl
  | cons a d =>
    refine ⟨p.mergeSort fun i j => cmp (cell (a :: d) i c) (cell (a :: d) j c) != .gt, (List.mergeSort_perm _ _).trans hp, ?_, ?_⟩
    · exact mergeSort_cmp (fun i j => cmp (cell (a :: d) i c) (cell (a :: d) j c)) (before_irrefl cmp (a :: d) cs) hs
    · show a :: _ = a :: _
      congr 1
      refine (List.map_mergeSort ?_).symm
      intro i _ j _
      simp only [cell_eq]

theorem sort_sorted (cmp : Entry N → Entry N → Ordering) [TransCmp cmp] (t : Rows N) (cols : List Nat) : ∀ (cs : List Nat) (u : Rows N),
    SortedBy (Before cmp t cs) t u →
    SortedBy (Before cmp t (cols.reverse ++ cs)) t (cols.foldl (fun t c => sortCol (fun a b => cmp a b != .gt) c t) u) := by
  induction cols with
  | nil => intro cs u h; exact h
  | cons c cols ih =>
    intro cs u h
    have := ih (c :: cs) _ (sortCol_sorted cmp cs c h)
    simpa using this

theorem map_range_get (t : Rows N) : t = t.take 1 ++ (List.range' 1 (t.length - 1)).map fun i => t[i]?.getD [] := by
  cases t with
  | nil => rfl
  | cons a d =>
    simp only [List.take_succ_cons, List.take_zero, List.cons_append, List.nil_append, List.length_cons, Nat.add_sub_cancel, List.cons.injEq, true_and]
    apply List.ext_getElem?
    intro i
    rw [List.getElem?_map]
    by_cases hi : i < d.length
    · have e : d[i]? = some d[i] := List.getElem?_eq_getElem hi
      rw [List.getElem?_range' hi]; simp [Nat.add_comm 1 i, e]
    · rw [List.getElem?_eq_none (by omega), List.getElem?_eq_none (by simp; omega)]; rfl

theorem sorted_refl (t : Rows N) : SortedBy (fun i j => i < j) t t := by
  refine ⟨_, .refl _, List.pairwise_lt_range', map_range_get t⟩

/-! ### The order of cells -/

def kbool : Entry N → Bool
  | .obj (.bool b) => b
  | _ => false
def knum : Entry N → Option N
  | .num n | .obj (.num n) => some n
  | _ => none
def kstr : Entry N → String
  | .obj (.str s) => s
  | .obj (.ogma s _ _) => s
  | _ => ""

def optCmp (ncmp : N → N → Ordering) : Option N → Option N → Ordering
  | some x, some y => ncmp x y
  | none, none => .eq
  | some _, none => .lt
  | none, some _ => .gt

instance : TransCmp boolCmp where
  eq_swap {a b} := by cases a <;> cases b <;> rfl
  isLE_trans {a b c} := by cases a <;> cases b <;> cases c <;> decide

instance : TransCmp natCmp where
  eq_swap {a b} := by
    unfold natCmp
    rcases Nat.lt_trichotomy a b with h | h | h
    · rw [if_pos h, if_neg (by omega), if_neg (by omega)]; rfl
    · subst h; simp
    · rw [if_neg (by omega), if_neg (by omega), if_pos h]; rfl
  isLE_trans {a b c} := by
    have conv : ∀ x y : Nat, (natCmp x y).isLE = true ↔ x ≤ y := by
      intro x y; unfold natCmp
      by_cases h : x < y
      · simp [h]; omega
      · by_cases h' : x = y <;> simp [h, h'] <;> omega
    rw [conv, conv, conv]; omega

theorem str_lt_iff (a b : String) : a < b ∨ a = b ∨ b < a := by
  rcases String.le_total a b with h | h
  · by_cases e : a = b
    · exact .inr (.inl e)
    · left
      exact String.not_le.1 fun h' => e (String.le_antisymm h h')
  · by_cases e : a = b
    · exact .inr (.inl e)
    · right; right
      exact String.not_le.1 fun h' => e (String.le_antisymm h' h)

instance : TransCmp strCmp where
  eq_swap {a b} := by
    unfold strCmp
    rcases str_lt_iff a b with h | h | h
    · have h2 : ¬ b < a := String.lt_asymm h
      have h3 : ¬ b = a := fun e => String.lt_irrefl a (e ▸ h)
      rw [if_pos h, if_neg h2, if_neg h3]; rfl
    · subst h; simp [String.lt_irrefl]
    · have h2 : ¬ a < b := String.lt_asymm h
      have h3 : ¬ a = b := fun e => String.lt_irrefl a (by rw [← e] at h; exact h)
      rw [if_pos h, if_neg h2, if_neg h3]; rfl
  isLE_trans {a b c} := by
    have conv : ∀ x y : String, (strCmp x y).isLE = true ↔ (x < y ∨ x = y) := by
      intro x y; unfold strCmp
      by_cases h : x < y
      · simp [h]
      · by_cases h' : x = y <;> simp [h, h']
    rw [conv, conv, conv]
    rintro (h1 | rfl) (h2 | rfl)
    · exact .inl (String.lt_trans h1 h2)
    · exact .inl h1
    · exact .inl h2
    · exact .inr rfl

instance (ncmp : N → N → Ordering) [TransCmp ncmp] : TransCmp (optCmp ncmp) where
  eq_swap {a b} := by
    cases a <;> cases b <;> try rfl
    exact OrientedCmp.eq_swap (cmp := ncmp)
  isLE_trans {a b c} := by
    cases a <;> cases b <;> cases c <;> simp [optCmp]
    intro h1 h2; exact TransCmp.isLE_trans (cmp := ncmp) h1 h2

theorem lex_trans {α : Type} (c1 c2 : α → α → Ordering) [TransCmp c1] [TransCmp c2] : TransCmp fun a b => (c1 a b).then (c2 a b) where
  eq_swap {a b} := by
    rw [OrientedCmp.eq_swap (cmp := c1) (a := a), OrientedCmp.eq_swap (cmp := c2) (a := a)]
    cases c1 b a <;> rfl
  isLE_trans {a b c} := by
    intro h1 h2
    have key : ∀ (o o' : Ordering), (o.then o').isLE = true ↔ (o = .lt ∨ (o = .eq ∧ o'.isLE = true)) := by
      intro o o'; cases o <;> simp [Ordering.then]
    rw [key] at *
    rcases h1 with h1 | ⟨h1, h1'⟩
    · rcases h2 with h2 | ⟨h2, _⟩
      · exact .inl (TransCmp.lt_trans h1 h2)
      · exact .inl (TransCmp.lt_of_lt_of_eq h1 h2)
    · rcases h2 with h2 | ⟨h2, h2'⟩
      · exact .inl (TransCmp.lt_of_eq_of_lt h1 h2)
      · exact .inr ⟨TransCmp.eq_trans h1 h2, TransCmp.isLE_trans h1' h2'⟩

theorem cmpEntries_lex (ncmp : N → N → Ordering) (a b : Entry N) :
    cmpEntries? ncmp a b = some ((natCmp (discriminant a) (discriminant b)).then ((boolCmp (kbool a) (kbool b)).then
      ((optCmp ncmp (knum a) (knum b)).then (strCmp (kstr a) (kstr b))))) := by
  have rs : strCmp "" "" = .eq := ReflCmp.compare_self
  have lt' : ∀ o : Ordering, Ordering.then .lt o = .lt := fun _ => rfl
  have eq' : ∀ o : Ordering, Ordering.then .eq o = o := fun _ => rfl
  have gt' : ∀ o : Ordering, Ordering.then .gt o = .gt := fun _ => rfl
  have rt : ∀ o : Ordering, o.then .eq = o := by intro o; cases o <;> rfl
  rcases a with _ | x | v <;> rcases b with _ | y | w <;> (try cases v) <;> (try cases w) <;>
    simp [cmpEntries?, discriminant, kbool, knum, kstr, optCmp, natCmp, boolCmp, rs, rt, lt', eq', gt']

instance cmpEntries_trans (ncmp : N → N → Ordering) [TransCmp ncmp] : TransCmp (cmpEntries ncmp) := by
  have e : cmpEntries ncmp = fun a b => (natCmp (discriminant a) (discriminant b)).then ((boolCmp (kbool a) (kbool b)).then
      ((optCmp ncmp (knum a) (knum b)).then (strCmp (kstr a) (kstr b)))) := by
    funext a b; unfold cmpEntries; rw [cmpEntries_lex]; rfl
  rw [e]
  have i1 := transOn natCmp (discriminant (N := N))
  have i2 := transOn boolCmp (kbool (N := N))
  have i3 := transOn (optCmp ncmp) (knum (N := N))
  have i4 := transOn strCmp (kstr (N := N))
  have i5 := @lex_trans (Entry N) _ _ i3 i4
  have i6 := @lex_trans (Entry N) _ _ i2 i5
  exact @lex_trans (Entry N) _ _ i1 i6

end Verif.Tab
