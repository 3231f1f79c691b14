import Verif.Spec.Scope
/-! Properties of local variables: names resolve lexically whatever the order of discovery, an answer once given stays,
variables have storage of their own (C31, C32). -/
namespace Verif.Loc
open Verif.Scope

/-! ### Ancestors -/

/-- `m` is `n` or one of the nodes `n` gets variables from. -/
inductive Anc : Node → Node → Prop
  | refl (n) : Anc n n
  | step {m n p} : par n = some p → Anc m p → Anc m n

theorem size_par {n p : Node} (h : par n = some p) : size p < size n := by
  match n, h with
  | .blk 0 :: q, h => simp only [par, Option.some.injEq] at h; subst h; simp only [size]; omega
  | .blk (j + 1) :: q, h => simp only [par, Option.some.injEq] at h; subst h; simp only [size]; omega
  | .arg _ :: q, h => simp only [par, Option.some.injEq] at h; subst h; simp only [size]; omega

theorem Anc.size_le {m n : Node} (h : Anc m n) : size m ≤ size n := by
  induction h with
  | refl => exact Nat.le_refl _
  | step hp _ ih => have := size_par hp; omega

theorem Anc.trans {a b c : Node} (h1 : Anc a b) (h2 : Anc b c) : Anc a c := by
  induction h2 with
  | refl => exact h1
  | step hp _ ih => exact .step hp ih

/-- Ancestors of a node are in line. -/
theorem Anc.comparable {a b n : Node} (h1 : Anc a n) (h2 : Anc b n) : Anc a b ∨ Anc b a := by
  induction h1 with
  | refl => exact .inr h2
  | step hp h ih =>
    cases h2 with
    | refl => exact .inl (.step hp h)
    | step hp' h' =>
      rw [hp] at hp'
      cases hp'
      exact ih h'

theorem Anc.of_ne {m n : Node} (h : Anc m n) (hne : m ≠ n) : ∃ p, par n = some p ∧ Anc m p := by
  cases h with
  | refl => exact absurd rfl hne
  | step hp h => exact ⟨_, hp, h⟩

/-- A strict descendant lies below a child. -/
theorem Anc.child {m n : Node} (h : Anc m n) (hne : m ≠ n) : ∃ c, par c = some m ∧ Anc c n := by
  induction h with
  | refl => exact absurd rfl hne
  | @step n p hp h ih =>
    by_cases e : m = p
    · subst e; exact ⟨n, hp, .refl n⟩
    · obtain ⟨c, hc, hcn⟩ := ih e
      exact ⟨c, hc, .step hp hcn⟩

/-- Children of one node have nothing in common below. -/
theorem siblings_apart {a b c n : Node} (hb : par b = some a) (hc : par c = some a) (hne : b ≠ c) : ¬ (Anc b n ∧ Anc c n) := by
  rintro ⟨h1, h2⟩
  rcases h1.comparable h2 with h | h
  · obtain ⟨p, hp, h⟩ := h.of_ne hne
    rw [hc] at hp; cases hp
    have := h.size_le; have := size_par hb; omega
  · obtain ⟨p, hp, h⟩ := h.of_ne hne.symm
    rw [hb] at hp; cases hp
    have := h.size_le; have := size_par hc; omega

/-- The nodes of a syntax graph: distinct, with the nodes they get variables from. -/
structure Closed (nodes : List Node) : Prop where
  nodup : nodes.Nodup
  closed : ∀ n ∈ nodes, ∀ p, par n = some p → p ∈ nodes

theorem Anc.mem {nodes : List Node} (hc : Closed nodes) {m n : Node} (h : Anc m n) (hn : n ∈ nodes) : m ∈ nodes := by
  induction h with
  | refl => exact hn
  | step hp _ ih => exact ih (hc.closed _ hn _ hp)

theorem mem_kids {nodes : List Node} {n c : Node} : c ∈ kids nodes n ↔ c ∈ nodes ∧ par c = some n := by
  simp [kids]

/-! ### Flow -/

theorem filter_shorter {A : Type} (p q : A → Bool) : ∀ (l : List A), (∀ x ∈ l, q x = true → p x = true) →
    (l.filter q).length ≤ (l.filter p).length
  | [], _ => Nat.le_refl _
  | x :: l, h => by
    have ih := filter_shorter p q l fun y hy => h y (by simp [hy])
    have hx := h x (by simp)
    cases hq : q x with
    | false => cases hp : p x <;> simp [hp, hq] <;> omega
    | true => simp [hq, hx hq]; omega

theorem filter_lt {A : Type} (p q : A → Bool) : ∀ (l : List A), (∀ x ∈ l, q x = true → p x = true) →
    ∀ b ∈ l, p b = true → q b = false → (l.filter q).length < (l.filter p).length
  | [], _, b, hb, _, _ => by cases hb
  | x :: l, h, b, hb, hp, hq => by
    rcases List.mem_cons.1 hb with rfl | hb
    · have := filter_shorter p q l fun y hy => h y (by simp [hy])
      simp [hp, hq]; omega
    · have ih := filter_lt p q l (fun y hy => h y (by simp [hy])) b hb hp hq
      have hx := h x (by simp)
      cases hq' : q x with
      | false => cases hp' : p x <;> simp [hp', hq'] <;> omega
      | true => simp [hq', hx hq']; omega

/-- What is still to be done covers the node. -/
def Under (st : List (Node × Node)) (n : Node) : Prop := ∃ e ∈ st, Anc e.2 n

structure Good (nodes : List Node) (st : List (Node × Node)) : Prop where
  edge : ∀ e ∈ st, e.2 ∈ nodes ∧ par e.2 = some e.1
  apart : st.Pairwise fun e e' => ∀ n, ¬ (Anc e.2 n ∧ Anc e'.2 n)
  outside : ∀ e ∈ st, ¬ Under st e.1

theorem good_kids {nodes : List Node} (hc : Closed nodes) (n : Node) :
    Good nodes (((kids nodes n).map fun c => (n, c)).reverse) := by
  constructor
  · intro e he
    simp only [List.mem_reverse, List.mem_map] at he
    obtain ⟨c, hc', rfl⟩ := he
    exact mem_kids.1 hc'
  · rw [List.pairwise_reverse, List.pairwise_map]
    have hn : (kids nodes n).Nodup := List.Pairwise.filter _ hc.nodup
    refine List.Pairwise.imp_of_mem ?_ hn
    intro a b ha hb hne x ⟨h1, h2⟩
    exact siblings_apart (mem_kids.1 ha).2 (mem_kids.1 hb).2 hne ⟨h2, h1⟩
  · intro e he ⟨e', he', h⟩
    simp only [List.mem_reverse, List.mem_map] at he he'
    obtain ⟨c, hc', rfl⟩ := he
    obtain ⟨d, hd, rfl⟩ := he'
    have h1 := h.size_le
    have h2 := size_par (mem_kids.1 hd).2
    dsimp only at h1 h2
    omega

theorem good_step {nodes : List Node} (hc : Closed nodes) {a b : Node} {st : List (Node × Node)} (h : Good nodes ((a, b) :: st)) :
    Good nodes (((kids nodes b).map fun c => (b, c)).reverse ++ st) := by
  have hk := good_kids hc b
  have hp := List.pairwise_cons.1 h.apart
  have hbelow : ∀ e ∈ ((kids nodes b).map fun c => (b, c)).reverse, ∀ n, Anc e.2 n → Anc b n := by
    intro e he n hn
    simp only [List.mem_reverse, List.mem_map] at he
    obtain ⟨c, hc', rfl⟩ := he
    exact (Anc.step (mem_kids.1 hc').2 (.refl b)).trans hn
  have hnotb : ∀ e ∈ st, ¬ Anc e.2 b := fun e he hx => hp.1 e he b ⟨.refl b, hx⟩
  constructor
  · intro e he
    rcases List.mem_append.1 he with he | he
    · exact hk.edge e he
    · exact h.edge e (by simp [he])
  · rw [List.pairwise_append]
    refine ⟨hk.apart, hp.2, ?_⟩
    intro e he e' he' n ⟨h1, h2⟩
    exact hp.1 e' he' n ⟨hbelow e he n h1, h2⟩
  · intro e he ⟨e', he', hx⟩
    rcases List.mem_append.1 he with he | he
    · have hb : e.1 = b := by
        simp only [List.mem_reverse, List.mem_map] at he
        obtain ⟨c, -, rfl⟩ := he; rfl
      rw [hb] at hx
      rcases List.mem_append.1 he' with he' | he'
      · exact hk.outside e he ⟨e', he', hb ▸ hx⟩
      · exact hnotb e' he' hx
    · rcases List.mem_append.1 he' with he' | he'
      · exact h.outside e (by simp [he]) ⟨(a, b), by simp, hbelow e' he' _ hx⟩
      · exact h.outside e (by simp [he]) ⟨e', by simp [he'], hx⟩

open Classical in
/-- What `flow` does: maps below are brought up to date from above, others stay; the bound on the rounds is enough. -/
theorem flowLoop_spec {nodes : List Node} (hc : Closed nodes) : ∀ (f : Nat) (st : List (Node × Node)) (m : Node → Map),
    Good nodes st → (nodes.filter fun n => decide (Under st n)).length ≤ f →
    (∀ n, ¬ Under st n → flowLoop nodes f st m n = m n) ∧
    ∀ n ∈ nodes, Under st n → ∀ p, par n = some p →
      flowLoop nodes f st m n = accrete (flowLoop nodes f st m p) (m n) n
  | 0, st, m, hg, hf => by
    refine ⟨fun n _ => rfl, fun n hn hu => ?_⟩
    have : n ∈ nodes.filter fun n => decide (Under st n) := List.mem_filter.2 ⟨hn, by simpa using hu⟩
    have hz : nodes.filter (fun n => decide (Under st n)) = [] := List.length_eq_zero_iff.1 (by omega)
    rw [hz] at this; cases this
  | f + 1, [], m, _, _ => ⟨fun n _ => rfl, fun n _ ⟨e, he, _⟩ => by cases he⟩
  | f + 1, (a, b) :: st, m, hg, hf => by
    have hg' := good_step hc hg
    obtain ⟨hbn, hba⟩ := hg.edge (a, b) (by simp)
    dsimp only at hbn hba
    have hp := List.pairwise_cons.1 hg.apart
    have hdown : ∀ n, Under (((kids nodes b).map fun c => (b, c)).reverse ++ st) n → Under ((a, b) :: st) n := by
      rintro n ⟨e, he, hx⟩
      rcases List.mem_append.1 he with he | he
      · simp only [List.mem_reverse, List.mem_map] at he
        obtain ⟨c, hc', rfl⟩ := he
        exact ⟨(a, b), by simp, (Anc.step (mem_kids.1 hc').2 (.refl b)).trans hx⟩
      · exact ⟨e, by simp [he], hx⟩
    have hb' : ¬ Under (((kids nodes b).map fun c => (b, c)).reverse ++ st) b := by
      rintro ⟨e, he, hx⟩
      rcases List.mem_append.1 he with he | he
      · simp only [List.mem_reverse, List.mem_map] at he
        obtain ⟨c, hc', rfl⟩ := he
        have h1 := hx.size_le
        have h2 := size_par (mem_kids.1 hc').2
        dsimp only at h1
        omega
      · exact hp.1 e he b ⟨.refl b, hx⟩
    have hlen : (nodes.filter fun n => decide (Under (((kids nodes b).map fun c => (b, c)).reverse ++ st) n)).length ≤ f := by
      have := filter_lt (fun n => decide (Under ((a, b) :: st) n))
        (fun n => decide (Under (((kids nodes b).map fun c => (b, c)).reverse ++ st) n)) nodes
        (fun x _ hx => decide_eq_true (hdown x (of_decide_eq_true hx))) b hbn
        (decide_eq_true ⟨(a, b), by simp, .refl b⟩) (decide_eq_false hb')
      omega
    obtain ⟨ih1, ih2⟩ := flowLoop_spec hc f _ (setMap m b (accrete (m a) (m b) b)) hg' hlen
    have hset : ∀ n, n ≠ b → setMap m b (accrete (m a) (m b) b) n = m n := fun n hn => by simp [setMap, hn]
    have hsetb : setMap m b (accrete (m a) (m b) b) b = accrete (m a) (m b) b := by simp [setMap]
    simp only [flowLoop]
    constructor
    · intro n hn
      have hnb : n ≠ b := by
        rintro rfl
        exact hn ⟨(a, n), by simp, .refl n⟩
      rw [ih1 n fun hu => hn (hdown n hu), hset n hnb]
    · intro n hn ⟨e, he, hx⟩ p hpar
      by_cases hnb : n = b
      · subst hnb
        rw [hba] at hpar; cases hpar
        have ha : ¬ Under (((kids nodes n).map fun c => (n, c)).reverse ++ st) a := fun hu =>
          hg.outside (a, n) (by simp) (hdown a hu)
        have hab : a ≠ n := by rintro rfl; have := size_par hba; omega
        rw [ih1 n hb', ih1 a ha, hsetb, hset a hab]
      · have hu : Under (((kids nodes b).map fun c => (b, c)).reverse ++ st) n := by
          rcases List.mem_cons.1 he with rfl | he
          · obtain ⟨c, hcp, hcn⟩ := hx.child (Ne.symm hnb)
            refine ⟨(b, c), List.mem_append.2 (.inl ?_), hcn⟩
            simp only [List.mem_reverse, List.mem_map]
            exact ⟨c, mem_kids.2 ⟨hcn.mem hc hn, hcp⟩, rfl⟩
          · exact ⟨e, List.mem_append.2 (.inr he), hx⟩
        rw [ih2 n hn hu p hpar, hset n hnb]

theorem flow_spec {nodes : List Node} (hc : Closed nodes) (d : Node) (m : Node → Map) :
    (∀ n ∈ nodes, (¬ Anc d n ∨ n = d) → flow nodes d m n = m n) ∧
    ∀ n ∈ nodes, Anc d n → n ≠ d → ∀ p, par n = some p → flow nodes d m n = accrete (flow nodes d m p) (m n) n := by
  have h := flowLoop_spec hc nodes.length _ m (good_kids hc d) (List.length_filter_le _ _)
  have hunder : ∀ n ∈ nodes, Under (((kids nodes d).map fun c => (d, c)).reverse) n ↔ Anc d n ∧ n ≠ d := by
    intro n hn
    constructor
    · rintro ⟨e, he, hx⟩
      simp only [List.mem_reverse, List.mem_map] at he
      obtain ⟨c, hc', rfl⟩ := he
      have hpc := (mem_kids.1 hc').2
      refine ⟨(Anc.step hpc (.refl d)).trans hx, ?_⟩
      rintro rfl
      have h1 := hx.size_le
      have h2 := size_par hpc
      dsimp only at h1
      omega
    · rintro ⟨h1, h2⟩
      obtain ⟨c, hcp, hcn⟩ := h1.child (Ne.symm h2)
      refine ⟨(d, c), ?_, hcn⟩
      simp only [List.mem_reverse, List.mem_map]
      exact ⟨c, mem_kids.2 ⟨hcn.mem hc hn, hcp⟩, rfl⟩
  constructor
  · intro n hn hx
    refine h.1 n fun hu => ?_
    obtain ⟨h1, h2⟩ := (hunder n hn).1 hu
    rcases hx with hx | hx
    · exact hx h1
    · exact h2 hx
  · intro n hn h1 h2 p hp
    exact h.2 n hn ((hunder n hn).2 ⟨h1, h2⟩) p hp

/-! ### The invariant -/

/-- The latest definition of a name at a node. -/
def lastIdx (D : List DefAt) (n : Node) (k : String) : Option Nat :=
  ((D.zipIdx.filter fun x => x.1 = (n, k)).getLast?).map (·.2)

theorem lastIdx_snoc (D : List DefAt) (d : DefAt) (n : Node) (k : String) :
    lastIdx (D ++ [d]) n k = if d = (n, k) then some D.length else lastIdx D n k := by
  unfold lastIdx
  rw [List.zipIdx_append, List.filter_append]
  by_cases h : d = (n, k)
  · simp [h]
  · simp [h]

theorem snoc_ind {A : Type} {P : List A → Prop} (h0 : P []) (h1 : ∀ l e, P l → P (l ++ [e])) (l : List A) : P l := by
  have : ∀ r : List A, P r.reverse := by
    intro r
    induction r with
    | nil => exact h0
    | cons a r ih => rw [List.reverse_cons]; exact h1 _ _ ih
  simpa using this l.reverse

theorem lastIdx_some (D : List DefAt) (n : Node) (k : String) (i : Nat) : lastIdx D n k = some i ↔ Latest D n k i := by
  refine snoc_ind (P := fun D => ∀ i, lastIdx D n k = some i ↔ Latest D n k i) ?_ ?_ D i
  · intro i; simp [lastIdx, Latest]
  · intro D d ih i
    rw [lastIdx_snoc]
    by_cases h : d = (n, k)
    · rw [if_pos h]
      constructor
      · rintro ⟨⟩
        refine ⟨by simp [h], fun j hj => ?_⟩
        rw [List.getElem?_eq_none (by simp; omega)]
        exact fun h => nomatch h
      · rintro ⟨h1, h2⟩
        have hi : i < (D ++ [d]).length := (List.getElem?_eq_some_iff.1 h1).1
        simp only [List.length_append, List.length_singleton] at hi
        by_cases e : i = D.length
        · rw [e]
        · exact absurd (by simp [h]) (h2 D.length (by omega))
    · rw [if_neg h, ih i]
      have hget : ∀ j : Nat, (D ++ [d])[j]? = some (n, k) ↔ D[j]? = some (n, k) := by
        intro j
        by_cases hj : j < D.length
        · rw [List.getElem?_append_left hj]
        · rw [List.getElem?_append_right (by omega), List.getElem?_eq_none (l := D) (by omega)]
          by_cases e : j = D.length
          · subst e; simp [h]
          · rw [List.getElem?_eq_none (by simp; omega)]
      unfold Latest
      simp only [hget, ne_eq]

theorem lastIdx_none (D : List DefAt) (n : Node) (k : String) : lastIdx D n k = none ↔ ∀ i : Nat, D[i]? ≠ some (n, k) := by
  refine snoc_ind (P := fun D => lastIdx D n k = none ↔ ∀ i : Nat, D[i]? ≠ some (n, k)) ?_ ?_ D
  · simp [lastIdx]
  · intro D d ih
    rw [lastIdx_snoc]
    by_cases h : d = (n, k)
    · rw [if_pos h]
      constructor
      · intro h; cases h
      · intro hx; exact absurd (by simp [h]) (hx D.length)
    · rw [if_neg h, ih]
      constructor
      · intro hx i
        by_cases hj : i < D.length
        · rw [List.getElem?_append_left hj]; exact hx i
        · rw [List.getElem?_append_right (by omega)]
          by_cases e : i = D.length
          · subst e; simp [h]
          · rw [List.getElem?_eq_none (by simp; omega)]
            exact fun h => nomatch h
      · intro hx i hi
        have hj : i < D.length := (List.getElem?_eq_some_iff.1 hi).1
        exact hx i (by rw [List.getElem?_append_left hj]; exact hi)

/-- The map of a node: its own latest definition, or else what the node it gets variables from has. -/
def Lexical (nodes : List Node) (m : Node → Map) (D : List DefAt) : Prop :=
  ∀ n ∈ nodes, ∀ k, m n k = match lastIdx D n k with
    | some i => some ⟨i, n⟩
    | none => (par n).bind fun p => m p k

/-- Entries of maps come from ancestors. -/
theorem Lexical.defined {nodes : List Node} (hc : Closed nodes) {m : Node → Map} {D : List DefAt} (h : Lexical nodes m D) :
    ∀ (s : Nat) (n : Node), size n ≤ s → n ∈ nodes → ∀ k l, m n k = some l → Anc l.defined n ∧ D[l.loc]? = some (l.defined, k) := by
  intro s
  induction s with
  | zero =>
    intro n hs hn k l hl
    have hpar : par n = none := by
      cases hp : par n with
      | none => rfl
      | some p => have := size_par hp; omega
    rw [h n hn k, hpar] at hl
    cases hi : lastIdx D n k with
    | none => rw [hi] at hl; cases hl
    | some i =>
      rw [hi] at hl; cases hl
      exact ⟨.refl n, ((lastIdx_some D n k i).1 hi).1⟩
  | succ s ih =>
    intro n hs hn k l hl
    rw [h n hn k] at hl
    cases hi : lastIdx D n k with
    | some i =>
      rw [hi] at hl; cases hl
      exact ⟨.refl n, ((lastIdx_some D n k i).1 hi).1⟩
    | none =>
      rw [hi] at hl
      cases hp : par n with
      | none => rw [hp] at hl; cases hl
      | some p =>
        rw [hp] at hl
        have := size_par hp
        obtain ⟨h1, h2⟩ := ih p (by omega) (hc.closed n hn p hp) k l hl
        exact ⟨.step hp h1, h2⟩

/-- Adding any number of definitions at one node and flowing once keeps the maps lexical. -/
theorem lexical_flow {nodes : List Node} (hc : Closed nodes) {m m' : Node → Map} {D D' : List DefAt} (h : Lexical nodes m D)
    (d : Node)
    (hoth : ∀ n, n ≠ d → m' n = m n ∧ ∀ k, lastIdx D' n k = lastIdx D n k)
    (hd : ∀ k, m' d k = match lastIdx D' d k with | some i => some ⟨i, d⟩ | none => m d k)
    (hmono : ∀ k, lastIdx D' d k = none → lastIdx D d k = none) :
    Lexical nodes (flow nodes d m') D' := by
  obtain ⟨f1, f2⟩ := flow_spec hc d m'
  -- nothing gets lost
  have hmono' : ∀ s n, size n ≤ s → n ∈ nodes → ∀ k, flow nodes d m' n k = none → m n k = none := by
    intro s
    induction s with
    | zero =>
      intro n hs hn k hk
      by_cases e : n = d
      · subst e
        rw [f1 n hn (.inr rfl), hd k] at hk
        cases hi : lastIdx D' n k with
        | some i => rw [hi] at hk; cases hk
        | none => rw [hi] at hk; exact hk
      · have hna : ¬ Anc d n := by
          intro ha
          obtain ⟨p, hp, -⟩ := ha.of_ne (Ne.symm e)
          have := size_par hp; omega
        rw [f1 n hn (.inl hna), (hoth n e).1] at hk
        exact hk
    | succ s ih =>
      intro n hs hn k hk
      by_cases e : n = d
      · subst e
        rw [f1 n hn (.inr rfl), hd k] at hk
        cases hi : lastIdx D' n k with
        | some i => rw [hi] at hk; cases hk
        | none => rw [hi] at hk; exact hk
      · by_cases ha : Anc d n
        · obtain ⟨p, hp, hap⟩ := ha.of_ne (Ne.symm e)
          rw [f2 n hn ha e p hp, (hoth n e).1] at hk
          simp only [accrete] at hk
          cases hf : flow nodes d m' p k with
          | none => rw [hf] at hk; exact hk
          | some v =>
            rw [hf] at hk
            cases hm : m n k with
            | none => rfl
            | some x => rw [hm] at hk; dsimp only at hk; split at hk <;> cases hk
        · rw [f1 n hn (.inl ha), (hoth n e).1] at hk
          exact hk
  intro n hn k
  by_cases e : n = d
  · subst e
    rw [f1 n hn (.inr rfl), hd k]
    cases hi : lastIdx D' n k with
    | some i => rfl
    | none =>
      dsimp only
      rw [h n hn k, hmono k hi]
      cases hp : par n with
      | none => rfl
      | some p =>
        simp only [Option.bind_some]
        have hna : ¬ Anc n p := by
          intro ha
          have := ha.size_le; have := size_par hp; omega
        have hne : p ≠ n := by rintro rfl; exact hna (.refl p)
        rw [f1 p (hc.closed n hn p hp) (.inl hna), (hoth p hne).1]
  · rw [(hoth n e).2 k]
    by_cases ha : Anc d n
    · obtain ⟨p, hp, hap⟩ := ha.of_ne (Ne.symm e)
      have hpn := hc.closed n hn p hp
      rw [f2 n hn ha e p hp, (hoth n e).1]
      simp only [accrete]
      have hm := h n hn k
      cases hi : lastIdx D n k with
      | some i =>
        rw [hi] at hm
        rw [hm]
        cases hf : flow nodes d m' p k <;> simp
      | none =>
        rw [hi, hp] at hm
        simp only [Option.bind_some] at hm
        rw [hp]
        simp only [Option.bind_some]
        cases hf : flow nodes d m' p k with
        | none =>
          dsimp only
          rw [hm]
          exact hmono' (size p) p (Nat.le_refl _) hpn k hf
        | some v =>
          cases hmn : m n k with
          | none => rfl
          | some x =>
            have hx := (Lexical.defined hc h (size p) p (Nat.le_refl _) hpn k x (hm ▸ hmn)).1
            have : x.defined ≠ n := by
              rintro rfl
              have := hx.size_le; have := size_par hp; omega
            simp [this]
    · rw [f1 n hn (.inl ha), (hoth n e).1, h n hn k]
      cases hi : lastIdx D n k with
      | some i => rfl
      | none =>
        dsimp only
        cases hp : par n with
        | none => rfl
        | some p =>
          simp only [Option.bind_some]
          have hap : ¬ Anc d p := fun hx => ha (.step hp hx)
          have hne : p ≠ d := by rintro rfl; exact hap (.refl p)
          rw [f1 p (hc.closed n hn p hp) (.inl hap), (hoth p hne).1]

/-- The definitions a change makes. -/
def Chg.defs : Chg → List DefAt
  | .newVar name n => [(n, name)]
  | .newLazy name _ n => [(n, name)]
  | _ => []

/-- All definitions, seeds first. -/
def allDefs (names : List String) (h : List Chg) : List DefAt := names.map (fun k => ([], k)) ++ h.flatMap Chg.defs

theorem run_snoc (nodes : List Node) (names : List String) (h : List Chg) (c : Chg) :
    run nodes names (h ++ [c]) = apply nodes (run nodes names h) c := by
  simp [run]

theorem allDefs_snoc (names : List String) (h : List Chg) (c : Chg) : allDefs names (h ++ [c]) = allDefs names h ++ c.defs := by
  simp [allDefs]

theorem seed_maps (names : List String) :
    (names.foldl (fun s name => addVar s name []) build).locals.length = names.length ∧
    ∀ n k, (names.foldl (fun s name => addVar s name []) build).maps n k =
      (lastIdx (names.map fun k => ([], k)) n k).map fun i => ⟨i, n⟩ := by
  refine snoc_ind (P := fun names => (names.foldl (fun s name => addVar s name []) build).locals.length = names.length ∧
    ∀ n k, (names.foldl (fun s name => addVar s name []) build).maps n k =
      (lastIdx (names.map fun k => ([], k)) n k).map fun i => ⟨i, n⟩) ?_ ?_ names
  · exact ⟨rfl, fun n k => rfl⟩
  · intro names x ⟨h1, h2⟩
    rw [List.foldl_append]
    generalize names.foldl (fun s name => addVar s name []) build = s at h1 h2
    refine ⟨by simp [addVar, define, h1], fun n k => ?_⟩
    simp only [List.foldl_cons, List.foldl_nil, addVar, define, List.map_append, List.map_cons, List.map_nil]
    rw [lastIdx_snoc, setMap]
    by_cases hn : n = []
    · subst hn
      by_cases hk : k = x
      · subst hk; simp [h1]
      · have : ¬ ((([] : Node), x) = ([], k)) := by simpa using Ne.symm hk
        simp [hk, this, h2]
    · have : ¬ ((([] : Node), x) = (n, k)) := by simp [Ne.symm hn]
      simp [hn, this, h2]

theorem lexical_build (nodes : List Node) : Lexical nodes build.maps [] := by
  intro n _ k
  cases hp : par n <;> simp [build, lastIdx]

theorem define_lexical {nodes : List Node} (hc : Closed nodes) (s : State) (D : List DefAt) (hl : s.locals.length = D.length)
    (h : Lexical nodes s.maps D) (name : String) (l : Local) (n : Node) (hn : n ∈ nodes) :
    Lexical nodes (flow nodes n (define s name l n).maps) (D ++ [(n, name)]) := by
  refine lexical_flow hc h n ?_ ?_ ?_
  · intro x hx
    refine ⟨by simp [define, setMap, hx], fun k => ?_⟩
    rw [lastIdx_snoc, if_neg (by simp [Ne.symm hx])]
  · intro k
    rw [lastIdx_snoc]
    by_cases hk : k = name
    · subst hk; simp [define, setMap, hl]
    · have : ¬ ((n, name) = (n, k)) := by simpa using Ne.symm hk
      simp only [define, setMap, if_neg hk, if_neg this, if_true]
      cases hi : lastIdx D n k with
      | none => rfl
      | some i =>
        dsimp only
        rw [h n hn k, hi]
  · intro k hk
    rw [lastIdx_snoc] at hk
    split at hk
    · cases hk
    · exact hk

theorem lexical_seed {nodes : List Node} (hc : Closed nodes) (names : List String) :
    Lexical nodes (seed nodes names).maps (allDefs names []) := by
  obtain ⟨-, h2⟩ := seed_maps names
  simp only [seed, allDefs, List.flatMap_nil, List.append_nil]
  refine lexical_flow hc (lexical_build nodes) [] ?_ ?_ ?_
  · intro n hn
    have hno : ∀ k, lastIdx (names.map fun k => (([] : Node), k)) n k = none := by
      intro k
      rw [lastIdx_none]
      intro i hi
      obtain ⟨x, -, hx⟩ := List.mem_map.1 (List.mem_of_getElem? hi)
      simp only [Prod.mk.injEq] at hx
      exact hn hx.1.symm
    refine ⟨?_, fun k => by rw [hno k]; rfl⟩
    funext k
    rw [h2 n k, hno k]
    rfl
  · intro k
    rw [h2 [] k]
    cases lastIdx (names.map fun k => (([] : Node), k)) [] k <;> rfl
  · intro k _; rfl

/-- Changes are made at nodes of the graph. -/
def At (nodes : List Node) (h : List Chg) : Prop := ∀ c ∈ h, ∀ d ∈ c.defs, d.1 ∈ nodes

theorem run_inv {nodes : List Node} (hc : Closed nodes) (names : List String) (h : List Chg) (hn : At nodes h) :
    (run nodes names h).locals.length = (allDefs names h).length ∧ Lexical nodes (run nodes names h).maps (allDefs names h) := by
  revert hn
  refine snoc_ind (P := fun h => At nodes h → (run nodes names h).locals.length = (allDefs names h).length ∧
    Lexical nodes (run nodes names h).maps (allDefs names h)) ?_ ?_ h
  · intro _
    refine ⟨?_, lexical_seed hc names⟩
    simp [run, seed, allDefs, (seed_maps names).1]
  · intro h c ih hn
    obtain ⟨i1, i2⟩ := ih fun c' hc' => hn c' (by simp [hc'])
    have hcn := hn c (by simp)
    rw [run_snoc, allDefs_snoc]
    cases c with
    | newVar name n =>
      have := define_lexical hc (run nodes names h) _ i1 i2 name (.var (run nodes names h).count) n (hcn (n, name) (by simp [Chg.defs]))
      exact ⟨by simp [apply, addVar, define, i1, Chg.defs], this⟩
    | newLazy name to n =>
      have := define_lexical hc (run nodes names h) _ i1 i2 name (.ptr to) n (hcn (n, name) (by simp [Chg.defs]))
      exact ⟨by simp [apply, define, i1, Chg.defs], this⟩
    | «seal» op => simpa [apply, Chg.defs] using ⟨i1, i2⟩
    | breakEdge op arg => simpa [apply, Chg.defs] using ⟨i1, i2⟩
    | sealExpr e => simpa [apply, Chg.defs] using ⟨i1, i2⟩

/-! ### C31: names resolve lexically -/

theorem Lexical.resolves {nodes : List Node} (hc : Closed nodes) {m : Node → Map} {D : List DefAt} (h : Lexical nodes m D) (k : String) :
    ∀ (s : Nat) (n : Node), size n ≤ s → n ∈ nodes → Resolves D n k ((m n k).map (·.loc)) := by
  intro s
  induction s with
  | zero =>
    intro n hs hn
    have hpar : par n = none := by
      cases hp : par n with
      | none => rfl
      | some p => have := size_par hp; omega
    rw [h n hn k, hpar]
    cases hi : lastIdx D n k with
    | some i => exact .here ((lastIdx_some D n k i).1 hi)
    | none => exact .top ((lastIdx_none D n k).1 hi) hpar
  | succ s ih =>
    intro n hs hn
    rw [h n hn k]
    cases hi : lastIdx D n k with
    | some i => exact .here ((lastIdx_some D n k i).1 hi)
    | none =>
      cases hp : par n with
      | none => exact .top ((lastIdx_none D n k).1 hi) hp
      | some p =>
        have := size_par hp
        exact .up ((lastIdx_none D n k).1 hi) hp (ih p (by omega) (hc.closed n hn p hp))

/-- C31. After any changes in any order, a node resolves a name to the latest definition at the nearest node that has one. -/
theorem lexical {nodes : List Node} (hc : Closed nodes) (names : List String) (h : List Chg) (ha : At nodes h)
    (n : Node) (hn : n ∈ nodes) (k : String) :
    Resolves (allDefs names h) n k (((run nodes names h).maps n k).map (·.loc)) :=
  Lexical.resolves hc (run_inv hc names h ha).2 k (size n) n (Nat.le_refl _) hn

theorem anc_sees {m n : Node} (h : Anc m n) : Sees n m := by
  induction h with
  | refl => exact .inl ⟨[], rfl, by simp⟩
  | @step n p hp h ih =>
    match n, hp with
    | .blk 0 :: q, hp =>
      simp only [par, Option.some.injEq] at hp; subst hp
      rcases ih with ⟨rest, e, hr⟩ | ⟨rest, p, i, j, e1, e2, hij, hr⟩
      · exact .inl ⟨.blk 0 :: rest, by simp [e], by simpa using hr⟩
      · exact .inr ⟨.blk 0 :: rest, p, i, j, by simp [e1], e2, hij, by simpa using hr⟩
    | .arg a :: q, hp =>
      simp only [par, Option.some.injEq] at hp; subst hp
      rcases ih with ⟨rest, e, hr⟩ | ⟨rest, p, i, j, e1, e2, hij, hr⟩
      · exact .inl ⟨.arg a :: rest, by simp [e], by simpa using hr⟩
      · exact .inr ⟨.arg a :: rest, p, i, j, by simp [e1], e2, hij, by simpa using hr⟩
    | .blk (b + 1) :: q, hp =>
      simp only [par, Option.some.injEq] at hp; subst hp
      rcases ih with ⟨rest, e, hr⟩ | ⟨rest, p, i, j, e1, e2, hij, hr⟩
      · cases rest with
        | nil => exact .inr ⟨[], q, b, b + 1, rfl, by simpa using e.symm, by omega, by simp⟩
        | cons x rest =>
          simp only [List.cons_append, List.cons.injEq] at e
          refine .inl ⟨.blk (b + 1) :: rest, by simp [e.2], fun k hk => ?_⟩
          rcases List.mem_cons.1 hk with hk | hk
          · cases hk
          · exact hr k (by simp [hk])
      · cases rest with
        | nil =>
          simp only [List.nil_append, List.cons.injEq, Mark.blk.injEq] at e1
          exact .inr ⟨[], q, i, b + 1, rfl, by rw [e2, e1.2], by omega, by simp⟩
        | cons x rest =>
          simp only [List.cons_append, List.cons.injEq] at e1
          refine .inr ⟨.blk (b + 1) :: rest, p, i, j, by simp [e1.2], e2, hij, fun k hk => ?_⟩
          rcases List.mem_cons.1 hk with hk | hk
          · cases hk
          · exact hr k (by simp [hk])

theorem anc_blk (p : Node) : ∀ j, Anc p (.blk j :: p)
  | 0 => .step rfl (.refl p)
  | j + 1 => .step rfl (anc_blk p j)

theorem anc_blk_le (p : Node) (i : Nat) : ∀ j, i ≤ j → Anc (.blk i :: p) (.blk j :: p)
  | 0, h => by
    have : i = 0 := by omega
    subst this; exact .refl _
  | j + 1, h => by
    by_cases e : i = j + 1
    · subst e; exact .refl _
    · exact .step rfl (anc_blk_le p i j (by omega))

theorem anc_rest (m : Node) : ∀ (rest : Node), (∀ k, Mark.body k ∉ rest) → Anc m (rest ++ m)
  | [], _ => .refl m
  | .blk j :: rest, h => (anc_rest m rest fun k hk => h k (by simp [hk])).trans (anc_blk _ j)
  | .arg i :: rest, h => .step rfl (anc_rest m rest fun k hk => h k (by simp [hk]))
  | .body k :: rest, h => absurd (by simp) (h k)

/-- C31. The nodes a name may come from are exactly those that enclose or precede: nothing comes from a later block,
from another argument, or across the boundary of a command. -/
theorem sees_iff (m n : Node) : Anc m n ↔ Sees n m := by
  refine ⟨anc_sees, ?_⟩
  rintro (⟨rest, rfl, hr⟩ | ⟨rest, p, i, j, rfl, rfl, hij, hr⟩)
  · exact anc_rest m rest hr
  · exact (anc_blk_le p i j (by omega)).trans (anc_rest _ rest hr)

/-- C31. What a name resolves to was defined, under that name, at a node that encloses or precedes. -/
theorem resolved_sees {nodes : List Node} (hc : Closed nodes) (names : List String) (h : List Chg) (ha : At nodes h)
    (n : Node) (hn : n ∈ nodes) (k : String) (l : Loc) (hl : (run nodes names h).maps n k = some l) :
    Sees n l.defined ∧ (allDefs names h)[l.loc]? = some (l.defined, k) := by
  obtain ⟨h1, h2⟩ := Lexical.defined hc (run_inv hc names h ha).2 (size n) n (Nat.le_refl _) hn k l hl
  exact ⟨(sees_iff _ _).1 h1, h2⟩

theorem lastIdx_isSome (D : List DefAt) (n : Node) (k : String) : (lastIdx D n k).isSome ↔ (n, k) ∈ D := by
  rw [Option.isSome_iff_ne_none, ne_eq, lastIdx_none]
  constructor
  · intro h
    apply Classical.byContradiction
    intro hc
    exact h fun i hi => hc (List.mem_of_getElem? hi)
  · intro h hx
    obtain ⟨i, hi⟩ := List.getElem?_of_mem h
    exact hx i hi

/-- C31. The order in which variables are discovered does not matter: the node whose definition is meant depends only on
which names are defined where. -/
theorem order_irrelevant {nodes : List Node} (hc : Closed nodes) (names names' : List String) (h h' : List Chg)
    (ha : At nodes h) (ha' : At nodes h') (hD : ∀ d, d ∈ allDefs names h ↔ d ∈ allDefs names' h') (k : String) :
    ∀ (s : Nat) (n : Node), size n ≤ s → n ∈ nodes →
      ((run nodes names h).maps n k).map (·.defined) = ((run nodes names' h').maps n k).map (·.defined) := by
  intro s
  have l1 := (run_inv hc names h ha).2
  have l2 := (run_inv hc names' h' ha').2
  have key : ∀ n, (lastIdx (allDefs names h) n k).isSome = (lastIdx (allDefs names' h') n k).isSome := by
    intro n
    rw [Bool.eq_iff_iff, lastIdx_isSome, lastIdx_isSome]
    exact hD (n, k)
  induction s with
  | zero =>
    intro n hs hn
    have hpar : par n = none := by
      cases hp : par n with
      | none => rfl
      | some p => have := size_par hp; omega
    have hk := key n
    rw [l1 n hn k, l2 n hn k, hpar]
    cases h1 : lastIdx (allDefs names h) n k <;> cases h2 : lastIdx (allDefs names' h') n k <;> simp_all
  | succ s ih =>
    intro n hs hn
    have hk := key n
    rw [l1 n hn k, l2 n hn k]
    cases h1 : lastIdx (allDefs names h) n k with
    | some i =>
      cases h2 : lastIdx (allDefs names' h') n k with
      | some i' => rfl
      | none => rw [h1, h2] at hk; cases hk
    | none =>
      cases h2 : lastIdx (allDefs names' h') n k with
      | some i' => rw [h1, h2] at hk; cases hk
      | none =>
        cases hp : par n with
        | none => rfl
        | some p =>
          have := size_par hp
          exact ih p (by omega) (hc.closed n hn p hp)

/-! ### C31: an answer stays -/

/-- `comp/mod.rs:386-438`, `blk.rs:103-230`, `params.rs:24-64`: when definitions are made. A block defines variables at the
next block or at its own arguments, before it is sealed; at an argument only while the argument still waits for its block;
parameters are defined at the expression of a definition before that is sealed. -/
def Allowed (s : State) : Node → Prop
  | .blk (j + 1) :: p => s.isSealed (.blk j :: p) = false
  | .arg i :: q => s.isSealed q = false ∧ q ∈ s.seals (.arg i :: q)
  | .body k :: q => s.isSealed (.body k :: q) = false
  | _ => False

def Disciplined (nodes : List Node) : State → List Chg → Prop
  | _, [] => True
  | s, c :: h => (∀ d ∈ c.defs, Allowed s d.1) ∧ (∀ op arg, c = .breakEdge op arg → ∃ i, arg = .arg i :: op) ∧
      Disciplined nodes (apply nodes s c) h

/-- Only the edges from arguments to their blocks are ever removed. -/
def EdgesOk (s : State) : Prop := ∀ n m, m ∈ sealEdges n → (∀ i, n ≠ .arg i :: m) → m ∈ s.seals n

/-- Arguments belong to blocks. -/
def ArgsOk (nodes : List Node) : Prop := ∀ i q, Mark.arg i :: q ∈ nodes → ∃ j p, q = Mark.blk j :: p

theorem sealedIn_here {s : State} : ∀ {f : Nat} {n : Node}, sealedIn s f n = true → s.isSealed n = true
  | 0, _, h => h
  | _ + 1, _, h => by simp only [sealedIn, Bool.and_eq_true] at h; exact h.1

theorem sealedIn_edge {s : State} {f : Nat} {n m : Node} (h : sealedIn s (f + 1) n = true) (hm : m ∈ s.seals n) :
    sealedIn s f m = true := by
  simp only [sealedIn, Bool.and_eq_true, List.all_eq_true] at h
  exact h.2 m hm

theorem sealedIn_less {s : State} : ∀ {f g : Nat} {n : Node}, g ≤ f → sealedIn s f n = true → sealedIn s g n = true
  | f, 0, n, _, h => sealedIn_here h
  | 0, g + 1, n, hg, h => by omega
  | f + 1, g + 1, n, hg, h => by
    simp only [sealedIn, Bool.and_eq_true, List.all_eq_true] at h ⊢
    exact ⟨h.1, fun m hm => sealedIn_less (by omega) (h.2 m hm)⟩

/-- Nothing can be defined any more where a sealed node may get its names from. -/
theorem sealed_no_defs {nodes : List Node} (hc : Closed nodes) (hargs : ArgsOk nodes) {s : State} (he : EdgesOk s) :
    ∀ (f : Nat) (n : Node), size n ≤ f → n ∈ nodes → sealedIn s f n = true → ∀ m, Anc m n → ¬ Allowed s m := by
  intro f
  induction f with
  | zero =>
    intro n hf hn hs m hm
    match n, hf with
    | [], _ =>
      cases hm with
      | refl => exact fun h => h
      | step hp _ => cases hp
    | .blk j :: p, hf => simp only [size] at hf; omega
    | .arg j :: p, hf => simp only [size] at hf; omega
    | .body j :: p, hf => simp only [size] at hf; omega
  | succ f ih =>
    intro n hf hn hs m hm
    match n, hn, hf, hs, hm with
    | [], _, _, _, hm =>
      cases hm with
      | refl => exact fun h => h
      | step hp _ => cases hp
    | .body k :: q, hn, hf, hs, hm =>
      cases hm with
      | refl => intro h; simp only [Allowed] at h; rw [sealedIn_here hs] at h; cases h
      | step hp _ => cases hp
    | .blk 0 :: p, hn, hf, hs, hm =>
      have hp' : p ∈ s.seals (.blk 0 :: p) := he _ _ (by simp [sealEdges]) (by simp)
      cases hm with
      | refl => exact fun h => h
      | step hp h =>
        simp only [par, Option.some.injEq] at hp; subst hp
        simp only [size] at hf
        exact ih p (by omega) (hc.closed _ hn p rfl) (sealedIn_edge hs hp') m h
    | .blk (j + 1) :: p, hn, hf, hs, hm =>
      have hp' : .blk j :: p ∈ s.seals (.blk (j + 1) :: p) := he _ _ (by simp [sealEdges]) (by simp)
      have hs' := sealedIn_edge hs hp'
      cases hm with
      | refl => intro h; simp only [Allowed] at h; rw [sealedIn_here hs'] at h; cases h
      | step hp h =>
        simp only [par, Option.some.injEq] at hp; subst hp
        simp only [size] at hf
        exact ih _ (by simp only [size]; omega) (hc.closed _ hn _ rfl) hs' m h
    | .arg i :: q, hn, hf, hs, hm =>
      obtain ⟨j, p, rfl⟩ := hargs i q hn
      have hq : .blk j :: p ∈ nodes := hc.closed _ hn _ rfl
      simp only [size] at hf
      cases hm with
      | refl =>
        intro h
        simp only [Allowed] at h
        rw [sealedIn_here (sealedIn_edge hs h.2)] at h
        cases h.1
      | step hp h =>
        simp only [par, Option.some.injEq] at hp; subst hp
        match j, hf, hs, hq, h with
        | 0, hf, hs, hq, h =>
          have hp' : p ∈ s.seals (.arg i :: .blk 0 :: p) := he _ _ (by simp [sealEdges, par]) (by simp)
          cases h with
          | refl => exact fun h => h
          | step hp2 h =>
            simp only [par, Option.some.injEq] at hp2; subst hp2
            exact ih p (by omega) (hc.closed _ hq p rfl) (sealedIn_edge hs hp') m h
        | j + 1, hf, hs, hq, h =>
          have hp' : .blk j :: p ∈ s.seals (.arg i :: .blk (j + 1) :: p) := he _ _ (by simp [sealEdges, par]) (by simp)
          have hs' := sealedIn_edge hs hp'
          cases h with
          | refl => intro h; simp only [Allowed] at h; rw [sealedIn_here hs'] at h; cases h
          | step hp2 h =>
            simp only [par, Option.some.injEq] at hp2; subst hp2
            exact ih _ (by simp only [size]; omega) (hc.closed _ hq _ rfl) hs' m h

theorem apply_sealedIn (nodes : List Node) (s : State) (c : Chg) : ∀ (f : Nat) (n : Node), sealedIn s f n = true →
    sealedIn (apply nodes s c) f n = true := by
  have h1 : ∀ n, s.isSealed n = true → (apply nodes s c).isSealed n = true := by
    intro n h
    cases c <;> simp [apply, addVar, define, h]
  have h2 : ∀ n m, m ∈ (apply nodes s c).seals n → m ∈ s.seals n := by
    intro n m hm
    cases c with
    | breakEdge op arg =>
      simp only [apply] at hm
      split at hm
      · exact (List.mem_filter.1 hm).1
      · exact hm
    | newVar name n => exact hm
    | newLazy name to n => exact hm
    | «seal» op => exact hm
    | sealExpr e => exact hm
  intro f
  induction f with
  | zero => intro n h; exact h1 n h
  | succ f ih =>
    intro n h
    simp only [sealedIn, Bool.and_eq_true, List.all_eq_true] at h ⊢
    exact ⟨h1 n h.1, fun m hm => ih m (h.2 m (h2 n m hm))⟩

theorem apply_edges (nodes : List Node) (s : State) (c : Chg) (hb : ∀ op arg, c = .breakEdge op arg → ∃ i, arg = .arg i :: op)
    (he : EdgesOk s) : EdgesOk (apply nodes s c) := by
  intro n m hm hne
  have := he n m hm hne
  cases c with
  | breakEdge op arg =>
    obtain ⟨i, rfl⟩ := hb op arg rfl
    simp only [apply]
    by_cases hn : n = .arg i :: op
    · subst hn
      rw [if_pos rfl]
      refine List.mem_filter.2 ⟨this, ?_⟩
      have : m ≠ op := by rintro rfl; exact hne i rfl
      simpa using this
    · rw [if_neg hn]; exact this
  | newVar name n => exact this
  | newLazy name to n => exact this
  | «seal» op => exact this
  | sealExpr e => exact this

theorem edges_seed (nodes : List Node) (names : List String) : EdgesOk (seed nodes names) := by
  have : (names.foldl (fun s name => addVar s name []) build).seals = sealEdges := by
    refine snoc_ind (P := fun names => (names.foldl (fun s name => addVar s name []) build).seals = sealEdges) rfl ?_ names
    intro l x ih
    rw [List.foldl_append]
    exact ih
  intro n m hm _
  simp only [seed, this]
  exact hm

theorem disciplined_append (nodes : List Node) : ∀ (h h' : List Chg) (s : State), Disciplined nodes s (h ++ h') →
    Disciplined nodes s h ∧ Disciplined nodes (h.foldl (apply nodes) s) h'
  | [], _, _, hd => ⟨trivial, hd⟩
  | c :: h, h', s, hd => by
    obtain ⟨d1, d2, d3⟩ := hd
    obtain ⟨e1, e2⟩ := disciplined_append nodes h h' _ d3
    exact ⟨⟨d1, d2, e1⟩, e2⟩

theorem disciplined_edges (nodes : List Node) : ∀ (h : List Chg) (s : State), Disciplined nodes s h → EdgesOk s →
    EdgesOk (h.foldl (apply nodes) s)
  | [], _, _, he => he
  | _ :: h, _, hd, he => disciplined_edges nodes h _ hd.2.2 (apply_edges nodes _ _ hd.2.1 he)

theorem later_defs {nodes : List Node} (hc : Closed nodes) (hargs : ArgsOk nodes) (n : Node) (hn : n ∈ nodes) :
    ∀ (h : List Chg) (s : State), Disciplined nodes s h → EdgesOk s → isSealedAt s n = true →
      ∀ d ∈ h.flatMap Chg.defs, ¬ Anc d.1 n
  | [], _, _, _, _, d, hd => by cases hd
  | c :: h, s, hdis, he, hs, d, hd => by
    rw [List.flatMap_cons] at hd
    rcases List.mem_append.1 hd with hd | hd
    · exact fun ha => sealed_no_defs hc hargs he (size n) n (Nat.le_refl _) hn hs d.1 ha (hdis.1 d hd)
    · exact later_defs hc hargs n hn h _ hdis.2.2 (apply_edges nodes _ _ hdis.2.1 he) (apply_sealedIn nodes s c _ _ hs) d hd

theorem lastIdx_append_none (D E : List DefAt) (n : Node) (k : String) (h : (n, k) ∉ E) : lastIdx (D ++ E) n k = lastIdx D n k := by
  revert h
  refine snoc_ind (P := fun E => (n, k) ∉ E → lastIdx (D ++ E) n k = lastIdx D n k) ?_ ?_ E
  · intro _; simp
  · intro E e ih h
    rw [← List.append_assoc, lastIdx_snoc, if_neg (by rintro rfl; simp at h)]
    exact ih fun hx => h (by simp [hx])

/-- C31. Once the compiler gets an answer for a name, later discoveries do not change it. -/
theorem answer_final_partial {nodes : List Node} (hc : Closed nodes) (hargs : ArgsOk nodes) (names : List String) (h h' : List Chg)
    (ha : At nodes (h ++ h')) (hd : Disciplined nodes (seed nodes names) (h ++ h')) (n : Node) (hn : n ∈ nodes) (k : String)
    (r : Option Local) (hr : get (run nodes names h) n k = some r) : get (run nodes names (h ++ h')) n k = some r := by
  have hs : isSealedAt (run nodes names h) n = true := by
    unfold get at hr
    split at hr
    · assumption
    · cases hr
  obtain ⟨d1, d2⟩ := disciplined_append nodes h h' _ hd
  have hedges : EdgesOk (run nodes names h) := disciplined_edges nodes h _ d1 (edges_seed nodes names)
  have hlater := later_defs hc hargs n hn h' _ d2 hedges hs
  have hrun : run nodes names (h ++ h') = h'.foldl (apply nodes) (run nodes names h) := by simp [run]
  have hs' : isSealedAt (run nodes names (h ++ h')) n = true := by
    rw [hrun]
    have : ∀ (h' : List Chg) (s : State), sealedIn s (size n) n = true → sealedIn (h'.foldl (apply nodes) s) (size n) n = true := by
      intro h'
      induction h' with
      | nil => intro s hs; exact hs
      | cons c h' ih => intro s hs; exact ih _ (apply_sealedIn nodes s c _ _ hs)
    exact this h' _ hs
  have ha1 : At nodes h := fun c hc' => ha c (by simp [hc'])
  have i1 := run_inv hc names h ha1
  have i2 := run_inv hc names (h ++ h') ha
  have hD : allDefs names (h ++ h') = allDefs names h ++ h'.flatMap Chg.defs := by simp [allDefs]
  -- the maps of all ancestors agree
  have hmaps : ∀ s m, size m ≤ s → Anc m n → (run nodes names (h ++ h')).maps m k = (run nodes names h).maps m k := by
    intro s
    induction s with
    | zero =>
      intro m hm hmn
      have hmem := hmn.mem hc hn
      have hpar : par m = none := by
        cases hp : par m with
        | none => rfl
        | some p => have := size_par hp; omega
      have : (m, k) ∉ h'.flatMap Chg.defs := fun hx => hlater _ hx hmn
      rw [i2.2 m hmem k, i1.2 m hmem k, hD, lastIdx_append_none _ _ _ _ this, hpar]
      rfl
    | succ s ih =>
      intro m hm hmn
      have hmem := hmn.mem hc hn
      have : (m, k) ∉ h'.flatMap Chg.defs := fun hx => hlater _ hx hmn
      rw [i2.2 m hmem k, i1.2 m hmem k, hD, lastIdx_append_none _ _ _ _ this]
      cases lastIdx (allDefs names h) m k with
      | some i => rfl
      | none =>
        cases hp : par m with
        | none => rfl
        | some p =>
          have h1 := size_par hp
          exact ih p (by omega) ((Anc.step hp (.refl p)).trans hmn)
  -- locals are only appended
  have hlocals : ∀ (h' : List Chg) (s : State), ∃ more, (h'.foldl (apply nodes) s).locals = s.locals ++ more := by
    intro h'
    induction h' with
    | nil => intro s; exact ⟨[], by simp⟩
    | cons c h' ih =>
      intro s
      obtain ⟨more, hm⟩ := ih (apply nodes s c)
      simp only [List.foldl_cons]
      rw [hm]
      cases c with
      | newVar name n => exact ⟨.var s.count :: more, by simp [apply, addVar, define]⟩
      | newLazy name to n => exact ⟨.ptr to :: more, by simp [apply, define]⟩
      | «seal» op => exact ⟨more, rfl⟩
      | breakEdge op arg => exact ⟨more, rfl⟩
      | sealExpr e => exact ⟨more, rfl⟩
  unfold get at hr ⊢
  rw [if_pos hs] at hr
  rw [if_pos hs', ← hr]
  unfold getAny
  rw [hmaps (size n) n (Nat.le_refl _) (.refl n)]
  cases hl : (run nodes names h).maps n k with
  | none => rfl
  | some l =>
    simp only [Option.bind_some]
    obtain ⟨more, hm⟩ := hlocals h' (run nodes names h)
    have hlt : l.loc < (run nodes names h).locals.length := by
      rw [i1.1]
      exact (List.getElem?_eq_some_iff.1 (Lexical.defined hc i1.2 (size n) n (Nat.le_refl _) hn k l hl).2).1
    rw [hrun, hm, List.getElem?_append_left hlt]

/-! ### C32: every variable has storage of its own -/

def slotOf : Local → Option Nat
  | .var s => some s
  | .ptr _ => none

theorem define_slots (s : State) (name : String) (n : Node) (h : s.locals.filterMap slotOf = List.range s.count) :
    (addVar s name n).locals.filterMap slotOf = List.range (addVar s name n).count := by
  simp only [addVar, define, List.filterMap_append, h, List.range_succ]
  simp [slotOf]

/-- C32. The variables created so far have the slots 0, 1, 2, … in order of creation, one each, and the environment made
for a program has exactly that many. -/
theorem slots (nodes : List Node) (names : List String) (h : List Chg) :
    (run nodes names h).locals.filterMap slotOf = List.range (run nodes names h).count := by
  refine snoc_ind (P := fun h => (run nodes names h).locals.filterMap slotOf = List.range (run nodes names h).count) ?_ ?_ h
  · show (seed nodes names).locals.filterMap slotOf = List.range (seed nodes names).count
    simp only [seed]
    refine snoc_ind (P := fun names => (names.foldl (fun s name => addVar s name []) build).locals.filterMap slotOf =
      List.range (names.foldl (fun s name => addVar s name []) build).count) rfl ?_ names
    intro l x ih
    rw [List.foldl_append]
    exact define_slots _ x [] ih
  · intro h c ih
    rw [run_snoc]
    cases c with
    | newVar name n => exact define_slots _ name n ih
    | newLazy name to n =>
      simp only [apply, define, List.filterMap_append, ih]
      simp [slotOf]
    | «seal» op => exact ih
    | breakEdge op arg => exact ih
    | sealExpr e => exact ih

/-- C32. Two variables have different slots, and each is below the number of variables. -/
theorem slots_distinct (nodes : List Node) (names : List String) (h : List Chg) (i j a b : Nat)
    (hi : (run nodes names h).locals[i]? = some (.var a)) (hj : (run nodes names h).locals[j]? = some (.var b)) :
    a < (run nodes names h).count ∧ (i ≠ j → a ≠ b) := by
  have hs := slots nodes names h
  constructor
  · have : a ∈ (run nodes names h).locals.filterMap slotOf := List.mem_filterMap.2 ⟨_, List.mem_of_getElem? hi, rfl⟩
    rw [hs] at this
    simpa using this
  · have key : ∀ (l : List Local), (l.filterMap slotOf).Nodup → ∀ (i j : Nat) (a : Nat), l[i]? = some (.var a) →
        l[j]? = some (.var a) → i = j := by
      intro l
      induction l with
      | nil => intro _ i j a hi; simp at hi
      | cons x l ih =>
        intro hn i j a hi hj
        have hn' : (l.filterMap slotOf).Nodup := by
          rw [List.filterMap_cons] at hn
          split at hn
          · exact hn
          · exact (List.nodup_cons.1 hn).2
        have hx : ∀ k : Nat, l[k]? = some (Local.var a) → x ≠ Local.var a := by
          rintro k hk rfl
          simp only [List.filterMap_cons, slotOf, List.nodup_cons] at hn
          exact hn.1 (List.mem_filterMap.2 ⟨_, List.mem_of_getElem? hk, rfl⟩)
        cases i with
        | zero =>
          cases j with
          | zero => rfl
          | succ j => simp only [List.getElem?_cons_zero, Option.some.injEq] at hi; exact absurd hi (hx j (by simpa using hj))
        | succ i =>
          cases j with
          | zero => simp only [List.getElem?_cons_zero, Option.some.injEq] at hj; exact absurd hj (hx i (by simpa using hi))
          | succ j => rw [ih hn' i j a (by simpa using hi) (by simpa using hj)]
    intro hne e
    subst e
    exact hne (key _ (by rw [hs]; exact List.nodup_range) i j a hi hj)

/-- The `i`th definition made is the `i`th local: a variable or a pointer, as asked for. -/
def Chg.kinds : Chg → List (Option Node)
  | .newVar _ _ => [none]
  | .newLazy _ to _ => [some to]
  | _ => []

def ptrOf : Local → Option Node
  | .var _ => none
  | .ptr to => some to

theorem kinds (nodes : List Node) (names : List String) (h : List Chg) :
    (run nodes names h).locals.map ptrOf = names.map (fun _ => none) ++ h.flatMap Chg.kinds := by
  refine snoc_ind (P := fun h => (run nodes names h).locals.map ptrOf = names.map (fun _ => none) ++ h.flatMap Chg.kinds) ?_ ?_ h
  · show (seed nodes names).locals.map ptrOf = _
    simp only [seed, List.flatMap_nil, List.append_nil]
    refine snoc_ind (P := fun names => (names.foldl (fun s name => addVar s name []) build).locals.map ptrOf =
      names.map fun _ => none) rfl ?_ names
    intro l x ih
    rw [List.foldl_append]
    simp only [List.foldl_cons, List.foldl_nil]
    generalize l.foldl (fun s name => addVar s name []) build = s at ih
    simp [addVar, define, ptrOf, ih]
  · intro h c ih
    rw [run_snoc]
    cases c <;> simp [apply, addVar, define, ptrOf, ih, Chg.kinds]

/-- C32. A block that is compiled again finds the variable it created before instead of creating another: there is a
variable to reuse exactly if one of that name was defined at that node. -/
theorem reused {nodes : List Node} (hc : Closed nodes) (names : List String) (h : List Chg) (ha : At nodes h)
    (n : Node) (hn : n ∈ nodes) (k : String) :
    newVar (run nodes names h) n k = if (n, k) ∈ allDefs names h then
      (lastIdx (allDefs names h) n k).map fun i => (run nodes names h).locals[i]? else none := by
  obtain ⟨i1, i2⟩ := run_inv hc names h ha
  have hs := lastIdx_isSome (allDefs names h) n k
  unfold newVar
  cases hl : lastIdx (allDefs names h) n k with
  | some i =>
    rw [hl] at hs
    rw [if_pos (hs.1 rfl), i2 n hn k, hl]
    simp only [Option.map_some, Option.filter_some]
    simp
  | none =>
    rw [hl] at hs
    rw [if_neg (fun hx => by have := hs.2 hx; simp at this)]
    cases hm : (run nodes names h).maps n k with
    | none => rfl
    | some l =>
      have h2 := (Lexical.defined hc i2 (size n) n (Nat.le_refl _) hn k l hm).2
      have : l.defined ≠ n := by
        rintro rfl
        have := hs.2 (List.mem_of_getElem? h2)
        simp at this
      simp [Option.filter, this]

/-! ### Examples -/

/-- `\ 5 | let $x | + $x {let $y | + $x $y}`: the root, three blocks, arguments, an expression with two blocks. -/
def demo : List Node :=
  [[], [.blk 0], [.arg 0, .blk 0], [.blk 1], [.arg 0, .blk 1], [.blk 2], [.arg 0, .blk 2], [.arg 1, .blk 2],
   [.blk 0, .arg 1, .blk 2], [.arg 0, .blk 0, .arg 1, .blk 2], [.blk 1, .arg 1, .blk 2], [.arg 0, .blk 1, .arg 1, .blk 2],
   [.arg 1, .blk 1, .arg 1, .blk 2]]

theorem demo_closed : Closed demo ∧ ArgsOk demo := by
  refine ⟨⟨by decide, by decide⟩, ?_⟩
  intro i q h
  simp only [demo, List.mem_cons, List.cons.injEq, List.not_mem_nil, or_false, reduceCtorEq, false_and, or_false, false_or] at h
  rcases h with ⟨-, rfl⟩ | ⟨-, rfl⟩ | ⟨-, rfl⟩ | ⟨-, rfl⟩ | ⟨-, rfl⟩ | ⟨-, rfl⟩ | ⟨-, rfl⟩ <;> exact ⟨_, _, rfl⟩

def demoHistory : List Chg :=
  [.seal [.blk 0], .breakEdge [.blk 1] [.arg 0, .blk 1], .breakEdge [.blk 0, .arg 1, .blk 2] [.arg 0, .blk 0, .arg 1, .blk 2],
   .newVar "y" [.blk 1, .arg 1, .blk 2], .seal [.blk 0, .arg 1, .blk 2], .newVar "x" [.blk 2], .seal [.blk 1]]

example : (getAny (run demo [] demoHistory) [.arg 0, .blk 1, .arg 1, .blk 2] "x" = some (.var 1)) ∧
    (getAny (run demo [] demoHistory) [.arg 1, .blk 1, .arg 1, .blk 2] "y" = some (.var 0)) ∧
    (getAny (run demo [] demoHistory) [.arg 0, .blk 2] "y" = none) ∧
    (getAny (run demo [] demoHistory) [.arg 0, .blk 1] "x" = none) ∧
    (get (run demo [] demoHistory) [.arg 0, .blk 1] "x" = some none) ∧
    (get (run demo [] demoHistory) [.arg 0, .blk 2] "x" = none) := by
  decide +kernel

example : Disciplined demo (seed demo []) demoHistory := by
  simp only [demoHistory, Disciplined]
  refine ⟨by simp [Chg.defs], by simp, by simp [Chg.defs], by simp, by simp [Chg.defs], by simp, ?_, by simp, by simp [Chg.defs],
    by simp, ?_, by simp, by simp [Chg.defs], by simp, trivial⟩
  · simp only [Chg.defs, List.mem_singleton, forall_eq, Allowed]; decide +kernel
  · simp only [Chg.defs, List.mem_singleton, forall_eq, Allowed]; decide +kernel

/-- Without that discipline an answer may change: `fold-while` (`morphism.rs:602-622`) has its block sealed before it
defines `$row` at its last argument, where an outer `$row` may have been found meanwhile. -/
theorem late_definition_changes_answer :
    get (run demo ["row"] [.seal [.blk 0], .seal [.blk 1], .seal [.blk 2]]) [.arg 1, .blk 2] "row" = some (some (.var 0)) ∧
    get (run demo ["row"] [.seal [.blk 0], .seal [.blk 1], .seal [.blk 2], .newVar "row" [.arg 1, .blk 2]]) [.arg 1, .blk 2] "row" =
      some (some (.var 1)) := by
  decide +kernel

end Verif.Loc
