import Verif.Props.TabOrder
/-! C21, C22: grouping and removing duplicates. -/
namespace Verif.Tab
open Std
variable {N : Type}

/-! ## C21: grp, grp-by -/

/-- `grp c₁ … cₙ`: a table of keys and groups. Keys are the printed cells joined by `-`; they increase strictly;
each group is a table with the header and exactly the rows with that key, in order; every row is in a group. -/
theorem grp_groups_partial {h : List (Entry N)} {d : Rows N} (ht : Rect (h :: d)) (print : Entry N → String) {names : List String}
    {cs : List Nat} (hc : Columns (h :: d) names cs) :
    ∃ m, Grouped strCmp h (d.map fun r => (grpKey print cs r, r)) m ∧
      grp print (h :: d) (names.map .ok) =
        .ok ([.obj (.str "key"), .obj (.str "value")] :: m.map fun g => [.obj (.str g.1), .obj (.tab g.2)]) := by
  have hpos : 0 < h.length := by have := ht.len (r := h) (by simp); omega
  have hl : ∀ r ∈ d, r.length = h.length := by
    intro r hr
    have := (ht.len (r := r) (by simp [hr])).1
    simpa [width] using this
  have g := groups_spec strCmp hpos (d.map fun r => (grpKey print cs r, r)) [] [] (grouped_nil strCmp h) (by
    intro x hx
    simp only [List.nil_append, List.mem_map] at hx
    obtain ⟨r, hr, rfl⟩ := hx
    exact hl r hr)
  refine ⟨_, by simpa using g, ?_⟩
  unfold grp
  simp only
  rw [(columns_iff (h :: d) (names.map .ok) cs).2 ⟨names, rfl, hc⟩]
  simp only [Except.map]
  rw [buildGroups_eq]
  rfl

/-- Two strings compare equal only if they are the same, so each row is in exactly one group. -/
theorem grp_one_group {h : List (Entry N)} {ks : List (String × List (Entry N))} {m : List (String × Rows N)} (g : Grouped strCmp h ks m)
    (x : String × List (Entry N)) (hx : x ∈ ks) : ∃ a ∈ m, a.1 = x.1 ∧ x.2 ∈ a.2 ∧ ∀ b ∈ m, b.1 = x.1 → b = a := by
  have heq : ∀ a b : String, strCmp a b = .eq → a = b := by
    intro a b h
    unfold strCmp at h
    split at h
    · cases h
    · split at h
      · assumption
      · cases h
  obtain ⟨a, ha, hxa⟩ := g.cover x hx
  have e := heq _ _ hxa
  refine ⟨a, ha, e.symm, ?_, ?_⟩
  · rw [g.rows a ha]
    exact List.mem_cons_of_mem _ (List.mem_map.2 ⟨x, List.mem_filter.2 ⟨hx, by simpa using hxa⟩, rfl⟩)
  · intro b hb hbx
    have key : ∀ (l : List (String × Rows N)), (l.Pairwise fun a b => strCmp a.1 b.1 = .lt) → a ∈ l → b ∈ l → b = a := by
      intro l hl
      induction hl with
      | nil => intro h; cases h
      | cons h1 _ ih =>
        intro h2 h3
        rcases List.mem_cons.1 h2 with e2 | h2 <;> rcases List.mem_cons.1 h3 with e3 | h3
        · rw [e2, e3]
        · have := h1 _ h3; rw [← e2, hbx, ← e, ReflCmp.compare_self (cmp := strCmp)] at this; cases this
        · have := h1 _ h2; rw [← e3, hbx, ← e, ReflCmp.compare_self (cmp := strCmp)] at this; cases this
        · exact ih h2 h3
    exact key m g.sorted ha hb

/-- With a single key column rows in one group print alike in that column. -/
theorem grp_single_column (print : Entry N → String) (c : Nat) (r r' : List (Entry N)) (h : grpKey print [c] r = grpKey print [c] r') :
    print (at_ r c) = print (at_ r' c) := by
  simpa [grpKey] using h

/-- Printing of strings and small numbers, for examples. -/
def pr : Entry Int → String
  | .obj (.str s) => s
  | .num 1 => "1"
  | _ => "-"

example : valOf ((grp pr people [.ok "name"]).map (·.length)) = some 4 ∧ Columns people ["name"] [0] :=
  ⟨by decide +kernel, (colIdx_ok people "name" 0).1 (by decide +kernel), trivial⟩

/-- With two key columns, rows that differ in both may share a group: the separator can be part of a cell. -/
def dashes : Rows Int := [[s "a", s "b"], [s "x-y", s "z"], [s "x", s "y-z"]]

theorem grp_merges : valOf ((grp pr dashes [.ok "a", .ok "b"]).map (·.length)) = some 2 ∧
    at_ (dashes[1]?.getD []) 0 ≠ at_ (dashes[2]?.getD []) 0 := by
  refine ⟨by decide +kernel, ?_⟩
  intro h
  have : headerText (some (at_ (dashes[1]?.getD []) 0)) = headerText (some (at_ (dashes[2]?.getD []) 0)) := by rw [h]
  revert this
  decide +kernel

/-- So may a number and a string that print alike. -/
theorem grp_merges_kinds : valOf ((grp pr [[s "a"], [.num 1], [s "1"]] [.ok "a"]).map (·.length)) = some 2 := by decide +kernel

/-- `grp-by`: the same with computed keys and their comparison, assumed to be a total preorder. -/
theorem grp_by_groups {h : List (Entry N)} {d : Rows N} (ht : Rect (h :: d)) (key : Rows N → Nat → Prog N (Value N))
    (cmp : Value N → Value N → Res Ordering) [TransCmp (cmpOrEq cmp)] (sched : Sched) (hs : Schedule (h :: d).length sched) :
    (∃ k : Nat → Value N, (∀ i, 1 ≤ i → i < (h :: d).length → evalRow (h :: d) i (key (h :: d) i) = .ok (k i)) ∧
      ∃ m, Grouped (cmpOrEq cmp) h ((d.zipIdx 1).map fun x => (k x.2, x.1)) m ∧
        grpBy (h :: d) key cmp sched =
          .ok ([.obj (.str "key"), .obj (.str "value")] :: m.map fun g => [g.1.entry, .obj (.tab g.2)])) ∨
    (∃ (i : Nat) (b : TErr), 1 ≤ i ∧ i < (h :: d).length ∧ evalRow (h :: d) i (key (h :: d) i) = .error (.err b) ∧
      grpBy (h :: d) key cmp sched = .error (.err b)) := by
  have hpos : 0 < h.length := by have := ht.len (r := h) (by simp); omega
  have hl : ∀ r ∈ d, r.length = h.length := by
    intro r hr
    have := (ht.len (r := r) (by simp [hr])).1
    simpa [width] using this
  rcases rows_any_schedule ht .nil key sched hs with ⟨vs, h1, h2, h3⟩ | ⟨i, b, h1, h2, h3, h4⟩
  · left
    refine ⟨fun i => vs[i]?.getD .nil, ?_, ?_⟩
    · intro i hi hlt
      obtain ⟨a, ha, ha'⟩ := h3 i hi hlt
      show _ = Except.ok (vs[i]?.getD .nil)
      rw [ha, ha']; rfl
    · have e : (vs.drop 1).zip d = (d.zipIdx 1).map fun x => (vs[x.2]?.getD .nil, x.1) := by
        apply List.ext_getElem?
        intro i
        rw [List.getElem?_map, List.getElem?_zipIdx]
        unfold List.zip
        rw [List.getElem?_zipWith, List.getElem?_drop]
        by_cases hi : i < d.length
        · have hv : 1 + i < vs.length := by simp only [List.length_cons] at h2; omega
          rw [List.getElem?_eq_getElem hi]
          have e : vs[1 + i]? = some vs[1 + i] := List.getElem?_eq_getElem hv
          simp [e]
        · rw [List.getElem?_eq_none (l := d) (by omega)]
          cases vs[1 + i]? <;> rfl
      have g := groups_spec (cmpOrEq cmp) hpos ((vs.drop 1).zip d) [] [] (grouped_nil _ h) (by
        intro x hx
        simp only [List.nil_append] at hx
        exact hl x.2 (List.of_mem_zip hx).2)
      rw [List.nil_append, e] at g
      refine ⟨_, g, ?_⟩
      unfold grpBy
      rw [h1]
      simp only [Except.map]
      rw [buildGroups_eq, e]
      rfl
  · right
    refine ⟨i, b, h1, h2, h3, ?_⟩
    unfold grpBy
    rw [h4]; rfl

/-- A comparison that fails counts as "equal": rows with different keys end up in one group and no error is
reported. -/
theorem grp_by_swallows_errors : valOf ((grpBy people (fun _ _ => .get "name" fun e => .ret e.value) (fun _ _ => .error (.err (.user 1))) sched3).map (·.length)) = some 2 := by
  decide +kernel

example : valOf ((grpBy people ageKey cmpVal sched3).map (·.length)) = some 4 := by decide +kernel

/-! ## C22: dedup -/

theorem dedupGo_runs {α : Type} (same : α → α → Bool) (l : List α) : ∀ k : α, ∃ r rs, Runs same ((k, r) :: rs) ∧
    l = r ++ rs.flatMap (fun r => r.1 :: r.2) ∧ dedupGo same k l = rs.map (·.1) := by
  induction l with
  | nil => intro k; exact ⟨[], [], (by intro x hx; cases hx), rfl, rfl⟩
  | cons b l ih =>
    intro k
    unfold dedupGo
    cases hb : same b k with
    | true =>
      obtain ⟨r, rs, h1, h2, h3⟩ := ih k
      refine ⟨b :: r, rs, ?_, by simp [h2], by simpa using h3⟩
      cases rs with
      | nil =>
        intro x hx
        rcases List.mem_cons.1 hx with rfl | hx
        · exact hb
        · exact h1 x hx
      | cons r' rs =>
        refine ⟨?_, h1.2⟩
        intro x hx
        rcases List.mem_cons.1 hx with rfl | hx
        · exact hb
        · exact h1.1 x hx
    | false =>
      obtain ⟨r, rs, h1, h2, h3⟩ := ih b
      refine ⟨[], (b, r) :: rs, ⟨(by intro x hx; cases hx), hb, h1⟩, by simp [h2], by simpa using h3⟩

/-- `dedup` keeps the head of every run of equal elements. -/
theorem dedupBy_deduped {α : Type} (same : α → α → Bool) (l : List α) : Deduped same l (dedupBy same l) := by
  cases l with
  | nil => exact ⟨[], trivial, rfl, rfl⟩
  | cons a l =>
    obtain ⟨r, rs, h1, h2, h3⟩ := dedupGo_runs same l a
    exact ⟨(a, r) :: rs, h1, by simp [h2], by simp [dedupBy, h3]⟩

theorem dedup_str (s : List Char) : Deduped (· == ·) s (dedupStr s) := dedupBy_deduped _ s

example : dedupStr ['a', 'a', 'b', 'a'] = ['a', 'b', 'a'] := by decide

/-- Runs determine what is kept. -/
theorem deduped_unique {α : Type} {same : α → α → Bool} {l k k' : List α} (h : Deduped same l k) (h' : Deduped same l k') : k = k' := by
  obtain ⟨rs, h1, h2, rfl⟩ := h
  obtain ⟨rs', h1', h2', rfl⟩ := h'
  subst h2
  have step : ∀ (rs rs' : List (α × List α)) (a : α) (r r' : List α), Runs same ((a, r) :: rs) → Runs same ((a, r') :: rs') →
      r ++ rs.flatMap (fun r => r.1 :: r.2) = r' ++ rs'.flatMap (fun r => r.1 :: r.2) → rs.map (·.1) = rs'.map (·.1) := by
    intro rs
    induction rs with
    | nil =>
      intro rs' a r r' h1 h1' e
      cases rs' with
      | nil => rfl
      | cons b rs' =>
        exfalso
        have : b.1 ∈ r := by simp at e; simp [e]
        have := h1 _ this
        rw [h1'.2.1] at this; cases this
    | cons b rs ih =>
      intro rs' a r r' h1 h1' e
      cases rs' with
      | nil =>
        exfalso
        have : b.1 ∈ r' := by simp at e; simp [← e]
        have := h1' _ this
        rw [h1.2.1] at this; cases this
      | cons b' rs' =>
        -- the runs have the same length
        have hr : r = r' ∧ b.1 = b'.1 := by
          have h2 := h1.1; have h3 := h1.2.1; have h2' := h1'.1; have h3' := h1'.2.1
          clear ih h1 h1'
          simp only [List.flatMap_cons, List.cons_append] at e
          induction r generalizing r' with
          | nil => cases r' with
            | nil => simp at e; exact ⟨rfl, e.1⟩
            | cons x r' =>
              simp at e
              have := h2' x (by simp)
              rw [← e.1, h3] at this; cases this
          | cons x r ih => cases r' with
            | nil =>
              simp at e
              have := h2 x (by simp)
              rw [e.1, h3'] at this; cases this
            | cons y r' =>
              simp only [List.cons_append, List.cons.injEq] at e
              have := ih r' (fun z hz => h2 z (List.mem_cons_of_mem _ hz)) h3 (fun z hz => h2' z (List.mem_cons_of_mem _ hz)) h3' e.2
              exact ⟨by rw [e.1, this.1], this.2⟩
        obtain ⟨rfl, hb⟩ := hr
        simp only [List.flatMap_cons, List.cons_append, List.append_cancel_left_eq, List.cons.injEq] at e
        obtain ⟨b1, b2⟩ := b
        obtain ⟨b1', b2'⟩ := b'
        simp only at hb; subst hb
        have := ih rs' b1 b2 b2' h1.2.2 h1'.2.2 e.2
        simp [this]
  cases rs with
  | nil => cases rs' with
    | nil => rfl
    | cons b rs' => simp at h2'
  | cons a rs => cases rs' with
    | nil => simp at h2'
    | cons b rs' =>
      simp only [List.flatMap_cons, List.cons_append, List.cons.injEq] at h2'
      obtain ⟨a1, a2⟩ := a
      obtain ⟨b1, b2⟩ := b
      simp only at h2'
      obtain ⟨rfl, e⟩ := h2'
      have := step rs rs' a1 a2 b2 h1 h1' e
      simp [this]

/-- Two rows agree on the chosen columns. -/
def sameOn (eqv : Entry N → Entry N → Bool) (cs : List Nat) (a b : List (Entry N)) : Bool := cs.all fun c => eqv (at_ a c) (at_ b c)

/-- `dedup` keeps the header and removes a data row exactly when it agrees with the previously kept data row,
provided the first data row does not agree with the header. -/
theorem dedup_rows_partial (eqv : Entry N → Entry N → Bool) {h : List (Entry N)} {d : Rows N} {names : List String} {cs : List Nat}
    (hn : names ≠ []) (hc : Columns (h :: d) names cs) (hd : ∀ r, d.head? = some r → sameOn eqv cs r h = false) :
    ∃ d', dedupTable eqv (h :: d) (names.map .ok) = .ok (h :: d') ∧ Deduped (sameOn eqv cs) d d' := by
  refine ⟨dedupBy (sameOn eqv cs) d, ?_, dedupBy_deduped _ d⟩
  unfold dedupTable
  rw [if_neg (by cases names with | nil => exact absurd rfl hn | cons => simp), (columns_iff (h :: d) (names.map .ok) cs).2 ⟨names, rfl, hc⟩]
  show Except.ok _ = Except.ok _
  congr 1
  show h :: dedupGo (sameOn eqv cs) h d = h :: dedupBy (sameOn eqv cs) d
  congr 1
  cases d with
  | nil => rfl
  | cons r d => unfold dedupGo dedupBy; rw [hd r rfl]; rfl

/-- The same with no columns given: all columns count. -/
theorem dedup_all_partial (eqv : Entry N → Entry N → Bool) {h : List (Entry N)} {d : Rows N}
    (hd : ∀ r, d.head? = some r → sameOn eqv (List.range h.length) r h = false) :
    ∃ d', dedupTable eqv (h :: d) [] = .ok (h :: d') ∧ Deduped (sameOn eqv (List.range h.length)) d d' := by
  refine ⟨dedupBy (sameOn eqv (List.range h.length)) d, ?_, dedupBy_deduped _ d⟩
  unfold dedupTable
  rw [if_pos (by rfl)]
  show Except.ok _ = Except.ok _
  congr 1
  show h :: dedupGo (sameOn eqv (List.range h.length)) h d = h :: dedupBy _ d
  congr 1
  cases d with
  | nil => rfl
  | cons r d => unfold dedupGo dedupBy; rw [hd r rfl]; rfl

/-- Equality of strings and numbers, for examples. -/
def eqv : Entry Int → Entry Int → Bool
  | .obj (.str a), .obj (.str b) => a == b
  | .num a, .num b => a == b
  | .nil, .nil => true
  | _, _ => false

example : valOf ((dedupTable eqv [[s "a", s "b"], [s "x", .num 1], [s "x", .num 2], [s "y", .num 2]] [.ok "a"]).map (·.length)) = some 3 := by decide +kernel

/-- In general the header counts as the first row: a first data row that agrees with the header is dropped. -/
theorem dedup_drops_first : valOf ((dedupTable eqv [[s "a"], [s "a"], [s "b"]] [.ok "a"]).map (·.length)) = some 2 := by decide +kernel

end Verif.Tab
