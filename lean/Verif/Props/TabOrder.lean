import Verif.Props.TabRows
/-! C15, C18, C19, C20: owned and shared tables, taking and skipping, sorting. -/
namespace Verif.Tab
open Std
variable {N : Type}

/-! ## C18: take and skip -/

/-- `take n`: the header and the first `n` data rows. -/
theorem take_eq {t : Rows N} (ht : Rect t) (o : Owner) (n : Nat) : take o t n = t.take (n + 1) := by
  cases o with
  | owned =>
    show retainRows (fun i => i == 0 || decide (i ≤ n)) t = _
    rw [← range_filter_get]
    apply List.ext_getElem?
    intro i
    have : ((List.range t.length).filter fun i => i == 0 || decide (i ≤ n)) = List.range (min t.length (n + 1)) := by
      rcases Nat.le_total t.length (n + 1) with h | h
      · rw [Nat.min_eq_left h, List.filter_eq_self.2]
        intro x hx; rw [List.mem_range] at hx
        have : x ≤ n := by omega
        simp [this]
      · rw [Nat.min_eq_right h]
        conv => lhs; rw [show t.length = (n + 1) + (t.length - (n + 1)) by omega, List.range_add]
        rw [List.filter_append, List.filter_eq_self.2, List.filter_eq_nil_iff.2, List.append_nil]
        · intro x hx
          obtain ⟨y, _, rfl⟩ := List.mem_map.1 hx
          have : ¬ (n + 1 + y ≤ n) := by omega
          simp [this]
        · intro x hx; rw [List.mem_range] at hx
          have : x ≤ n := by omega
          simp [this]
    rw [this, List.getElem?_map, List.getElem?_take]
    by_cases hi : i < min t.length (n + 1)
    · have hi' : i < t.length := by omega
      have e : t[i]? = some t[i] := List.getElem?_eq_getElem hi'
      rw [List.getElem?_range hi, if_pos (by omega), e]; simp [e]
    · rw [List.getElem?_eq_none (by simpa using hi)]
      split
      · rw [List.getElem?_eq_none (by omega)]; rfl
      · rfl
  | shared =>
    show addRows [] _ = _
    rw [addRows_eq]
    · cases t with
      | nil => simp
      | cons a d => simp
    · apply ht.sub
      intro r hr
      cases t with
      | nil => simp at hr
      | cons a d =>
        simp only [List.nil_append, List.take_succ_cons, List.take_zero, List.drop_succ_cons, List.drop_zero, List.cons_append, List.mem_cons] at hr
        rcases hr with rfl | hr
        · simp
        · exact List.mem_cons_of_mem _ (List.mem_of_mem_take hr)

/-- `skip n`: the header and the data rows after the first `n`. The count must be below the largest `usize`. -/
theorem skip_eq {t : Rows N} (ht : Rect t) (o : Owner) (b : Build) (umax n : Nat) (hn : n < umax) :
    skip o b umax t n = .ok (t.take 1 ++ t.drop (n + 1)) := by
  cases o with
  | owned =>
    show Except.ok _ = Except.ok _
    congr 1
    rw [retainRows_eq _ (by simp)]
    cases t with
    | nil => rfl
    | cons a d =>
      simp only [keepRows, List.take_succ_cons, List.take_zero, List.drop_succ_cons, List.cons_append, List.nil_append, List.cons.injEq, true_and]
      have : ∀ (l : Rows N) (k : Nat), ((l.zipIdx (k + 1)).filter fun x => x.2 == 0 || decide (n < x.2)).map (·.1) = l.drop (n - k) := by
        intro l
        induction l with
        | nil => intro k; simp
        | cons x l ih =>
          intro k
          rw [List.zipIdx_cons, List.filter_cons]
          by_cases h : n < k + 1
          · have : n - k = 0 := by omega
            simp only [h, decide_true, Bool.or_true, if_true, List.map_cons, ih (k + 1)]
            rw [this, show n - (k + 1) = 0 by omega]; simp
          · have e : n - k = (n - (k + 1)) + 1 := by omega
            rw [e, List.drop_succ_cons, if_neg (by simp; omega), ih (k + 1)]
      exact this d 0
  | shared =>
    show (uadd b umax n 1).map _ = _
    unfold uadd
    rw [if_pos (by omega)]
    show Except.ok (addRows [] (t.take 1 ++ t.drop (n + 1))) = Except.ok _
    congr 1
    rw [addRows_eq]
    · rfl
    · apply ht.sub
      intro r hr
      simp only [List.nil_append] at hr
      rcases List.mem_append.1 hr with h | h
      · exact List.mem_of_mem_take h
      · exact List.mem_of_mem_drop h

/-- `take n` and `skip n` split a table: the same header, and the data of the one followed by that of the other
are the data of the table; `take` has `min n len` data rows. -/
theorem take_skip_split {t : Rows N} (ht : Rect t) (o o' : Owner) (b : Build) (umax n : Nat) (hn : n < umax) :
    ∃ u, skip o b umax t n = .ok u ∧ (take o' t n).head? = t.head? ∧ u.head? = t.head? ∧
      (take o' t n).drop 1 ++ u.drop 1 = t.drop 1 ∧
      len (take o' t n) false = min n (len t false) ∧ len u false = len t false - n := by
  refine ⟨_, skip_eq ht o b umax n hn, ?_, ?_, ?_, ?_, ?_⟩
  · rw [take_eq ht]; cases t <;> simp
  · cases t <;> simp
  · rw [take_eq ht]; cases t <;> simp
  · rw [take_eq ht]; unfold len; cases t <;> simp
  · unfold len; cases t <;> simp

/-- The same on strings. -/
theorem take_skip_str (s : List Char) (n : Nat) : takeStr s n ++ skipStr s n = s ∧
    lenStr (takeStr s n) = min n (lenStr s) ∧ lenStr (skipStr s n) = lenStr s - n :=
  ⟨List.take_append_drop n s, List.length_take, List.length_drop⟩

example : len (take .owned people 2) false = 2 ∧ (skip .shared .checked 255 people 2).map (len · false) = .ok 1 ∧
    (skip .owned .checked 255 people 9).map (len · false) = .ok 0 := by decide +kernel

/-- The split fails for the largest count: on a shared table the command panics, or without overflow checks
repeats the whole table below the header. -/
theorem skip_max_false : skip .owned .checked 255 people 255 = .ok (people.take 1) ∧
    errOf (skip .shared .checked 255 people 255) = some .panic ∧
    (skip .shared .wrapping 255 people 255).map (len · false) = .ok 4 := by
  refine ⟨?_, by decide +kernel, by decide +kernel⟩
  rfl

/-! ## C15: owned and shared tables -/

theorem filter_owner (t : Rows N) (p : Rows N → Nat → Prog N Bool) (sched : Sched) :
    filterTable .owned t p sched = filterTable .shared t p sched := by
  unfold filterTable
  congr 1
  funext keep
  unfold retainKeep
  split
  · rfl
  · simp only
    rw [range_filter_get]

theorem filter_col_owner (t : Rows N) (name : Res String) (ty : Ty) (p : Value N → Except TErr Bool) (sched : Sched) :
    filterCol .owned t name ty p sched = filterCol .shared t name ty p sched := by
  unfold filterCol
  congr 1
  funext name
  exact filter_owner t _ sched

theorem take_owner {t : Rows N} (ht : Rect t) (n : Nat) : take .owned t n = take .shared t n := by
  rw [take_eq ht, take_eq ht]

theorem skip_owner_partial {t : Rows N} (ht : Rect t) (b : Build) (umax n : Nat) (hn : n < umax) :
    skip .owned b umax t n = skip .shared b umax t n := by
  rw [skip_eq ht _ b umax n hn, skip_eq ht _ b umax n hn]

theorem append_owner (t : Rows N) (withs : List ((Rows N → Nat → Prog N (Value N)) × String)) (scheds : List Sched) (order : List Nat) :
    appendTable .owned t withs scheds order = appendTable .shared t withs scheds order := rfl

theorem sort_by_owner (t : Rows N) (key : Rows N → Nat → Prog N (Value N)) (cmp : Value N → Value N → Res Ordering)
    (probe : List (Nat × Value N) → List (Value N × Value N)) (sched : Sched) :
    sortBy .owned t key cmp probe sched = sortBy .shared t key cmp probe sched := by
  unfold sortBy
  cases hr : resolveRows .nil t key sched with
  | error e => rfl
  | ok vs =>
    have hl : vs.length = t.length := by
      have := parOver_length hr
      simpa using this
    simp only [Except.bind]
    cases hv : sortValues cmp probe (vs.zipIdx.map fun x => (x.2, x.1)) with
    | error e => rfl
    | ok l =>
      simp only
      rw [reorder_owned_shared hl hv .owned, reorder_owned_shared hl hv .shared]

/-- The commands that differ by owner only for the largest count. -/
theorem skip_owner_false : skip .owned .wrapping 255 people 255 ≠ skip .shared .wrapping 255 people 255 := by
  intro h
  have : (skip .owned .wrapping 255 people 255).map (len · false) = (skip .shared .wrapping 255 people 255).map (len · false) := by rw [h]
  revert this
  decide +kernel

/-! ## C20: the order of cells -/

/-- Comparing cells never gets stuck. -/
theorem cells_comparable (ncmp : N → N → Ordering) (a b : Entry N) : (cmpEntries? ncmp a b).isSome := by
  rw [cmpEntries_lex]; rfl

/-- The order of cells is a total preorder if that of numbers is: swapping the cells swaps the answer (so each
cell equals itself and any two compare), and "not after" is transitive. -/
theorem cells_total_preorder (ncmp : N → N → Ordering) [TransCmp ncmp] :
    (∀ a b : Entry N, cmpEntries ncmp a b = (cmpEntries ncmp b a).swap) ∧
    (∀ a : Entry N, cmpEntries ncmp a a = .eq) ∧
    (∀ a b : Entry N, cmpEntries ncmp a b ≠ .gt ∨ cmpEntries ncmp b a ≠ .gt) ∧
    (∀ a b c : Entry N, cmpEntries ncmp a b ≠ .gt → cmpEntries ncmp b c ≠ .gt → cmpEntries ncmp a c ≠ .gt) := by
  refine ⟨fun a b => OrientedCmp.eq_swap, fun a => ReflCmp.compare_self, ?_, ?_⟩
  · intro a b
    have := le_total_cmp (cmpEntries ncmp) a b
    simpa using this
  · intro a b c h1 h2
    have := le_trans_cmp (cmpEntries ncmp) a b c (by simpa using h1) (by simpa using h2)
    simpa using this

/-- The kinds of cells: 0 booleans, 1 numbers, 2 strings, 3 user values, 4 nil, 5 tables, 6 table rows. -/
def kind (e : Entry N) : Nat := match e.value with
  | .bool _ => 0
  | .num _ => 1
  | .str _ => 2
  | .ogma _ _ _ => 3
  | .nil => 4
  | .tab _ => 5
  | .row _ _ => 6

/-- A cell of an earlier kind goes before a cell of a later kind. -/
theorem cells_by_kind (ncmp : N → N → Ordering) (a b : Entry N) (h : kind a < kind b) : cmpEntries ncmp a b = .lt := by
  have k : ∀ e : Entry N, kind e = discriminant e := by
    intro e; rcases e with _ | x | v <;> (try cases v) <;> rfl
  rw [k, k] at h
  unfold cmpEntries cmpEntries?
  rw [if_pos (by omega)]
  unfold natCmp
  rw [if_pos h]; rfl

/-- Within a kind: false before true, numbers and strings by value, user values by the name of their type, and
the other kinds are all alike. -/
theorem cells_within_kind (ncmp : N → N → Ordering) (a b : Entry N) (h : kind a = kind b) : cmpEntries ncmp a b =
    match a.value, b.value with
    | .bool x, .bool y => boolCmp x y
    | .num x, .num y => ncmp x y
    | .str x, .str y => strCmp x y
    | .ogma x _ _, .ogma y _ _ => strCmp x y
    | _, _ => .eq := by
  rcases a with _ | x | v <;> rcases b with _ | y | w <;> (try cases v) <;> (try cases w) <;>
    simp_all [kind, Entry.value, cmpEntries, cmpEntries?, discriminant]

example : cmpEntries (fun x y : Int => compare x y) (.num 7) (s "a") = .lt ∧ cmpEntries (fun x y : Int => compare x y) .nil (.num 1) = .gt ∧
    cmpEntries (fun x y : Int => compare x y) (.num 7) (.obj (.num 3)) = .gt := by decide +kernel

/-! ## C19: sort, sort-by, rev -/

/-- `sort c₁ … cₙ` returns the header and the data rows rearranged: ordered by the last listed column, ties by
the one listed before it, and so on; rows that tie on all of them stay in their original order. -/
theorem sort_sorts (ncmp : N → N → Ordering) [TransCmp ncmp] (t : Rows N) {names : List String} {cs : List Nat} (hc : Columns t names cs) :
    ∃ u, sort ncmp t (names.map .ok) = .ok u ∧ SortedBy (Before (cmpEntries ncmp) t cs.reverse) t u := by
  refine ⟨cs.foldl (fun t c => sortCol (entryLe ncmp) c t) t, ?_, ?_⟩
  · unfold sort
    rw [(columns_iff t (names.map .ok) cs).2 ⟨names, rfl, hc⟩]; rfl
  · have := sort_sorted (cmpEntries ncmp) t cs [] t (sorted_refl t)
    rw [List.append_nil] at this
    exact this

/-- If a name fails to evaluate or is not a column, the command fails. -/
theorem sort_fails (ncmp : N → N → Ordering) (t : Rows N) (names : List (Res String))
    (h : ¬ ∃ ns cs, names = ns.map .ok ∧ Columns t ns cs) : ∃ b, sort ncmp t names = .error b := by
  unfold sort
  cases hr : resolveIndices t names with
  | error b => exact ⟨b, rfl⟩
  | ok cs =>
    obtain ⟨ns, h1, h2⟩ := (columns_iff t names cs).1 hr
    exact absurd ⟨ns, cs, h1, h2⟩ h

theorem before_asymm (cmp : Entry N → Entry N → Ordering) [TransCmp cmp] (t : Rows N) (cs : List Nat) : ∀ i j, Before cmp t cs i j → ¬ Before cmp t cs j i := by
  induction cs with
  | nil => intro i j h h'; simp only [Before] at h h'; omega
  | cons c cs ih =>
    intro i j h h'
    rcases h with h | ⟨h, h2⟩ <;> rcases h' with h' | ⟨h', h2'⟩
    · rw [OrientedCmp.eq_swap (cmp := cmp), h'] at h; cases h
    · rw [OrientedCmp.eq_swap (cmp := cmp), h'] at h; cases h
    · rw [OrientedCmp.eq_swap (cmp := cmp), h'] at h; cases h
    · exact ih i j h2 h2'

/-- There is only one way to sort a table. -/
theorem sorted_unique (cmp : Entry N → Entry N → Ordering) [TransCmp cmp] {t u v : Rows N} {cs : List Nat}
    (hu : SortedBy (Before cmp t cs) t u) (hv : SortedBy (Before cmp t cs) t v) : u = v := by
  obtain ⟨p, hp, hp', rfl⟩ := hu
  obtain ⟨q, hq, hq', rfl⟩ := hv
  have : p = q := List.Perm.eq_of_pairwise (le := Before cmp t cs)
    (fun a b _ _ h1 h2 => absurd h2 (before_asymm cmp t cs a b h1)) hp' hq' (hp.trans hq.symm)
  rw [this]

/-- Sorting the three people by age, then by name. -/
example : ∃ u, sort (fun x y : Int => compare x y) people [.ok "age", .ok "name"] = .ok u ∧
    u = [[s "name", s "age"], [s "al", .num 20], [s "bo", .num 30], [s "cy", .nil]] := by
  have hc : Columns people ["age", "name"] [1, 0] :=
    ⟨(colIdx_ok people "age" 1).1 (by decide +kernel), (colIdx_ok people "name" 0).1 (by decide +kernel), trivial⟩
  obtain ⟨u, h1, h2⟩ := sort_sorts (fun x y : Int => compare x y) people hc
  refine ⟨u, h1, sorted_unique _ h2 ?_⟩
  have dec : ∀ i j, (decide (cmpEntries (fun x y : Int => compare x y) (cell people i 0) (cell people j 0) = .lt)) = true →
      Before (cmpEntries fun x y : Int => compare x y) people [0, 1] i j := fun i j h => .inl (of_decide_eq_true h)
  refine ⟨[2, 1, 3], by decide, ?_, rfl⟩
  refine List.pairwise_cons.2 ⟨?_, List.pairwise_cons.2 ⟨?_, List.pairwise_singleton _ _⟩⟩
  · intro j hj
    simp only [List.mem_cons, List.not_mem_nil, or_false] at hj
    rcases hj with rfl | rfl
    · exact dec 2 1 (by decide +kernel)
    · exact dec 2 3 (by decide +kernel)
  · intro j hj
    simp only [List.mem_cons, List.not_mem_nil, or_false] at hj
    rcases hj with rfl
    exact dec 1 3 (by decide +kernel)

/-- `sort-by` on a table with a header: if it succeeds, each data row has its own key and the rows are ordered by
key, ties in original order. It is assumed that the comparison of keys is a total preorder. -/
theorem sort_by_sorts {t u : Rows N} (ht : Rect t) (o : Owner) (key : Rows N → Nat → Prog N (Value N))
    (cmp : Value N → Value N → Res Ordering) [TransCmp (cmpOrEq cmp)] (probe : List (Nat × Value N) → List (Value N × Value N))
    (sched : Sched) (hs : Schedule t.length sched) (hu : sortBy o t key cmp probe sched = .ok u) :
    ∃ k : Nat → Value N, (∀ i, 1 ≤ i → i < t.length → evalRow t i (key t i) = .ok (k i)) ∧
      SortedBy (fun i j => cmpOrEq cmp (k i) (k j) = .lt ∨ (cmpOrEq cmp (k i) (k j) = .eq ∧ i < j)) t u := by
  unfold sortBy at hu
  rcases rows_any_schedule ht .nil key sched hs with ⟨vs, h1, h2, h3⟩ | ⟨i, b, h1, h2, h3, h4⟩
  · rw [h1] at hu
    simp only [Except.bind] at hu
    cases hv : sortValues cmp probe (vs.zipIdx.map fun x => (x.2, x.1)) with
    | error e => rw [hv] at hu; cases hu
    | ok l =>
      rw [hv] at hu
      simp only at hu
      rw [reorder_owned_shared h2 hv o] at hu
      refine ⟨fun i => vs[i]?.getD .nil, ?_, ?_⟩
      · intro i hi hl
        obtain ⟨a, ha, ha'⟩ := h3 i hi hl
        show _ = Except.ok (vs[i]?.getD .nil)
        rw [ha, ha']; rfl
      · have hk : ∀ i : Nat, 1 ≤ i → i < vs.length → vs[i]? = some ((fun i => vs[i]?.getD .nil) i) := by
          intro i _ hl
          show vs[i]? = some (vs[i]?.getD .nil)
          rw [List.getElem?_eq_getElem hl]; rfl
        obtain ⟨p, hp1, hp2, hp3⟩ := sortValues_sorted (fun i => vs[i]?.getD .nil) hk hv
        refine ⟨p, by rw [← h2]; exact hp2, hp3, ?_⟩
        rw [hp1] at hu
        have hu' := Except.ok.inj hu
        rw [← hu', List.map_cons]
        cases t with
        | nil =>
          have : vs = [] := List.length_eq_zero_iff.1 h2
          subst this; cases hv
        | cons a d => rfl
  · rw [h4] at hu; cases hu

/-- On a table with a header `sort-by` succeeds when every key evaluates and keys compare without failing. -/
theorem sort_by_succeeds {t : Rows N} (ht : Rect t) (hne : t ≠ []) (o : Owner) (key : Rows N → Nat → Prog N (Value N))
    (cmp : Value N → Value N → Res Ordering) (probe : List (Nat × Value N) → List (Value N × Value N))
    (sched : Sched) (hs : Schedule t.length sched) (hk : ∀ i, 1 ≤ i → i < t.length → ∃ v, evalRow t i (key t i) = .ok v)
    (hc : ∀ a b, ∃ r, cmp a b = .ok r) : ∃ u, sortBy o t key cmp probe sched = .ok u := by
  unfold sortBy
  rcases rows_any_schedule ht .nil key sched hs with ⟨vs, h1, h2, h3⟩ | ⟨i, b, h1, h2, h3, h4⟩
  · rw [h1]
    simp only [Except.bind]
    have : ∃ l, sortValues cmp probe (vs.zipIdx.map fun x => (x.2, x.1)) = .ok l := by
      cases vs with
      | nil => cases t with
        | nil => exact absurd rfl hne
        | cons => simp at h2
      | cons v vs =>
        rw [List.zipIdx_cons, List.map_cons]
        unfold sortValues
        simp only
        have : ∀ (l : List (Value N × Value N)), (l.filterMap fun p => errOf (cmp p.1 p.2)) = [] := by
          intro l
          rw [List.filterMap_eq_nil_iff]
          intro p _
          obtain ⟨r, hr⟩ := hc p.1 p.2
          rw [hr]; rfl
        rw [this]
        exact ⟨_, rfl⟩
    obtain ⟨l, hl⟩ := this
    rw [hl]
    exact ⟨_, reorder_owned_shared h2 hl o⟩
  · obtain ⟨v, hv⟩ := hk i h1 h2
    rw [hv] at h3; cases h3

/-- The key of a person: their age, or 99. -/
def ageKey : Rows Int → Nat → Prog Int (Value Int) := fun _ _ => .get "age" fun e => match e with
  | .num n => .ret (.num n)
  | _ => .ret (.num 99)

def cmpVal (a b : Value Int) : Res Ordering := .ok (cmpEntries (fun x y : Int => compare x y) a.entry b.entry)

theorem cmpVal_eq : cmpOrEq cmpVal = fun a b => cmpEntries (fun x y : Int => compare x y) a.entry b.entry := rfl

instance : TransCmp (cmpOrEq cmpVal) := by rw [cmpVal_eq]; exact transOn _ _

/-- The people sorted by that key. -/
example : ∃ u, sortBy .owned people ageKey cmpVal (fun _ => []) sched3 = .ok u ∧ ∃ k : Nat → Value Int,
    SortedBy (fun i j => cmpOrEq cmpVal (k i) (k j) = .lt ∨ (cmpOrEq cmpVal (k i) (k j) = .eq ∧ i < j)) people u := by
  obtain ⟨u, hu⟩ := sort_by_succeeds people_rect (by decide) .owned ageKey cmpVal (fun _ => []) sched3 sched3_ok
    (by
      intro i h1 h2
      have : i = 1 ∨ i = 2 ∨ i = 3 := by have : people.length = 4 := rfl; omega
      rcases this with rfl | rfl | rfl
      · exact ⟨.num 30, rfl⟩
      · exact ⟨.num 20, rfl⟩
      · exact ⟨.num 99, rfl⟩)
    (fun a b => ⟨_, rfl⟩)
  obtain ⟨k, _, hk⟩ := sort_by_sorts people_rect .owned ageKey cmpVal (fun _ => []) sched3 sched3_ok hu
  exact ⟨u, hu, k, hk⟩

/-- `sort-by` on an empty table panics. -/
theorem sort_by_empty_panics (o : Owner) (key : Rows N → Nat → Prog N (Value N)) (cmp : Value N → Value N → Res Ordering)
    (probe : List (Nat × Value N) → List (Value N × Value N)) : sortBy o ([] : Rows N) key cmp probe [] = .error .panic := rfl

/-- `rev` keeps the header and is its own inverse; `rev --cols` reverses every row. -/
theorem rev_involution (t : Rows N) (cols : Bool) : rev (rev t cols) cols = t := by
  unfold rev
  cases cols with
  | false => rw [if_neg (by decide), if_neg (by decide)]; cases t <;> simp [reverseRows]
  | true => rw [if_pos rfl, if_pos rfl]; simp [reverseCols, Function.comp_def]

theorem rev_rows (t : Rows N) : (rev t false).head? = t.head? ∧ (rev t false).drop 1 = (t.drop 1).reverse := by
  unfold rev; rw [if_neg (by decide)]; cases t <;> simp [reverseRows]

theorem rev_cols (t : Rows N) (i : Nat) : (rev t true)[i]? = t[i]?.map List.reverse := by
  unfold rev reverseCols; rw [if_pos rfl, List.getElem?_map]

theorem rev_str (s : List Char) : revStr (revStr s) = s := List.reverse_reverse s

example : (rev people false).map (fun r => headerText (r[0]?)) = ["name", "cy", "al", "bo"] := by decide +kernel

end Verif.Tab
