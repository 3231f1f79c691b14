import Verif.Props.TabGroup
import Verif.Lemmas.TabCols
/-! C23: append, append-row, map, pick, ren, ren-with. -/
namespace Verif.Tab
open Std
variable {N : Type}

/-! ## append -/

/-- `append`: every row keeps its cells and gets one more per expression: the header the names, a data row the
values of the expressions on that row. If an expression fails on a row the command fails. -/
theorem append_exact {t : Rows N} (ht : Rect t) (o : Owner) (withs : Withs N) (scheds : List Sched) (order : List Nat)
    (hs : ∀ j, j < withs.length → Schedule t.length (scheds[j]?.getD [])) (ho : order.Perm (List.range withs.length)) :
    (∃ val : Nat → Nat → Value N,
      (∀ (j i : Nat) (w : (Rows N → Nat → Prog N (Value N)) × String), withs[j]? = some w → 1 ≤ i → i < t.length → evalRow t i (w.1 t i) = .ok (val j i)) ∧
      ∃ u, appendTable o t withs scheds order = .ok u ∧ ∀ i : Nat, u[i]? = t[i]?.map fun r =>
        r ++ withs.zipIdx.map fun w => if i = 0 then .obj (.str w.1.2) else (val w.2 i).entry) ∨
    (∃ (j : Nat) (w : (Rows N → Nat → Prog N (Value N)) × String) (i : Nat) (b : TErr), withs[j]? = some w ∧ 1 ≤ i ∧ i < t.length ∧
      evalRow t i (w.1 t i) = .error (.err b) ∧ appendTable o t withs scheds order = .error (.err b)) := by
  rcases appendCols_spec ht withs scheds order hs ho with ⟨cs, h1, h2, h3⟩ | ⟨j, w, i, b, h1, h2, h3, h4, h5⟩
  · left
    let val : Nat → Nat → Value N := fun j i => match withs[j]? with
      | none => .nil
      | some w => (valOf (evalRow t i (w.1 t i))).getD .nil
    have hval : ∀ (j i : Nat) (w : (Rows N → Nat → Prog N (Value N)) × String), withs[j]? = some w → 1 ≤ i → i < t.length → evalRow t i (w.1 t i) = .ok (val j i) := by
      intro j i w hw hi hl
      obtain ⟨c, _, _, _, hc⟩ := h3 j w hw
      obtain ⟨v, hv, _⟩ := hc i hi hl
      have e : val j i = v := by
        show (match withs[j]? with | none => Value.nil | some w => (valOf (evalRow t i (w.1 t i))).getD .nil) = v
        simp only [hw, hv]; rfl
      rw [e, hv]
    refine ⟨val, hval, addCols t cs, ?_, ?_⟩
    · unfold appendTable
      rw [h1]; cases o <;> rfl
    · intro i
      have hlen : ∀ c ∈ cs, c.length = t.length := by
        intro c hc
        obtain ⟨j, hj⟩ := List.getElem?_of_mem hc
        have hjl : j < withs.length := by rw [← h2]; exact (List.getElem?_eq_some_iff.1 hj).1
        obtain ⟨c', h', h'', _⟩ := h3 j _ (List.getElem?_eq_getElem hjl)
        rw [hj] at h'; cases h'; exact h''
      rw [addCols_get cs ht hlen i]
      cases hti : t[i]? with
      | none => rfl
      | some r =>
        have hi : i < t.length := (List.getElem?_eq_some_iff.1 hti).1
        simp only [Option.map_some]
        congr 2
        apply List.ext_getElem?
        intro j
        rw [List.getElem?_map, List.getElem?_map, List.getElem?_zipIdx]
        cases hw : withs[j]? with
        | none => rw [List.getElem?_eq_none (by rw [h2]; exact List.getElem?_eq_none_iff.1 hw)]; rfl
        | some w =>
          obtain ⟨c, hc, _, h0, hv⟩ := h3 j w hw
          rw [hc]
          simp only [Option.map_some, Nat.zero_add]
          congr 1
          unfold at_
          by_cases hz : i = 0
          · subst hz; rw [if_pos rfl, h0 hi]; rfl
          · rw [if_neg hz]
            obtain ⟨v, hev, hvi⟩ := hv i (by omega) hi
            rw [hvi]
            have := hval j i w hw (by omega) hi
            rw [hev] at this; cases this; rfl
  · right
    refine ⟨j, w, i, b, h1, h2, h3, h4, ?_⟩
    unfold appendTable
    rw [h5]; rfl

/-- The names: the flags in order, then `_append1`, `_append2`, … -/
theorem append_names (flags : List String) (n : Nat) :
    appendNames flags n 1 = flags.take n ++ (List.range (n - flags.length)).map fun i => "_append" ++ toString (1 + i) :=
  appendNames_eq flags n 1

/-- Two columns, finished in the other order. -/
example : valOf ((appendTable .shared people [(ageKey, "a"), (fun _ i => .ret (.num i), "b")] [sched3, [(0, 3), (0, 2), (5, 1)]] [1, 0]).map
      fun u => u.map fun r => (r.length, match r[2]? with | some (.num n) => n | _ => 0)) =
    some [(4, 0), (4, 30), (4, 20), (4, 99)] ∧ appendNames ["a"] 3 1 = ["a", "_append1", "_append2"] := by decide +kernel

/-! ## append-row -/

theorem nameHeaders_get (h : List (Entry N)) : ∀ (k i : Nat), (nameHeaders h k)[i]? = h[i]?.map fun e => match e with
    | .nil => .obj (.str ("_append" ++ toString (k + ((h.take i).filter fun e => match e with | .nil => true | _ => false).length)))
    | e => e := by
  induction h with
  | nil => intro k i; rfl
  | cons e h ih =>
    intro k i
    cases e with
    | nil =>
      cases i with
      | zero => simp [nameHeaders]
      | succ i =>
        simp only [nameHeaders, List.getElem?_cons_succ]
        rw [ih (k + 1) i]
        cases h[i]? with
        | none => rfl
        | some e => cases e <;> simp [Nat.add_assoc, Nat.add_comm 1]
    | num n =>
      cases i with
      | zero => rfl
      | succ i => simp only [nameHeaders, List.getElem?_cons_succ]; rw [ih k i]; cases h[i]? <;> simp
    | obj n =>
      cases i with
      | zero => rfl
      | succ i => simp only [nameHeaders, List.getElem?_cons_succ]; rw [ih k i]; cases h[i]? <;> simp

theorem nameHeaders_length (h : List (Entry N)) : ∀ k, (nameHeaders h k).length = h.length := by
  induction h with
  | nil => intro k; rfl
  | cons e h ih => intro k; cases e <;> simp [nameHeaders, ih]

/-- `append-row` on a table with a header: the rows stay, the new row comes last, all are padded with nil to a
common width, and nil headers get numbered names. -/
theorem append_row_exact {h : List (Entry N)} {d : Rows N} (ht : Rect (h :: d)) (vs : List (Value N)) :
    appendRow (h :: d) (vs.map .ok) =
      .ok (nameHeaders (padTo (max h.length vs.length) h) 1 :: (d ++ [vs.map Value.entry]).map (padTo (max h.length vs.length))) := by
  unfold appendRow
  rw [sequence_ok.2 rfl]
  show Except.ok _ = Except.ok _
  congr 1
  have := addRows_pad [vs.map Value.entry] ht (by simp)
  simp only [addRows, List.foldl_cons, List.foldl_nil, width, List.length_map] at this
  dsimp only
  rw [this]
  rfl

/-- A cell expression that fails makes the command fail. -/
theorem append_row_fails (t : Rows N) (cells : List (Res (Value N))) (b : Bad) (h : appendRow t cells = .error b) : .error b ∈ cells := by
  unfold appendRow at h
  cases hs : sequence cells with
  | ok vs => rw [hs] at h; cases h
  | error e => rw [hs] at h; cases h; exact sequence_error hs

example : valOf ((appendRow people [.ok (.str "di"), .ok (.num 4), .ok (.bool true)]).map fun u => u.map fun r => headerText r[2]?) =
    some ["_append1", "", "", "", ""] := by decide +kernel

/-! ## map -/

/-- `map col f` replaces the cells of the column in the data rows by the values of `f` on that row, and nothing
else; if `f` fails on a row, or a cell is not of the type `f` takes, the command fails. -/
theorem map_exact {t : Rows N} (ht : Rect t) {name : String} {c : Nat} (hc : Column t name c) (force : Bool) (ty : Ty)
    (tf : Value N → Prog N (Value N)) (row0 : Nat) (sched : Sched) (hs : Schedule t.length sched) :
    (∃ val : Nat → Value N, (∀ i, 1 ≤ i → i < t.length → mapVal t c force ty tf i = .ok (val i)) ∧
      ∃ u, mapTable t (.ok name) force ty tf row0 sched = .ok u ∧
        ∀ i : Nat, u[i]? = t[i]?.map fun r => if i = 0 then r else r.set c (val i).entry) ∨
    (∃ (i : Nat) (b : TErr), 1 ≤ i ∧ i < t.length ∧ mapVal t c force ty tf i = .error (.err b) ∧
      mapTable t (.ok name) force ty tf row0 sched = .error (.err b)) := by
  have hci := (colIdx_ok t name c).2 hc
  have hlt := colIdx_lt hci
  rcases mapTask_spec ht hlt force ty tf row0 sched hs with ⟨vs, h1, h2, h3⟩ | ⟨i, b, h1, h2, h3, h4⟩
  · left
    refine ⟨fun i => vs[i]?.getD .nil, ?_, modCol t c (fun i e => if i = 0 then e else match vs[i]? with
        | some v => v.entry
        | none => e), ?_, ?_⟩
    · intro i hi hl
      obtain ⟨v, hv, hv'⟩ := h3 i hi hl
      show _ = Except.ok (vs[i]?.getD .nil)
      rw [hv, hv']; rfl
    · unfold mapTable
      simp only [Except.bind, hci, liftErr, h1]
      rfl
    · intro i
      unfold modCol
      rw [List.getElem?_map, List.getElem?_zipIdx]
      cases hti : t[i]? with
      | none => rfl
      | some r =>
        have hi : i < t.length := (List.getElem?_eq_some_iff.1 hti).1
        simp only [Option.map_some, Nat.zero_add]
        congr 1
        by_cases hz : i = 0
        · subst hz; rw [if_pos rfl]
          apply List.ext_getElem?
          intro j
          rw [List.getElem?_modify]
          simp only [if_true]
          cases r[j]? <;> simp
        · rw [if_neg hz]
          have hv : vs[i]? = some (vs[i]'(by omega)) := List.getElem?_eq_getElem (by omega)
          have hr : c < r.length := by have := (ht.len (List.mem_of_getElem? hti)).1; omega
          apply List.ext_getElem?
          intro j
          rw [List.getElem?_modify]
          simp only [hz, if_false, hv, Option.getD_some]
          by_cases hj : c = j
          · subst hj
            rw [List.getElem?_set_self hr, List.getElem?_eq_getElem hr]; simp
          · rw [List.getElem?_set_ne hj]
            cases r[j]? <;> simp [hj]
  · right
    refine ⟨i, b, h1, h2, h3, ?_⟩
    unfold mapTable
    simp only [Except.bind, hci, liftErr, h4]
    rfl

/-- A column that is not there is an error. -/
theorem map_missing (t : Rows N) {name : String} (hn : ∀ c, ¬ Column t name c) (force : Bool) (ty : Ty)
    (tf : Value N → Prog N (Value N)) (row0 : Nat) (sched : Sched) : ∃ b, mapTable t (.ok name) force ty tf row0 sched = .error (.err b) := by
  unfold mapTable
  cases h : colIdx t name with
  | ok c => exact absurd ((colIdx_ok t name c).1 h) (hn c)
  | error e => exact ⟨e, by simp only [Except.bind, h, liftErr]⟩

example : valOf ((mapTable people (.ok "name") false .str (fun v => .get "age" fun e => match v, e with | .str _, .num n => .ret (.num n) | v, _ => .ret v) 0 sched3).map
      fun u => u.map fun r => match r[0]? with | some (.num n) => n | _ => 0) = some [0, 30, 20, 0] ∧
    errOf (mapTable people (.ok "age") false .num (fun v => .ret v) 0 sched3) = some (.err .entryTy) := by decide +kernel

/-! ## pick -/

/-- The columns that come after the picked ones with `--trail`. -/
def rest (t : Rows N) (cs : List Nat) : List Nat := (List.range (width t)).filter fun i => !cs.contains i

theorem pick_cells {t : Rows N} (ht : Rect t) (cols : List (Option Nat × String)) (hl : ∀ x ∈ cols, ∀ c, x.1 = some c → c < width t) :
    sequence ((List.range t.length).map fun row => sequence (cols.map (pickCell t row))) =
      .ok (t.zipIdx.map fun r => cols.map fun x => match x.1 with
        | some c => at_ r.1 c
        | none => if r.2 = 0 then .obj (.str x.2) else .nil) := by
  rw [sequence_ok]
  apply List.ext_getElem?
  intro i
  rw [List.getElem?_map, List.getElem?_map, List.getElem?_map, List.getElem?_zipIdx]
  by_cases hi : i < t.length
  · have e : t[i]? = some t[i] := List.getElem?_eq_getElem hi
    rw [List.getElem?_range hi, e]
    simp only [Option.map_some, Nat.zero_add]
    congr 1
    rw [sequence_ok, List.map_map]
    apply List.map_congr_left
    intro x hx
    obtain ⟨o, n⟩ := x
    cases o with
    | none => rfl
    | some c =>
      have hc := hl _ hx c rfl
      obtain ⟨r, en, h1, h2, h3⟩ := entryAt_rect ht hi hc
      show entryAt t i c = Except.ok (at_ t[i] c)
      rw [h3]
      rw [e] at h1; cases h1
      unfold at_; rw [h2]; rfl
  · rw [List.getElem?_eq_none (by simpa using hi), List.getElem?_eq_none (by omega)]; rfl

/-- `pick` yields exactly the named columns in the order given, then with `--trail` the other columns in order. -/
theorem pick_exact {t : Rows N} (ht : Rect t) {names : List String} {cs : List Nat} (hc : Columns t names cs) (trail : Bool) :
    pick t (names.map .ok) false trail = .ok (t.map fun r => (cs ++ if trail then rest t cs else []).map (at_ r)) := by
  have hlt := columns_lt hc
  unfold pick
  rw [if_neg (by decide), (columns_iff t (names.map .ok) cs).2 ⟨names, rfl, hc⟩]
  simp only [Except.map, Except.bind]
  have any : ∀ i, ((cs.map fun i => ((some i, "") : Option Nat × String)).any fun c => c.1 == some i) = cs.contains i := by
    intro i
    rw [List.any_map, List.contains_eq_any_beq]
    congr 1; funext x
    show (some x == some i) = (i == x)
    rw [Bool.eq_iff_iff, beq_iff_eq, beq_iff_eq]; exact ⟨fun h => (Option.some.inj h).symm, fun h => by rw [h]⟩
  have e : (if trail = true then (cs.map fun i => ((some i, "") : Option Nat × String)) ++
        ((List.range (width t)).filter fun i => !((cs.map fun i => ((some i, "") : Option Nat × String)).any fun c => c.1 == some i)).map fun i => (some i, "")
      else cs.map fun i => (some i, "")) = (cs ++ if trail then rest t cs else []).map fun i => (some i, "") := by
    cases trail with
    | true => rw [if_pos rfl, if_pos rfl, List.map_append]; simp only [any]; rfl
    | false => rw [if_neg (by decide), if_neg (by decide), List.append_nil]
  rw [e, pick_cells ht]
  · congr 1
    apply List.ext_getElem?
    intro i
    rw [List.getElem?_map, List.getElem?_map, List.getElem?_zipIdx]
    cases t[i]? <;> simp [Function.comp_def]
  · intro x hx c hxc
    obtain ⟨i, hi, rfl⟩ := List.mem_map.1 hx
    cases hxc
    rcases List.mem_append.1 hi with h | h
    · exact hlt _ h
    · cases trail with
      | true => rw [if_pos rfl] at h; have := (List.mem_filter.1 h).1; simpa using this
      | false => rw [if_neg (by decide)] at h; cases h

/-- Without `--add` a name that is not a column is an error. -/
theorem pick_missing {t : Rows N} {names : List String} {trail : Bool} (h : ¬ ∃ cs, Columns t names cs) : ∃ b, pick t (names.map .ok) false trail = .error b := by
  unfold pick
  rw [if_neg (by decide)]
  cases hr : resolveIndices t (names.map .ok) with
  | error b => exact ⟨b, rfl⟩
  | ok cs =>
    obtain ⟨ns, e, hc⟩ := (columns_iff t _ cs).1 hr
    have : names = ns := by
      have inj : ∀ (a b : List String), a.map (Except.ok (ε := Bad)) = b.map .ok → a = b := by
        intro a
        induction a with
        | nil => intro b e; cases b with | nil => rfl | cons => cases e
        | cons x a ih => intro b e; cases b with
          | nil => cases e
          | cons y b => simp only [List.map_cons, List.cons.injEq, Except.ok.injEq] at e; rw [e.1, ih b e.2]
      exact inj _ _ e
    subst this
    exact absurd ⟨cs, hc⟩ h

/-- `pick --add`: a name that is not a column gives a column of nil cells under that name. -/
theorem pick_add {t : Rows N} (ht : Rect t) (names : List String) (trail : Bool) : ∃ cols : List (Option Nat × String),
    cols.map (·.2) = names ∧ (∀ x ∈ cols, match x.1 with | some c => Column t x.2 c | none => ∀ c, ¬ Column t x.2 c) ∧
    pick t (names.map .ok) true trail = .ok (t.zipIdx.map fun r => (cols.map fun x => match x.1 with
        | some c => at_ r.1 c
        | none => if r.2 = 0 then .obj (.str x.2) else .nil) ++
        (if trail then rest t (cols.filterMap (·.1)) else []).map (at_ r.1)) := by
  have hf : ∀ (names : List String), resolveForgiven t (names.map .ok) = .ok (names.map fun n => (okOf (colIdx t n), n)) := by
    intro names
    induction names with
    | nil => rfl
    | cons n names ih => rw [List.map_cons]; unfold resolveForgiven; simp only [Except.bind, ih]; rfl
  have hcol : ∀ n : String, match okOf (colIdx t n) with | some c => Column t n c | none => ∀ c, ¬ Column t n c := by
    intro n
    cases h : colIdx t n with
    | ok c => exact (colIdx_ok t n c).1 h
    | error e => intro c hc; rw [(colIdx_ok t n c).2 hc] at h; cases h
  have any : ∀ (cols : List (Option Nat × String)) (i : Nat), (cols.any fun c => c.1 == some i) = (cols.filterMap (·.1)).contains i := by
    intro cols i
    rw [Bool.eq_iff_iff, List.any_eq_true, List.contains_iff_mem, List.mem_filterMap]
    simp
  refine ⟨names.map fun n => (okOf (colIdx t n), n), ?_, ?_, ?_⟩
  · rw [List.map_map]; exact List.map_id _
  · intro x hx
    obtain ⟨n, _, rfl⟩ := List.mem_map.1 hx
    exact hcol n
  · unfold pick
    rw [if_pos rfl, hf]
    generalize hC : names.map (fun n => (okOf (colIdx t n), n)) = cols
    have hlt : ∀ x ∈ cols, ∀ c, x.1 = some c → c < width t := by
      intro x hx c hxc
      rw [← hC] at hx
      obtain ⟨n, _, rfl⟩ := List.mem_map.1 hx
      cases h : colIdx t n with
      | ok c' => simp only [h, okOf] at hxc; cases hxc; exact colIdx_lt h
      | error e => simp only [h, okOf] at hxc; cases hxc
    simp only [Except.bind]
    have e : (if trail = true then cols ++ ((List.range (width t)).filter fun i => !(cols.any fun c => c.1 == some i)).map fun i => (some i, "")
        else cols) = cols ++ (if trail then rest t (cols.filterMap (·.1)) else []).map fun i => (some i, "") := by
      cases trail with
      | true => rw [if_pos rfl, if_pos rfl]; simp only [any]; rfl
      | false => rw [if_neg (by decide), if_neg (by decide)]; simp
    rw [e, pick_cells ht]
    · congr 1
      apply List.map_congr_left
      intro r _
      rw [List.map_append, List.map_map]; rfl
    · intro x hx c hxc
      rcases List.mem_append.1 hx with h | h
      · exact hlt x h c hxc
      · obtain ⟨i, hi, rfl⟩ := List.mem_map.1 h
        cases hxc
        cases trail with
        | true => rw [if_pos rfl] at hi; have := (List.mem_filter.1 hi).1; simpa using this
        | false => rw [if_neg (by decide)] at hi; cases hi

example : Columns people ["age"] [1] ∧ rest people [1] = [0] ∧
    valOf ((pick people [.ok "age"] false true).map fun u => u.map fun r => headerText r[1]?) = some ["name", "bo", "al", "cy"] ∧
    valOf ((pick people [.ok "age", .ok "x"] true false).map fun u => u.map fun r => headerText r[1]?) = some ["x", "", "", ""] :=
  ⟨⟨(colIdx_ok people "age" 1).1 (by decide +kernel), trivial⟩, by decide +kernel, by decide +kernel, by decide +kernel⟩

/-- On an empty table `pick --add` adds nothing: there is no row to hold the name. -/
theorem pick_add_empty (names : List String) (trail : Bool) : pick ([] : Rows N) (names.map .ok) true trail = .ok [] := by
  obtain ⟨cols, _, _, h⟩ := pick_add (t := ([] : Rows N)) (.inl rfl) names trail
  exact h

/-! ## ren -/

theorem renLoop_spec : ∀ (is : List Nat) (ns : List String) (t : Rows N), is.length = ns.length → (∀ i ∈ is, i < width t) → is.Nodup →
    ∃ u, renLoop (is.zip (ns.map .ok)) t = .ok u ∧ u.length = t.length ∧ width u = width t ∧ u.drop 1 = t.drop 1 ∧
      (∀ (k i : Nat) (n : String), is[k]? = some i → ns[k]? = some n → u[0]?.bind (·[i]?) = some (.obj (.str n))) ∧
      (∀ i : Nat, i ∉ is → u[0]?.bind (·[i]?) = t[0]?.bind (·[i]?)) := by
  intro is
  induction is with
  | nil =>
    intro ns t hl _ _
    cases ns with
    | nil => exact ⟨t, rfl, rfl, rfl, rfl, (by intro k i n h; cases h), fun _ _ => rfl⟩
    | cons => cases hl
  | cons i is ih =>
    intro ns t hl hlt hn
    cases ns with
    | nil => cases hl
    | cons n ns =>
      have hi := hlt i (by simp)
      have hn' := List.nodup_cons.1 hn
      have hw : width (setHeader i n t) = width t := by cases t <;> simp [setHeader, width]
      obtain ⟨u, h1, h2, h3, h4, h5, h6⟩ := ih ns (setHeader i n t) (by simpa using hl) (fun j hj => by rw [hw]; exact hlt j (by simp [hj])) hn'.2
      refine ⟨u, ?_, ?_, ?_, ?_, ?_, ?_⟩
      · rw [List.map_cons, List.zip_cons_cons]
        unfold renLoop
        rw [if_pos hi]
        exact h1
      · rw [h2]; cases t <;> simp [setHeader]
      · rw [h3, hw]
      · rw [h4]; cases t <;> simp [setHeader]
      · intro k j m hk hm
        cases k with
        | zero =>
          simp at hk hm; subst hk; subst hm
          rw [h6 i hn'.1]
          cases t with
          | nil => simp [width] at hi
          | cons a d => simp only [setHeader, List.getElem?_cons_zero, Option.bind_some]; rw [List.getElem?_set_self hi]
        | succ k => exact h5 k j m (by simpa using hk) (by simpa using hm)
      · intro j hj
        rw [h6 j (fun h => hj (by simp [h]))]
        cases t with
        | nil => rfl
        | cons a d =>
          simp only [setHeader, List.getElem?_cons_zero, Option.bind_some]
          rw [List.getElem?_set_ne (fun h => hj (by simp [h]))]

/-- Resolving the column references. -/
def RefIs (t : Rows N) (r : Ref) (i : Nat) : Prop := match r with
  | .name n => ∃ s, n = .ok s ∧ Column t s i
  | .idx k => k = .ok i

theorem refIdx_ok (t : Rows N) (r : Ref) (i : Nat) : refIdx t r = .ok i ↔ RefIs t r i := by
  cases r with
  | idx k => exact Iff.rfl
  | name n =>
    unfold refIdx RefIs
    simp only
    cases n with
    | error b => constructor
                 · intro h; cases h
                 · rintro ⟨s, h, _⟩; cases h
    | ok s =>
      simp only [Except.bind]
      constructor
      · intro h
        cases hc : colIdx t s with
        | error e => rw [hc] at h; cases h
        | ok c => rw [hc] at h; cases h; exact ⟨s, rfl, (colIdx_ok t s _).1 hc⟩
      · rintro ⟨s', h, hc⟩
        cases h
        rw [(colIdx_ok t s i).2 hc]; rfl

/-- `ren`: the references are found in the table as it was; the named headers are replaced; other headers and all
data rows stay. References to one column twice are left out here: the last one wins. -/
theorem ren_exact (t : Rows N) (refs : List Ref) (is : List Nat) (ns : List String) (hl : refs.length = is.length) (hl' : is.length = ns.length)
    (hr : ∀ (k : Nat) (r : Ref) (i : Nat), refs[k]? = some r → is[k]? = some i → RefIs t r i) (hlt : ∀ i ∈ is, i < width t) (hn : is.Nodup) :
    ∃ u, ren t (refs.zip (ns.map .ok)) = .ok u ∧ u.length = t.length ∧ width u = width t ∧ u.drop 1 = t.drop 1 ∧
      (∀ (k i : Nat) (n : String), is[k]? = some i → ns[k]? = some n → u[0]?.bind (·[i]?) = some (.obj (.str n))) ∧
      (∀ i : Nat, i ∉ is → u[0]?.bind (·[i]?) = t[0]?.bind (·[i]?)) := by
  obtain ⟨u, h1, h2⟩ := renLoop_spec is ns t hl' hlt hn
  refine ⟨u, ?_, h2⟩
  unfold ren
  have e : sequence ((refs.zip (ns.map (Except.ok (ε := Bad)))).map fun x => refIdx t x.1) = .ok is := by
    rw [sequence_ok]
    apply List.ext_getElem?
    intro k
    rw [List.getElem?_map, List.getElem?_map]
    cases hk : is[k]? with
    | none =>
      rw [List.getElem?_eq_none]
      · rfl
      · have := List.getElem?_eq_none_iff.1 hk
        simp; omega
    | some i =>
      have hkl := (List.getElem?_eq_some_iff.1 hk).1
      have hrk : refs[k]? = some (refs[k]'(by omega)) := List.getElem?_eq_getElem (by omega)
      have hnk : ns[k]? = some (ns[k]'(by omega)) := List.getElem?_eq_getElem (by omega)
      unfold List.zip
      rw [List.getElem?_zipWith, hrk, List.getElem?_map, hnk]
      simp only [Option.map_some]
      rw [(refIdx_ok t _ i).2 (hr k _ i hrk hk)]
  rw [e]
  have e2 : (refs.zip (ns.map (Except.ok (ε := Bad)))).map (·.2) = ns.map .ok := by
    rw [List.map_snd_zip]; simp; omega
  show renLoop (is.zip _) t = _
  rw [e2]
  exact h1

/-- Swapping two names in one command works. -/
theorem ren_swap (t : Rows N) {a b : String} {i j : Nat} (ha : Column t a i) (hb : Column t b j) (hij : i ≠ j) :
    ∃ u, ren t [(.name (.ok a), .ok b), (.name (.ok b), .ok a)] = .ok u ∧ u.drop 1 = t.drop 1 ∧
      u[0]?.bind (·[i]?) = some (.obj (.str b)) ∧ u[0]?.bind (·[j]?) = some (.obj (.str a)) ∧
      ∀ k : Nat, k ≠ i → k ≠ j → u[0]?.bind (·[k]?) = t[0]?.bind (·[k]?) := by
  have hi := colIdx_lt ((colIdx_ok t a i).2 ha)
  have hj := colIdx_lt ((colIdx_ok t b j).2 hb)
  obtain ⟨u, h1, _, _, h4, h5, h6⟩ := ren_exact t [.name (.ok a), .name (.ok b)] [i, j] [b, a] rfl rfl (by
      intro k r x hr hx
      match k with
      | 0 => simp at hr hx; subst hr; subst hx; exact ⟨a, rfl, ha⟩
      | 1 => simp at hr hx; subst hr; subst hx; exact ⟨b, rfl, hb⟩
      | k + 2 => simp at hr) (by simp [hi, hj]) (by simp [hij])
  exact ⟨u, h1, h4, h5 0 i b rfl rfl, h5 1 j a rfl rfl, fun k h h' => h6 k (by simp [h, h'])⟩

example : Column people "name" 0 ∧ Column people "age" 1 ∧
    valOf ((ren people [(.name (.ok "name"), .ok "age"), (.name (.ok "age"), .ok "name")]).map fun u => u.map fun r => headerText r[0]?) =
      some ["age", "bo", "al", "cy"] :=
  ⟨(colIdx_ok people "name" 0).1 (by decide +kernel), (colIdx_ok people "age" 1).1 (by decide +kernel), by decide +kernel⟩

/-- An index past the last column is an error. -/
theorem ren_bounds (t : Rows N) {i : Nat} (h : width t ≤ i) (n : Res String) : ren t [(.idx (.ok i), n)] = .error (.err .bounds) := by
  unfold ren
  simp only [List.map_cons, List.map_nil, refIdx, sequence, Except.bind, Except.map, List.zip_cons_cons, List.zip_nil_left, renLoop]
  rw [if_neg (by omega)]

/-- `ren-with`: every header is replaced by the name computed from the cell of the given row in its column; data
rows stay. -/
theorem ren_with_exact {h : List (Entry N)} {d : Rows N} (ht : Rect (h :: d)) (k : Nat) (hk : k < (h :: d).length) (ty : Ty) (f : Value N → Res String)
    (names : Nat → String) (hf : ∀ c, c < h.length → (cell (h :: d) k c).value.ty = ty ∧ f (cell (h :: d) k c).value = .ok (names c)) :
    renWith (h :: d) (.ok k) ty f = .ok (((List.range h.length).map fun c => .obj (.str (names c))) :: d) := by
  unfold renWith
  show (match (h :: d)[k]? with | none => _ | some r => _) = _
  have e : (h :: d)[k]? = some ((h :: d)[k]'hk) := List.getElem?_eq_getElem hk
  generalize (h :: d)[k]'hk = r at e
  have hr : r.length = h.length := by have := (ht.len (List.mem_of_getElem? e)).1; simpa [width] using this
  rw [e]
  simp only
  have hs : sequence (r.map fun e => (liftErr (cnvValue e ty)).bind f) = .ok ((List.range h.length).map names) := by
    rw [sequence_ok]
    apply List.ext_getElem?
    intro c
    rw [List.getElem?_map, List.getElem?_map, List.getElem?_map]
    by_cases hc : c < h.length
    · have hrc : r[c]? = some (r[c]'(by omega)) := List.getElem?_eq_getElem (by omega)
      rw [List.getElem?_range hc, hrc]
      have hcell : cell (h :: d) k c = r[c] := by unfold cell; rw [e]; simp [hrc]
      obtain ⟨h1, h2⟩ := hf c hc
      rw [hcell] at h1 h2
      simp only [Option.map_some, cnvValue, h1, if_true, liftErr, Except.bind, h2]
    · rw [List.getElem?_eq_none (l := r) (by omega), List.getElem?_eq_none (l := List.range h.length) (by simpa using hc)]; rfl
  rw [hs]
  simp only [Except.map]
  congr 2
  rw [List.drop_eq_nil_of_le (by simp), List.append_nil]
  apply List.ext_getElem?
  intro c
  rw [List.getElem?_zipWith, List.getElem?_map, List.getElem?_map]
  by_cases hc : c < h.length
  · rw [List.getElem?_range hc, List.getElem?_eq_getElem hc]; rfl
  · rw [List.getElem?_eq_none (l := h) (by omega), List.getElem?_eq_none (l := List.range h.length) (by simpa using hc)]; rfl

example : valOf ((renWith people (.ok 0) .str fun v => match v with | .str s => .ok (s ++ "!") | _ => .error (.err .entryTy)).map
    fun u => u.map fun r => headerText r[1]?) = some ["age!", "", "", ""] := by decide +kernel

end Verif.Tab
