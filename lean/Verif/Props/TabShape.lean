import Verif.Props.TabAdd
/-! C16: shape and header; C52: reading cells; C59: folds. -/
namespace Verif.Tab
open Std
variable {N : Type}

/-! ## shape -/

/-- The commands from tables to tables, with their arguments. -/
inductive Cmd (N : Type) : Type
  | append (o : Owner) (withs : Withs N) (scheds : List Sched) (order : List Nat)
  | appendRow (cells : List (Res (Value N)))
  | dedup (eqv : Entry N → Entry N → Bool) (names : List (Res String))
  | filter (o : Owner) (p : Rows N → Nat → Prog N Bool) (sched : Sched)
  | filterCol (o : Owner) (name : Res String) (ty : Ty) (p : Value N → Except TErr Bool) (sched : Sched)
  | filterCols (p : String → Res Bool)
  | grp (print : Entry N → String) (names : List (Res String))
  | grpBy (key : Rows N → Nat → Prog N (Value N)) (cmp : Value N → Value N → Res Ordering) (sched : Sched)
  | map (name : Res String) (force : Bool) (ty : Ty) (tf : Value N → Prog N (Value N)) (row0 : Nat) (sched : Sched)
  | pick (name : Res String) (names : List (Res String)) (add trail : Bool)
  | ren (l : List (Ref × Res String))
  | renWith (k : Res Nat) (ty : Ty) (f : Value N → Res String)
  | rev (cols : Bool)
  | skip (o : Owner) (b : Build) (umax n : Nat)
  | take (o : Owner) (n : Nat)
  | sort (ncmp : N → N → Ordering) (names : List (Res String))
  | sortBy (o : Owner) (key : Rows N → Nat → Prog N (Value N)) (cmp : Value N → Value N → Res Ordering)
      (probe : List (Nat × Value N) → List (Value N × Value N)) (sched : Sched)
  | addRows (u : { u : Rows N // Rect u }) (intersect : Bool)
  | addCols (u : { u : Rows N // Rect u }) (intersect : Bool)

def Cmd.run (t : Rows N) : Cmd N → Res (Rows N)
  | .append o withs scheds order => appendTable o t withs scheds order
  | .appendRow cells => Tab.appendRow t cells
  | .dedup eqv names => dedupTable eqv t names
  | .filter o p sched => filterTable o t p sched
  | .filterCol o name ty p sched => Tab.filterCol o t name ty p sched
  | .filterCols p => Tab.filterCols t p
  | .grp print names => Tab.grp print t names
  | .grpBy key cmp sched => Tab.grpBy t key cmp sched
  | .map name force ty tf row0 sched => mapTable t name force ty tf row0 sched
  | .pick name names add trail => Tab.pick t (name :: names) add trail
  | .ren l => Tab.ren t l
  | .renWith k ty f => Tab.renWith t k ty f
  | .rev cols => .ok (Tab.rev t cols)
  | .skip o b umax n => Tab.skip o b umax t n
  | .take o n => .ok (Tab.take o t n)
  | .sort ncmp names => Tab.sort ncmp t names
  | .sortBy o key cmp probe sched => Tab.sortBy o t key cmp probe sched
  | .addRows u i => addByRow t u.1 i
  | .addCols u i => .ok (addByCol t u.1 i)

/-- The commands that only select or reorder rows. -/
def Cmd.rowsOnly : Cmd N → Bool
  | .dedup .. | .filter .. | .filterCol .. | .rev false | .skip .. | .take .. | .sort .. | .sortBy .. => true
  | _ => false

/-- The row-parallel commands run under a schedule that handles each data row once. -/
def Cmd.scheduled (t : Rows N) : Cmd N → Prop
  | .filter _ _ s | .filterCol _ _ _ _ s | .sortBy _ _ _ _ s => Schedule t.length s
  | _ => True

theorem map_ok {α β : Type} {r : Res α} {f : α → β} {u : β} (h : r.map f = .ok u) : ∃ a, r = .ok a ∧ u = f a := by
  cases r with
  | error e => cases h
  | ok a => cases h; exact ⟨a, rfl, rfl⟩

theorem bind_ok {α β : Type} {r : Res α} {f : α → Res β} {u : β} (h : r.bind f = .ok u) : ∃ a, r = .ok a ∧ f a = .ok u := by
  cases r with
  | error e => cases h
  | ok a => exact ⟨a, rfl, h⟩

theorem rect_map_len {t : Rows N} (h : Rect t) (f : List (Entry N) → List (Entry N)) (hf : ∀ r, (f r).length = r.length) : Rect (t.map f) := by
  rcases h with rfl | ⟨w, hw, h⟩
  · exact .inl rfl
  · refine rect_of hw ?_
    intro r hr
    obtain ⟨x, hx, rfl⟩ := List.mem_map.1 hr
    rw [hf, h x hx]

theorem rect_header {h h' : List (Entry N)} {d : Rows N} (ht : Rect (h :: d)) (hl : h'.length = h.length) : Rect (h' :: d) := by
  have hw := (ht.len (r := h) (by simp)).2
  refine rect_of hw ?_
  intro r hr
  rcases List.mem_cons.1 hr with rfl | hr
  · rw [hl]; rfl
  · exact (ht.len (r := r) (by simp [hr])).1

theorem dedupGo_mem {α : Type} (same : α → α → Bool) (l : List α) : ∀ k x, x ∈ dedupGo same k l → x ∈ l := by
  induction l with
  | nil => intro k x h; cases h
  | cons b l ih =>
    intro k x h
    unfold dedupGo at h
    split at h
    · exact List.mem_cons_of_mem _ (ih _ _ h)
    · rcases List.mem_cons.1 h with rfl | h
      · exact List.mem_cons_self
      · exact List.mem_cons_of_mem _ (ih _ _ h)

theorem dedupBy_mem {α : Type} (same : α → α → Bool) (l : List α) (x : α) (h : x ∈ dedupBy same l) : x ∈ l := by
  cases l with
  | nil => cases h
  | cons a l =>
    rcases List.mem_cons.1 h with rfl | h
    · exact List.mem_cons_self
    · exact List.mem_cons_of_mem _ (dedupGo_mem same l _ _ h)

theorem retainRows_mem {q : Nat → Bool} {t : Rows N} {r : List (Entry N)} (h : r ∈ retainRows q t) : r ∈ t := by
  unfold retainRows at h
  obtain ⟨x, hx, rfl⟩ := List.mem_map.1 h
  have := (List.mem_filter.1 hx).1
  obtain ⟨a, i⟩ := x
  exact List.mem_of_getElem? (List.mk_mem_zipIdx_iff_getElem?.1 this)

theorem rect_retainKeep {t : Rows N} (h : Rect t) (o : Owner) (keep : List Bool) : Rect (retainKeep o keep t) := by
  unfold retainKeep
  split
  · exact h
  · cases o with
    | owned => exact h.sub fun r hr => retainRows_mem hr
    | shared => rw [range_filter_get]; exact h.sub fun r hr => retainRows_mem hr

theorem rect_filterTable {t u : Rows N} (h : Rect t) (o : Owner) (p : Rows N → Nat → Prog N Bool) (sched : Sched) (hu : filterTable o t p sched = .ok u) : Rect u := by
  obtain ⟨keep, _, rfl⟩ := map_ok hu
  exact rect_retainKeep h o keep

theorem rect_filterColsLoop (p : String → Res Bool) : ∀ (i : Nat) {t u : Rows N}, Rect t → filterColsLoop p i t = .ok u → Rect u := by
  intro i
  induction i with
  | zero => intro t u h hu; cases hu; exact h
  | succ i ih =>
    intro t u h hu
    obtain ⟨keep, _, hu⟩ := bind_ok hu
    refine ih ?_ hu
    split
    · exact h
    · exact rect_removeCol h i

theorem rect_buildGroups {K : Type} (key : K → Value N) (m : List (K × Rows N)) : Rect (buildGroups key m) :=
  rect_addRows _ (rect_addRow (.inl rfl) _)

theorem rect_modCol {t : Rows N} (h : Rect t) (c : Nat) (f : Nat → Entry N → Entry N) : Rect (modCol t c f) := by
  rcases h with rfl | ⟨w, hw, h⟩
  · exact .inl rfl
  · refine rect_of hw ?_
    intro r hr
    unfold modCol at hr
    obtain ⟨⟨a, i⟩, hx, rfl⟩ := List.mem_map.1 hr
    rw [List.length_modify]
    exact h a (List.mem_of_getElem? (List.mk_mem_zipIdx_iff_getElem?.1 hx))

theorem sequence_mem {α : Type} {l : List (Res α)} {vs : List α} (h : sequence l = .ok vs) : ∀ v ∈ vs, Except.ok v ∈ l := by
  rw [sequence_ok] at h
  subst h
  intro v hv
  exact List.mem_map.2 ⟨v, hv, rfl⟩

theorem sequence_length {α : Type} {l : List (Res α)} {vs : List α} (h : sequence l = .ok vs) : vs.length = l.length := by
  rw [sequence_ok] at h
  rw [h, List.length_map]

theorem rect_pick {t u : Rows N} (name : Res String) (names : List (Res String)) (add trail : Bool) (hu : pick t (name :: names) add trail = .ok u) : Rect u := by
  unfold pick at hu
  obtain ⟨cols, h1, hu⟩ := bind_ok hu
  have hne : cols ≠ [] := by
    cases add with
    | true =>
      rw [if_pos rfl] at h1
      unfold resolveForgiven at h1
      obtain ⟨n, _, h1⟩ := bind_ok h1
      obtain ⟨l, _, rfl⟩ := map_ok h1
      simp
    | false =>
      rw [if_neg (by decide)] at h1
      obtain ⟨is, h2, rfl⟩ := map_ok h1
      unfold resolveIndices at h2
      obtain ⟨n, _, h3⟩ := bind_ok h2
      obtain ⟨i, _, h4⟩ := bind_ok h3
      obtain ⟨l, _, rfl⟩ := map_ok h4
      simp
  dsimp only at hu
  generalize hC : (if trail then _ else cols) = cols' at hu
  have hne' : cols' ≠ [] := by
    rw [← hC]
    split
    · simp [hne]
    · exact hne
  refine rect_of (w := cols'.length) (List.length_pos_iff.2 hne') ?_
  intro r hr
  obtain ⟨row, _, hrow⟩ := List.mem_map.1 (sequence_mem hu r hr)
  rw [sequence_length hrow, List.length_map]

theorem rect_renLoop (l : List (Nat × Res String)) : ∀ {t u : Rows N}, Rect t → renLoop l t = .ok u → Rect u := by
  induction l with
  | nil => intro t u h hu; cases hu; exact h
  | cons x l ih =>
    intro t u h hu
    unfold renLoop at hu
    split at hu
    · obtain ⟨n, _, hu⟩ := bind_ok hu
      refine ih ?_ hu
      cases t with
      | nil => exact h
      | cons a d => exact rect_header h (List.length_set ..)
    · cases hu

theorem sortCol_mem (le : Entry N → Entry N → Bool) (c : Nat) {t : Rows N} {r : List (Entry N)} (h : r ∈ sortCol le c t) : r ∈ t := by
  cases t with
  | nil => exact h
  | cons a d =>
    rcases List.mem_cons.1 h with rfl | h
    · exact List.mem_cons_self
    · exact List.mem_cons_of_mem _ (List.mem_mergeSort.1 h)

theorem rect_sortCols (le : Entry N → Entry N → Bool) (cs : List Nat) : ∀ {t : Rows N}, Rect t → Rect (cs.foldl (fun t c => sortCol le c t) t) := by
  induction cs with
  | nil => intro t h; exact h
  | cons c cs ih => intro t h; exact ih (h.sub fun r hr => sortCol_mem le c hr)

theorem head_sortCols (le : Entry N → Entry N → Bool) (cs : List Nat) : ∀ {t : Rows N}, (cs.foldl (fun t c => sortCol le c t) t).head? = t.head? := by
  induction cs with
  | nil => intro t; rfl
  | cons c cs ih => intro t; rw [List.foldl_cons, ih]; cases t <;> rfl

theorem rect_nameCols {v : Rows N} (cs : List Nat) : ∀ {t u : Rows N}, Rect t → nameCols v cs t = .ok u → Rect u := by
  induction cs with
  | nil => intro t u h hu; cases hu; exact h
  | cons c cs ih =>
    intro t u h hu
    unfold nameCols at hu
    split at hu
    · refine ih ?_ hu
      cases t with
      | nil => exact h
      | cons a d => exact rect_header h (List.length_set ..)
    · cases hu

theorem rect_removeCols (cs : List Nat) : ∀ {t : Rows N}, Rect t → Rect (cs.foldl removeCol t) := by
  induction cs with
  | nil => intro t h; exact h
  | cons c cs ih => intro t h; exact ih (rect_removeCol h c)

theorem rect_removeRows (cs : List Nat) : ∀ {t : Rows N}, Rect t → Rect (cs.foldl removeRow t) := by
  induction cs with
  | nil => intro t h; exact h
  | cons c cs ih => intro t h; exact ih (h.sub fun r hr => List.mem_of_mem_eraseIdx hr)

theorem sortBy_rows {t u : Rows N} {o : Owner} {key : Rows N → Nat → Prog N (Value N)} {cmp : Value N → Value N → Res Ordering}
    {probe : List (Nat × Value N) → List (Value N × Value N)} {sched : Sched} (hu : sortBy o t key cmp probe sched = .ok u) :
    (∀ r ∈ u, r ∈ t) ∧ u.head? = t.head? := by
  obtain ⟨vs, h1, hu⟩ := bind_ok hu
  have hl : vs.length = t.length := by
    have := parOver_length h1
    simpa using this
  obtain ⟨l, h2, hu⟩ := bind_ok hu
  rw [reorder_owned_shared hl h2 o] at hu
  have hu' := Except.ok.inj hu
  have hp := sortValues_idx h2
  constructor
  · intro r hr
    rw [← hu'] at hr
    obtain ⟨i, hi, rfl⟩ := List.mem_map.1 hr
    have hi' := List.mem_range.1 (hp.mem_iff.1 hi)
    rw [hl] at hi'
    have e : t[i]? = some t[i] := List.getElem?_eq_getElem hi'
    simp only [e, Option.getD_some]
    exact List.getElem_mem hi'
  · cases vs with
    | nil => cases h2
    | cons v vs =>
      unfold sortValues at h2
      rw [List.zipIdx_cons, List.map_cons] at h2
      dsimp only at h2
      split at h2
      · cases h2
      · cases h2
        rw [← hu']
        cases t with
        | nil => cases hl
        | cons a d => rfl

/-- Every table command maps a table to a table: rows of one width, or nothing. -/
theorem shape {t u : Rows N} (ht : Rect t) (c : Cmd N) (hu : c.run t = .ok u) : Rect u := by
  cases c with
  | append o withs scheds order =>
    obtain ⟨cs, _, rfl⟩ := map_ok hu
    cases o <;> exact rect_addCols cs ht
  | appendRow cells =>
    obtain ⟨vs, _, rfl⟩ := map_ok hu
    have := rect_addRow ht (vs.map Value.entry)
    cases h : addRow t (vs.map Value.entry) with
    | nil => exact .inl rfl
    | cons a d => rw [h] at this; exact rect_header this (nameHeaders_length a 1)
  | dedup eqv names =>
    obtain ⟨cs, _, rfl⟩ := map_ok hu
    exact ht.sub fun r hr => dedupBy_mem _ _ r hr
  | filter o p sched => exact rect_filterTable ht o p sched hu
  | filterCol o name ty p sched =>
    obtain ⟨n, _, hu⟩ := bind_ok hu
    exact rect_filterTable ht o _ sched hu
  | filterCols p => exact rect_filterColsLoop p _ ht hu
  | grp print names =>
    cases t with
    | nil => cases hu
    | cons a d =>
      obtain ⟨cs, _, rfl⟩ := map_ok hu
      exact rect_buildGroups _ _
  | grpBy key cmp sched =>
    obtain ⟨vs, _, rfl⟩ := map_ok hu
    cases t <;> exact rect_buildGroups _ _
  | map name force ty tf row0 sched =>
    obtain ⟨n, _, hu⟩ := bind_ok hu
    obtain ⟨c, _, hu⟩ := bind_ok hu
    obtain ⟨vs, _, rfl⟩ := map_ok hu
    exact rect_modCol ht _ _
  | pick name names add trail => exact rect_pick name names add trail hu
  | ren l =>
    obtain ⟨is, _, hu⟩ := bind_ok hu
    exact rect_renLoop _ ht hu
  | renWith k ty f =>
    obtain ⟨k, _, hu⟩ := bind_ok hu
    cases t with
    | nil => cases hu
    | cons a d =>
      dsimp only at hu
      split at hu
      · cases hu
      · obtain ⟨ns, _, rfl⟩ := map_ok hu
        exact rect_header ht (by simp; omega)
  | rev cols =>
    cases hu
    cases cols with
    | true => exact rect_map_len ht _ (fun _ => List.length_reverse)
    | false =>
      refine ht.sub ?_
      intro r hr
      cases t with
      | nil => exact hr
      | cons a d =>
        rcases List.mem_cons.1 hr with rfl | hr
        · exact List.mem_cons_self
        · exact List.mem_cons_of_mem _ (List.mem_reverse.1 hr)
  | skip o b umax n =>
    cases o with
    | owned => cases hu; exact ht.sub fun r hr => retainRows_mem hr
    | shared => obtain ⟨k, _, rfl⟩ := map_ok hu; exact rect_addRows _ (.inl rfl)
  | take o n =>
    cases hu
    cases o with
    | owned => unfold take; exact ht.sub fun r hr => retainRows_mem hr
    | shared => exact rect_addRows _ (.inl rfl)
  | sort ncmp names =>
    obtain ⟨cs, _, rfl⟩ := map_ok hu
    exact rect_sortCols _ cs ht
  | sortBy o key cmp probe sched => exact ht.sub (sortBy_rows hu).1
  | addRows v i =>
    change addByRow t v.1 i = .ok u at hu
    unfold addByRow at hu
    dsimp only at hu
    split at hu
    · have hu' := Except.ok.inj hu
      rw [← hu']
      have := rect_addRows ((v.1.drop 1).map (·.take (min (width t) (width v.1)))) ht
      split
      · exact rect_removeCols _ this
      · exact this
    · split at hu
      · cases hu; exact v.2
      · exact rect_nameCols _ (rect_addRows _ ht) hu
  | addCols v i =>
    have hu' := Except.ok.inj hu
    rw [← hu']
    unfold addByCol
    dsimp only
    split
    · split
      · exact rect_removeRows _ (rect_addCols _ ht)
      · exact rect_addCols _ ht
    · exact rect_addCols _ ht

/-- `range` and `Table` make tables. -/
theorem shape_new (ofNat : Nat → N) (a b : Nat) (names : List (Res String)) : Rect (range ofNat a b) ∧ ∀ u : Rows N, tableCtor names = .ok u → Rect u := by
  constructor
  · refine rect_of (w := 1) (by omega) ?_
    intro r hr
    rcases List.mem_cons.1 hr with rfl | hr
    · rfl
    · obtain ⟨x, _, rfl⟩ := List.mem_map.1 hr; rfl
  · intro u hu
    obtain ⟨ns, _, rfl⟩ := map_ok hu
    have : ∀ (ns : List String) (t : Rows N), Rect t → Rect (ns.foldl (fun t n => addCol t [.obj (.str n)]) t) := by
      intro ns
      induction ns with
      | nil => intro t h; exact h
      | cons n ns ih => intro t h; exact ih _ (rect_addCol h _)
    exact this ns [] (.inl rfl)

/-- A command chain. -/
def chain (cs : List (Cmd N)) (t : Rows N) : Res (Rows N) := match cs with
  | [] => .ok t
  | c :: cs => (c.run t).bind (chain cs)

theorem shape_chain (cs : List (Cmd N)) : ∀ {t u : Rows N}, Rect t → chain cs t = .ok u → Rect u := by
  induction cs with
  | nil => intro t u h hu; cases hu; exact h
  | cons c cs ih =>
    intro t u h hu
    obtain ⟨v, hv, hu⟩ := bind_ok hu
    exact ih (shape h c hv) hu

/-- Commands that only select or reorder rows leave the header untouched, and every row of the result is a row of
the table. -/
theorem header_kept {t u : Rows N} (ht : Rect t) (c : Cmd N) (hc : c.rowsOnly = true) (hs : c.scheduled t) (hu : c.run t = .ok u) :
    u.head? = t.head? ∧ ∀ r ∈ u, r ∈ t := by
  have hkeep : ∀ (q : Nat → Bool) (t : Rows N), q 0 = true → (retainRows q t).head? = t.head? := by
    intro q t h0
    rw [retainRows_eq q h0]; cases t <;> rfl
  have hf : ∀ (o : Owner) (p : Rows N → Nat → Prog N Bool) (sched : Sched), Schedule t.length sched → filterTable o t p sched = .ok u →
      u.head? = t.head? ∧ ∀ r ∈ u, r ∈ t := by
    intro o p sched hs hu
    rcases filter_exact ht o p sched hs with ⟨q, _, h⟩ | ⟨i, b, _, _, _, h⟩
    · rw [h] at hu; cases hu
      exact ⟨by cases t <;> rfl, fun r hr => mem_keepRows hr⟩
    · rw [h] at hu; cases hu
  cases c with
  | dedup eqv names =>
    obtain ⟨cs, _, rfl⟩ := map_ok hu
    exact ⟨by cases t <;> rfl, fun r hr => dedupBy_mem _ _ r hr⟩
  | filter o p sched => exact hf o p sched hs hu
  | filterCol o name ty p sched =>
    obtain ⟨n, _, hu⟩ := bind_ok hu
    exact hf o _ sched hs hu
  | rev cols =>
    cases cols with
    | true => cases hc
    | false =>
      cases hu
      refine ⟨by cases t <;> rfl, ?_⟩
      intro r hr
      cases t with
      | nil => exact hr
      | cons a d =>
        rcases List.mem_cons.1 hr with rfl | hr
        · exact List.mem_cons_self
        · exact List.mem_cons_of_mem _ (List.mem_reverse.1 hr)
  | skip o b umax n =>
    cases o with
    | owned => cases hu; exact ⟨hkeep _ t rfl, fun r hr => retainRows_mem hr⟩
    | shared =>
      obtain ⟨k, _, rfl⟩ := map_ok hu
      have hsub : ∀ r ∈ t.take 1 ++ t.drop k, r ∈ t := by
        intro r hr
        rcases List.mem_append.1 hr with h | h
        · exact List.mem_of_mem_take h
        · exact List.mem_of_mem_drop h
      rw [addRows_eq _ (by rw [List.nil_append]; exact ht.sub hsub), List.nil_append]
      refine ⟨?_, hsub⟩
      cases t <;> simp
  | take o n =>
    cases hu
    rw [take_eq ht o n]
    exact ⟨by cases t <;> rfl, fun r hr => List.mem_of_mem_take hr⟩
  | sort ncmp names =>
    obtain ⟨cs, _, rfl⟩ := map_ok hu
    refine ⟨head_sortCols _ cs, ?_⟩
    have : ∀ (cs : List Nat) (t : Rows N) (r : List (Entry N)), r ∈ cs.foldl (fun t c => sortCol (entryLe ncmp) c t) t → r ∈ t := by
      intro cs
      induction cs with
      | nil => intro t r h; exact h
      | cons c cs ih => intro t r h; exact sortCol_mem _ _ (ih _ _ h)
    exact this cs t
  | sortBy o key cmp probe sched => exact (sortBy_rows hu).symm
  | append | appendRow | filterCols | grp | grpBy | map | pick | ren | renWith | addRows | addCols => cases hc

example : Rect people ∧ valOf ((chain [.filter .shared over25d sched3, .appendRow [.ok (.num 1), .ok .nil, .ok (.bool true)], .rev false, .take .owned 1] people).map
    fun u => u.map fun r => (r.length, headerText r[0]?)) = some [(3, "name"), (3, "")] := ⟨people_rect, by decide +kernel⟩

/-! ## reading cells -/

/-- `get name` reads the cell under the first header that is the name. With a type, a cell of another type is an
error; with a default, such a cell gives the default. This holds whatever was read before through the cache. -/
theorem get_exact {t : Rows N} (ht : Rect t) {row : Nat} (hr : row < t.length) {name : String} {c : Nat} (hc : Column t name c) (cache : Cache) (hk : CacheOk t cache) :
    (∀ ty, (runCached t row (rowGet name (.flag ty)) cache).1 =
      if (cell t row c).value.ty = ty then .ok (cell t row c).value else .error (.err .entryTy)) ∧
    (∀ ty v, (runCached t row (rowGet name (.dflt ty v)) cache).1 =
      if (cell t row c).value.ty = ty then .ok (cell t row c).value else liftErr v) := by
  have hci := (colIdx_ok t name c).2 hc
  obtain ⟨r, e, h1, h2, h3⟩ := entryAt_rect ht hr (colIdx_lt hci)
  have hcell : cell t row c = e := by unfold cell; rw [h1]; simp [h2]
  constructor
  · intro ty
    rw [(runCached_eq t row _ cache hk).1]
    unfold rowGet evalRow
    simp only [hci, h3, cnvValue, hcell]
    by_cases h : e.value.ty = ty
    · simp [h, evalRow]
    · simp [h, evalRow]
  · intro ty v
    rw [(runCached_eq t row _ cache hk).1]
    unfold rowGet evalRow
    simp only [hci, h3, hcell]
    by_cases h : e.value.ty = ty
    · simp [h, evalRow]
    · cases v <;> simp [h, evalRow, liftErr]

/-- A name that is no header is an error, with a default too. -/
theorem get_missing (t : Rows N) (row : Nat) {name : String} (hn : ∀ c, ¬ Column t name c) (g : Get N) (cache : Cache) (hk : CacheOk t cache) :
    ∃ b, (runCached t row (rowGet name g) cache).1 = .error (.err b) := by
  cases h : colIdx t name with
  | ok c => exact absurd ((colIdx_ok t name c).1 h) (hn c)
  | error b =>
    refine ⟨b, ?_⟩
    rw [(runCached_eq t row _ cache hk).1]
    cases g <;> (unfold rowGet evalRow; simp only [h])

/-- The cache after any sequence of reads on any rows of the table still agrees with the table, so the two theorems
above apply to every later read. -/
theorem get_history (t : Rows N) (reads : List (Nat × Prog N (Value N))) :
    CacheOk t (reads.foldl (fun c p => (runCached t p.1 p.2 c).2) noCache) := by
  have : ∀ (reads : List (Nat × Prog N (Value N))) (c : Cache), CacheOk t c → CacheOk t (reads.foldl (fun c p => (runCached t p.1 p.2 c).2) c) := by
    intro reads
    induction reads with
    | nil => intro c h; exact h
    | cons p reads ih => intro c h; exact ih _ (runCached_eq t p.1 p.2 c h).2
  exact this reads noCache (cacheOk_none t)

/-- Reading `age` twice, then `name`, in different rows. -/
example : Column people "age" 1 ∧
    valOf ((runCached people 2 (rowGet "age" (.flag .num)) (runCached people 1 (rowGet "name" (.flag .str)) noCache).2).1.map
      fun v => match v with | .num n => n | _ => 0) = some 20 ∧
    errOf (runCached people 3 (rowGet "age" (.flag .num)) noCache).1 = some (.err .entryTy) ∧
    valOf ((runCached people 3 (rowGet "age" (.dflt .num (.ok (.num 7)))) noCache).1.map
      fun v => match v with | .num n => n | _ => 0) = some 7 :=
  ⟨(colIdx_ok people "age" 1).1 (by decide +kernel), by decide +kernel, by decide +kernel, by decide +kernel⟩

/-! ## folds -/

/-- What a fold should be: the accumulator applied to each data row in turn. -/
def foldRows {A : Type} (t : Rows N) (acc : A → Rows N → Nat → Prog N A) : List Nat → A → Res A
  | [], x => .ok x
  | i :: is, x => (evalRow t i (acc x t i)).bind (foldRows t acc is)

theorem foldLoop_eq {A : Type} (t : Rows N) (acc : A → Rows N → Nat → Prog N A) (is : List Nat) : ∀ (x : A) (c : Cache), CacheOk t c →
    foldLoop t acc is x c = foldRows t acc is x := by
  induction is with
  | nil => intro x c _; rfl
  | cons i is ih =>
    intro x c h
    obtain ⟨h1, h2⟩ := runCached_eq t i (acc x t i) c h
    unfold foldLoop foldRows
    rw [← h1]
    generalize runCached t i (acc x t i) c = rc at h2 ⊢
    obtain ⟨r, c'⟩ := rc
    cases r with
    | error e => rfl
    | ok y => exact ih y c' h2

/-- `fold` visits the data rows 1, 2, … in order, once each, and ends at the first failure. -/
theorem fold_exact {A : Type} (t : Rows N) (seed : A) (acc : A → Rows N → Nat → Prog N A) :
    fold t (.ok seed) acc = foldRows t acc (List.range' 1 (t.length - 1)) seed :=
  foldLoop_eq t acc _ seed noCache (cacheOk_none t)

/-- With an accumulator that cannot fail, `fold` is the left fold over the data rows. -/
theorem fold_pure {A : Type} (t : Rows N) (seed : A) (f : A → Nat → A) (acc : A → Rows N → Nat → Prog N A)
    (h : ∀ x i, 1 ≤ i → i < t.length → evalRow t i (acc x t i) = .ok (f x i)) :
    fold t (.ok seed) acc = .ok ((List.range' 1 (t.length - 1)).foldl f seed) := by
  rw [fold_exact]
  have : ∀ (is : List Nat) (x : A), (∀ i ∈ is, 1 ≤ i ∧ i < t.length) → foldRows t acc is x = .ok (is.foldl f x) := by
    intro is
    induction is with
    | nil => intro x _; rfl
    | cons i is ih =>
      intro x hi
      have := hi i (by simp)
      unfold foldRows
      rw [h x i this.1 this.2]
      exact ih _ (fun j hj => hi j (by simp [hj]))
  exact this _ _ (fun i hi => by have := List.mem_range'_1.1 hi; omega)

/-- `fold-while`: the rows up to the first one on which the predicate, given the value so far, is false. -/
def foldRowsWhile {A : Type} (t : Rows N) (p : A → Rows N → Nat → Prog N Bool) (acc : A → Rows N → Nat → Prog N A) : List Nat → A → Res A
  | [], x => .ok x
  | i :: is, x => (evalRow t i (p x t i)).bind fun b =>
    if b then (evalRow t i (acc x t i)).bind (foldRowsWhile t p acc is) else .ok x

theorem foldWhileLoop_eq {A : Type} (t : Rows N) (p : A → Rows N → Nat → Prog N Bool) (acc : A → Rows N → Nat → Prog N A) (is : List Nat) :
    ∀ (x : A) (c : Cache), CacheOk t c → foldWhileLoop t p acc is x c = foldRowsWhile t p acc is x := by
  induction is with
  | nil => intro x c _; rfl
  | cons i is ih =>
    intro x c h
    obtain ⟨h1, h2⟩ := runCached_eq t i (p x t i) c h
    unfold foldWhileLoop foldRowsWhile
    rw [← h1]
    generalize runCached t i (p x t i) c = rc at h2 ⊢
    obtain ⟨r, c'⟩ := rc
    cases r with
    | error e => rfl
    | ok b =>
      cases b with
      | false => rfl
      | true =>
        obtain ⟨h3, h4⟩ := runCached_eq t i (acc x t i) c' h2
        show _ = (evalRow t i (acc x t i)).bind _
        rw [← h3]
        dsimp only
        generalize runCached t i (acc x t i) c' = rc at h4 ⊢
        obtain ⟨r, c''⟩ := rc
        cases r with
        | error e => rfl
        | ok y => exact ih y c'' h4

theorem fold_while_exact {A : Type} (t : Rows N) (seed : A) (p : A → Rows N → Nat → Prog N Bool) (acc : A → Rows N → Nat → Prog N A) :
    foldWhile t (.ok seed) p acc = foldRowsWhile t p acc (List.range' 1 (t.length - 1)) seed :=
  foldWhileLoop_eq t p acc _ seed noCache (cacheOk_none t)

/-- With a predicate that always holds the two agree. -/
theorem fold_while_true {A : Type} (t : Rows N) (seed : A) (acc : A → Rows N → Nat → Prog N A) :
    foldWhile t (.ok seed) (fun _ _ _ => .ret true) acc = fold t (.ok seed) acc := by
  rw [fold_while_exact, fold_exact]
  generalize List.range' 1 (t.length - 1) = is
  induction is generalizing seed with
  | nil => rfl
  | cons i is ih =>
    unfold foldRowsWhile foldRows
    show (evalRow t i (acc seed t i)).bind _ = _
    congr 1
    funext y
    exact ih y

example : valOf (fold people (.ok (0 : Int)) fun x _ i => .get "age" fun e => match e with | .num n => .ret (x * 2 + n) | _ => .ret (x + i)) = some 83 ∧
    valOf (foldWhile people (.ok (0 : Int)) (fun x _ _ => .ret (x < 30)) fun x _ i => .get "age" fun e => match e with | .num n => .ret (x + n) | _ => .ret (x + i)) = some 30 := by
  decide +kernel

end Verif.Tab
