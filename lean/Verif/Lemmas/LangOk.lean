import Verif.Model.Lang
/-! The table operations make no new cells, other than nil, strings, and numbers. -/
namespace Verif.Lang
open Verif
variable {N : Type}

/-- All cells are like this. -/
def All (P : Tab.Entry N → Prop) (t : Tab.Rows N) : Prop := ∀ r ∈ t, ∀ e ∈ r, P e

/-! ### Well-formed values -/

section
variable {sh : String → Shape}

theorem okVs_iff : ∀ {vs : List (Tab.Value N)}, okVs sh vs = true ↔ ∀ v ∈ vs, okV sh v = true
  | [] => by simp [okVs]
  | v :: vs => by simp [okVs, okVs_iff (vs := vs)]

theorem okEs_iff : ∀ {es : List (Tab.Entry N)}, okEs sh es = true ↔ ∀ e ∈ es, okE sh e = true
  | [] => by simp [okEs]
  | e :: es => by simp [okEs, okEs_iff (es := es)]

theorem okRs_iff : ∀ {rs : Tab.Rows N}, okRs sh rs = true ↔ All (fun e => okE sh e = true) rs
  | [] => by simp [okRs, All]
  | r :: rs => by simp [okRs, okRs_iff (rs := rs), okEs_iff, All]

theorem ok_entry {v : Tab.Value N} (h : okV sh v = true) : okE sh v.entry = true := by
  cases v <;> first | rfl | exact h

theorem ok_value {e : Tab.Entry N} (h : okE sh e = true) : okV sh e.value = true := by
  cases e <;> first | rfl | exact h

theorem entry_value (v : Tab.Value N) : v.entry.value = v := by cases v <;> rfl

end

/-! ### Tables -/

section
variable {P : Tab.Entry N → Prop} (hn : P .nil) (hs : ∀ s, P (.obj (.str s)))

theorem All.nil : All P ([] : Tab.Rows N) := fun _ h => by cases h

theorem All.cons {r : List (Tab.Entry N)} {t : Tab.Rows N} (hr : ∀ e ∈ r, P e) (ht : All P t) : All P (r :: t) := by
  intro x hx
  rcases List.mem_cons.1 hx with rfl | hx
  · exact hr
  · exact ht x hx

theorem All.sub {t u : Tab.Rows N} (h : All P t) (hu : ∀ r ∈ u, r ∈ t) : All P u := fun r hr => h r (hu r hr)

theorem All.append {t u : Tab.Rows N} (h : All P t) (h' : All P u) : All P (t ++ u) := fun r hr => (List.mem_append.1 hr).elim (h r) (h' r)

theorem All.norm {t : Tab.Rows N} (h : All P t) : All P (Tab.norm t) := by
  unfold Tab.norm
  split
  · exact All.nil
  · exact h

include hn in
theorem padTo_all {w : Nat} {r : List (Tab.Entry N)} (h : ∀ e ∈ r, P e) : ∀ e ∈ Tab.padTo w r, P e := by
  intro e he
  rcases List.mem_append.1 he with h1 | h1
  · exact h e h1
  · rw [List.eq_of_mem_replicate h1]; exact hn

include hn in
theorem addRow_all {t : Tab.Rows N} {r : List (Tab.Entry N)} (ht : All P t) (hr : ∀ e ∈ r, P e) : All P (Tab.addRow t r) := by
  refine All.norm fun x hx => ?_
  obtain ⟨y, hy, rfl⟩ := List.mem_map.1 hx
  refine padTo_all hn ?_
  rcases List.mem_append.1 hy with h1 | h1
  · exact ht y h1
  · rw [List.mem_singleton.1 h1]; exact hr

include hn in
theorem addRows_all : ∀ {rs t : Tab.Rows N}, All P t → All P rs → All P (Tab.addRows t rs)
  | [], _, ht, _ => ht
  | r :: rs, t, ht, hr => by
    have := addRows_all (rs := rs) (addRow_all hn ht (hr r (.head _))) fun x hx => hr x (List.mem_cons_of_mem _ hx)
    exact this

include hn in
theorem getD_all {c : List (Tab.Entry N)} (hc : ∀ e ∈ c, P e) (i : Nat) : P (c[i]?.getD .nil) := by
  cases h : c[i]? with
  | none => exact hn
  | some e => exact hc e (List.mem_of_getElem? h)

theorem getD_row {t : Tab.Rows N} (ht : All P t) (i : Nat) : ∀ e ∈ (t[i]?.getD []), P e := by
  cases h : t[i]? with
  | none => intro e he; cases he
  | some r => exact ht r (List.mem_of_getElem? h)

include hn in
theorem addCol_all {t : Tab.Rows N} {c : List (Tab.Entry N)} (ht : All P t) (hc : ∀ e ∈ c, P e) : All P (Tab.addCol t c) := by
  intro r hr
  obtain ⟨i, _, rfl⟩ := List.mem_map.1 hr
  intro e he
  rcases List.mem_append.1 he with h1 | h1
  · exact padTo_all hn (getD_row ht i) e h1
  · rw [List.mem_singleton.1 h1]; exact getD_all hn hc i

include hn in
theorem addCols_all : ∀ {cs t : Tab.Rows N}, All P t → All P cs → All P (Tab.addCols t cs)
  | [], _, ht, _ => ht
  | c :: cs, t, ht, hc => by
    have := addCols_all (cs := cs) (addCol_all hn ht (hc c (.head _))) fun x hx => hc x (List.mem_cons_of_mem _ hx)
    exact this

theorem removeCol_all {t : Tab.Rows N} {i : Nat} (h : All P t) : All P (Tab.removeCol t i) := by
  refine All.norm fun r hr => ?_
  obtain ⟨x, hx, rfl⟩ := List.mem_map.1 hr
  exact fun e he => h x hx e (List.mem_of_mem_eraseIdx he)

theorem removeRow_all {t : Tab.Rows N} {i : Nat} (h : All P t) : All P (Tab.removeRow t i) := fun r hr => h r (List.mem_of_mem_eraseIdx hr)

theorem retainRows_all {t : Tab.Rows N} {p : Nat → Bool} (h : All P t) : All P (Tab.retainRows p t) := by
  intro r hr
  obtain ⟨x, hx, rfl⟩ := List.mem_map.1 hr
  have := (List.mem_filter.1 hx).1
  exact h _ (List.mem_of_getElem? (List.mem_zipIdx_iff_getElem?.1 this))

theorem reverseRows_all {t : Tab.Rows N} (h : All P t) : All P (Tab.reverseRows t) := by
  cases t with
  | nil => exact All.nil
  | cons a t =>
    refine All.cons (h a (.head _)) fun r hr => h r (List.mem_cons_of_mem _ (List.mem_reverse.1 hr))

theorem reverseCols_all {t : Tab.Rows N} (h : All P t) : All P (Tab.reverseCols t) := by
  intro r hr
  obtain ⟨x, hx, rfl⟩ := List.mem_map.1 hr
  exact fun e he => h x hx e (List.mem_reverse.1 he)

theorem rev_all {t : Tab.Rows N} {b : Bool} (h : All P t) : All P (Tab.rev t b) := by
  unfold Tab.rev
  split
  · exact reverseCols_all h
  · exact reverseRows_all h

theorem sortCol_all {t : Tab.Rows N} {le : Tab.Entry N → Tab.Entry N → Bool} {c : Nat} (h : All P t) : All P (Tab.sortCol le c t) := by
  cases t with
  | nil => exact All.nil
  | cons a t => exact All.cons (h a (.head _)) fun r hr => h r (List.mem_cons_of_mem _ (List.mem_mergeSort.1 hr))

theorem modCol_all {t : Tab.Rows N} {c : Nat} {f : Nat → Tab.Entry N → Tab.Entry N} (h : All P t) (hf : ∀ i e, P e → P (f i e)) : All P (Tab.modCol t c f) := by
  intro r hr
  obtain ⟨x, hx, rfl⟩ := List.mem_map.1 hr
  have hx' : x.1 ∈ t := List.mem_of_getElem? (List.mem_zipIdx_iff_getElem?.1 hx)
  intro e he
  obtain ⟨i, hi⟩ := List.getElem?_of_mem he
  rw [List.getElem?_modify] at hi
  cases hg : x.1[i]? with
  | none => rw [hg] at hi; cases hi
  | some y =>
    rw [hg] at hi
    have hy := h x.1 hx' y (List.mem_of_getElem? hg)
    simp only [Option.map_eq_map, Option.map_some, Option.some.injEq] at hi
    subst hi
    split
    · exact hf _ _ hy
    · exact hy

theorem entryAt_all {t : Tab.Rows N} {i c : Nat} {e : Tab.Entry N} (h : All P t) (he : Tab.entryAt t i c = .ok e) : P e := by
  unfold Tab.entryAt at he
  split at he
  · cases he
  · rename_i r hr
    split at he
    · rename_i e' hc
      cases he
      exact h r (List.mem_of_getElem? hr) _ (List.mem_of_getElem? hc)
    · cases he

include hs in
theorem nameHeaders_all : ∀ {l : List (Tab.Entry N)} {i : Nat}, (∀ e ∈ l, P e) → ∀ e ∈ Tab.nameHeaders l i, P e
  | [], _, _ => fun _ h => by cases h
  | a :: l, i, h => by
    intro e he
    cases a with
    | nil =>
      rw [Tab.nameHeaders] at he
      rcases List.mem_cons.1 he with rfl | he
      · exact hs _
      · exact nameHeaders_all (fun x hx => h x (List.mem_cons_of_mem _ hx)) e he
    | num n =>
      rw [Tab.nameHeaders] at he
      · rcases List.mem_cons.1 he with rfl | he
        · exact h _ (.head _)
        · exact nameHeaders_all (fun x hx => h x (List.mem_cons_of_mem _ hx)) e he
      · exact fun h => by cases h
    | obj v =>
      rw [Tab.nameHeaders] at he
      · rcases List.mem_cons.1 he with rfl | he
        · exact h _ (.head _)
        · exact nameHeaders_all (fun x hx => h x (List.mem_cons_of_mem _ hx)) e he
      · exact fun h => by cases h

theorem dedupGo_sub {α : Type} {same : α → α → Bool} : ∀ {l : List α} {k x : α}, x ∈ Tab.dedupGo same k l → x ∈ l
  | [], _, _, h => h
  | b :: l, k, x, h => by
    rw [Tab.dedupGo] at h
    split at h
    · exact List.mem_cons_of_mem _ (dedupGo_sub h)
    · rcases List.mem_cons.1 h with rfl | h
      · exact .head _
      · exact List.mem_cons_of_mem _ (dedupGo_sub h)

theorem dedupBy_all {t : Tab.Rows N} {same : List (Tab.Entry N) → List (Tab.Entry N) → Bool} (h : All P t) : All P (Tab.dedupBy same t) := by
  cases t with
  | nil => exact All.nil
  | cons a t => exact All.cons (h a (.head _)) fun r hr => h r (List.mem_cons_of_mem _ (dedupGo_sub hr))

theorem res_map {α β : Type} {r : Tab.Res α} {f : α → β} {b : β} (h : r.map f = .ok b) : ∃ a, r = .ok a ∧ f a = b := by
  cases r with
  | error e => cases h
  | ok a => exact ⟨a, rfl, by cases h; rfl⟩

theorem res_bind {α β : Type} {r : Tab.Res α} {f : α → Tab.Res β} {b : β} (h : r.bind f = .ok b) : ∃ a, r = .ok a ∧ f a = .ok b := by
  cases r with
  | error e => cases h
  | ok a => exact ⟨a, rfl, h⟩

theorem seq_mem {α : Type} : ∀ {l : List (Tab.Res α)} {xs : List α}, Tab.sequence l = .ok xs → ∀ x ∈ xs, .ok x ∈ l
  | [], xs, h, x, hx => by cases h; cases hx
  | r :: l, xs, h, x, hx => by
    obtain ⟨a, rfl, h2⟩ := res_bind h
    obtain ⟨ys, h3, rfl⟩ := res_map h2
    rcases List.mem_cons.1 hx with rfl | hx
    · exact .head _
    · exact List.mem_cons_of_mem _ (seq_mem h3 x hx)

theorem dedupTable_all {t t' : Tab.Rows N} {eqv : Tab.Entry N → Tab.Entry N → Bool} {ns : List (Tab.Res String)} (h : All P t)
    (ht : Tab.dedupTable eqv t ns = .ok t') : All P t' := by
  obtain ⟨cs, _, rfl⟩ := res_map ht
  exact dedupBy_all h

include hn hs in
theorem appendRow_all {t t' : Tab.Rows N} {cells : List (Tab.Res (Tab.Value N))} (h : All P t) (hc : ∀ v, .ok v ∈ cells → P v.entry)
    (ht : Tab.appendRow t cells = .ok t') : All P t' := by
  obtain ⟨vs, hv, e⟩ := res_map ht
  have h1 : All P (Tab.addRow t (vs.map Tab.Value.entry)) := addRow_all hn h fun e he => by
    obtain ⟨v, hv', rfl⟩ := List.mem_map.1 he
    exact hc v (seq_mem hv v hv')
  generalize Tab.addRow t (vs.map Tab.Value.entry) = u at h1 e
  cases u with
  | nil => subst e; exact All.nil
  | cons a u =>
    subst e
    exact All.cons (nameHeaders_all hs (h1 a (.head _))) fun r hr => h1 r (List.mem_cons_of_mem _ hr)

theorem retainKeep_all {t : Tab.Rows N} {o : Tab.Owner} {keep : List Bool} (h : All P t) : All P (Tab.retainKeep o keep t) := by
  unfold Tab.retainKeep
  split
  · exact h
  · split
    · exact retainRows_all h
    · intro r hr
      obtain ⟨i, _, rfl⟩ := List.mem_map.1 hr
      exact getD_row h i

theorem setHeader_all {t : Tab.Rows N} {i : Nat} {s : String} (hs : ∀ s, P (.obj (.str s))) (h : All P t) : All P (Tab.setHeader i s t) := by
  cases t with
  | nil => exact All.nil
  | cons a t =>
    refine All.cons (fun e he => ?_) fun r hr => h r (List.mem_cons_of_mem _ hr)
    rcases List.mem_or_eq_of_mem_set he with h1 | h1
    · exact h a (.head _) e h1
    · rw [h1]; exact hs _

include hn in
theorem skip_all {t t' : Tab.Rows N} {o : Tab.Owner} {b : Tab.Build} {m n : Nat} (h : All P t) (ht : Tab.skip o b m t n = .ok t') : All P t' := by
  unfold Tab.skip at ht
  split at ht
  · cases ht; exact retainRows_all h
  · obtain ⟨k, _, rfl⟩ := res_map ht
    exact addRows_all hn All.nil (All.append (h.sub fun r hr => List.mem_of_mem_take hr) (h.sub fun r hr => List.mem_of_mem_drop hr))

include hn in
theorem take_all {t : Tab.Rows N} {o : Tab.Owner} {n : Nat} (h : All P t) : All P (Tab.take o t n) := by
  unfold Tab.take
  split
  · exact retainRows_all h
  · exact addRows_all hn All.nil (All.append (h.sub fun r hr => List.mem_of_mem_take hr) (h.sub fun r hr => List.mem_of_mem_drop (List.mem_of_mem_take hr)))

theorem foldl_all {α : Type} {f : Tab.Rows N → α → Tab.Rows N} (hf : ∀ t a, All P t → All P (f t a)) : ∀ {l : List α} {t : Tab.Rows N}, All P t → All P (l.foldl f t)
  | [], _, h => h
  | a :: l, t, h => foldl_all hf (l := l) (hf t a h)

theorem sort_all {t t' : Tab.Rows N} {c : N → N → Ordering} {ns : List (Tab.Res String)} (h : All P t) (ht : Tab.sort c t ns = .ok t') : All P t' := by
  obtain ⟨cs, _, rfl⟩ := res_map ht
  exact foldl_all (fun t i ht => sortCol_all ht) h

theorem reorderOwned_all : ∀ {is : List Nat} {t t' : Tab.Rows N}, All P t → Tab.reorderOwned is t = .ok t' → All P t'
  | [], t, t', _, ht => by cases ht; exact All.nil
  | i :: is, t, t', h, ht => by
    rw [Tab.reorderOwned] at ht
    split at ht
    · cases ht
    · rename_i r hr
      obtain ⟨u, hu, rfl⟩ := res_map ht
      refine All.cons (h r (List.mem_of_getElem? hr)) (reorderOwned_all (fun x hx => ?_) hu)
      rcases List.mem_or_eq_of_mem_set hx with h1 | h1
      · exact h x h1
      · rw [h1]; intro e he; cases he

theorem reorder_all {is : List Nat} {t t' : Tab.Rows N} {o : Tab.Owner} (h : All P t) (ht : Tab.reorder o is t = .ok t') : All P t' := by
  cases o with
  | owned => exact reorderOwned_all h ht
  | shared =>
    intro r hr
    obtain ⟨i, _, e⟩ := List.mem_map.1 (seq_mem ht r hr)
    split at e
    · rename_i x hx
      cases e
      exact h r (List.mem_of_getElem? hx)
    · cases e

include hs hn in
theorem pick_all {t t' : Tab.Rows N} {ns : List (Tab.Res String)} {a b : Bool} (h : All P t) (ht : Tab.pick t ns a b = .ok t') : All P t' := by
  unfold Tab.pick at ht
  obtain ⟨cs, _, h2⟩ := res_bind ht
  clear ht
  dsimp only at h2
  generalize (if b then _ else cs) = ds at h2
  intro r hr e he
  obtain ⟨i, _, h3⟩ := List.mem_map.1 (seq_mem h2 r hr)
  obtain ⟨d, _, h4⟩ := List.mem_map.1 (seq_mem h3 e he)
  obtain ⟨j, s⟩ := d
  cases j with
  | none =>
    simp only [Tab.pickCell, Except.ok.injEq] at h4
    rw [← h4]
    split
    · exact hs _
    · exact hn
  | some j => exact entryAt_all h h4

theorem colsOf_all {t : Tab.Rows N} (hn : P .nil) (h : All P t) : All P (Tab.colsOf t) := by
  intro r hr e he
  obtain ⟨c, _, rfl⟩ := List.mem_map.1 hr
  obtain ⟨x, hx, rfl⟩ := List.mem_map.1 he
  exact getD_all hn (h x hx) c

theorem take_cells {t : Tab.Rows N} {k : Nat} (h : All P t) : All P (t.map (·.take k)) := by
  intro r hr e he
  obtain ⟨x, hx, rfl⟩ := List.mem_map.1 hr
  exact h x hx e (List.mem_of_mem_take he)

include hn in
theorem addByCol_all {t u : Tab.Rows N} {b : Bool} (h : All P t) (hu : All P u) : All P (Tab.addByCol t u b) := by
  unfold Tab.addByCol
  dsimp only
  split
  · have := addCols_all hn h (take_cells (k := min t.length u.length) (colsOf_all hn hu))
    split
    · exact foldl_all (fun t i ht => removeRow_all ht) this
    · exact this
  · exact addCols_all hn h (colsOf_all hn hu)

theorem nameCols_all {u : Tab.Rows N} (hn : P .nil) (hu : All P u) : ∀ {cs : List Nat} {t t' : Tab.Rows N}, All P t → Tab.nameCols u cs t = .ok t' → All P t'
  | [], t, t', h, ht => by cases ht; exact h
  | c :: cs, t, t', h, ht => by
    unfold Tab.nameCols at ht
    split at ht
    · refine nameCols_all hn hu ?_ ht
      cases t with
      | nil => exact All.nil
      | cons a d =>
        refine All.cons (fun e he => ?_) fun r hr => h r (List.mem_cons_of_mem _ hr)
        rcases List.mem_or_eq_of_mem_set he with h1 | h1
        · exact h a (.head _) e h1
        · rw [h1]
          unfold Tab.col
          split
          · cases u with
            | nil => exact hn
            | cons a u => exact getD_all hn (hu a (.head _)) c
          · exact hn
    · cases ht

include hn in
theorem addByRow_all {t u t' : Tab.Rows N} {b : Bool} (h : All P t) (hu : All P u) (ht : Tab.addByRow t u b = .ok t') : All P t' := by
  unfold Tab.addByRow at ht
  dsimp only at ht
  have hd : All P (u.drop 1) := hu.sub fun r hr => List.mem_of_mem_drop hr
  split at ht
  · cases ht
    have := addRows_all hn h (take_cells (k := min (Tab.width t) (Tab.width u)) hd)
    split
    · exact foldl_all (fun t i ht => removeCol_all ht) this
    · exact this
  · split at ht
    · cases ht; exact hu
    · exact nameCols_all hn hu (addRows_all hn h hd) ht

include hn hs in
theorem tableCtor_all {ns : List (Tab.Res String)} {t : Tab.Rows N} (ht : Tab.tableCtor ns = .ok t) : All P t := by
  obtain ⟨vs, _, rfl⟩ := res_map ht
  exact foldl_all (fun t s h => addCol_all hn h fun e he => by rw [List.mem_singleton.1 he]; exact hs _) All.nil

/-! ### Groups -/

theorem bmUpd_all {K V : Type} {Q : K × V → Prop} {cmp : K → K → Ordering} {k : K} {new : V} {f : V → V} (hk : Q (k, f new))
    (hf : ∀ k' v, Q (k', v) → Q (k', f v)) : ∀ {m : List (K × V)}, (∀ x ∈ m, Q x) → ∀ x ∈ Tab.bmUpd cmp k new f m, Q x
  | [], _, x, hx => by rw [List.mem_singleton.1 hx]; exact hk
  | (k', v) :: m, h, x, hx => by
    rw [Tab.bmUpd] at hx
    split at hx
    · rcases List.mem_cons.1 hx with rfl | hx
      · exact hk
      · exact h x hx
    · rcases List.mem_cons.1 hx with rfl | hx
      · exact hf _ _ (h _ (.head _))
      · exact h x (List.mem_cons_of_mem _ hx)
    · rcases List.mem_cons.1 hx with rfl | hx
      · exact h _ (.head _)
      · exact bmUpd_all hk hf (fun y hy => h y (List.mem_cons_of_mem _ hy)) x hx

include hn in
theorem groups_all {K : Type} {R : K → Prop} {cmp : K → K → Ordering} {h : List (Tab.Entry N)} (hh : ∀ e ∈ h, P e) :
    ∀ {l : List (K × List (Tab.Entry N))} {m : List (K × Tab.Rows N)}, (∀ x ∈ l, R x.1 ∧ ∀ e ∈ x.2, P e) → (∀ x ∈ m, R x.1 ∧ All P x.2) →
    ∀ x ∈ Tab.groups cmp h l m, R x.1 ∧ All P x.2
  | [], m, _, hm => hm
  | (k, r) :: l, m, hl, hm => by
    rw [Tab.groups]
    refine groups_all hh (fun x hx => hl x (List.mem_cons_of_mem _ hx)) ?_
    have hkr := hl (k, r) (.head _)
    refine bmUpd_all (Q := fun x => R x.1 ∧ All P x.2) (f := (Tab.addRow · r)) ⟨hkr.1, addRow_all hn (addRow_all hn All.nil hh) hkr.2⟩ (fun k' v h => ⟨h.1, addRow_all hn h.2 hkr.2⟩) hm

include hn hs in
theorem buildGroups_all {K : Type} {key : K → Tab.Value N} {m : List (K × Tab.Rows N)} (hm : ∀ x ∈ m, P (key x.1).entry ∧ P (.obj (.tab x.2))) :
    All P (Tab.buildGroups key m) := by
  refine addRows_all hn (addRow_all hn All.nil fun e he => ?_) fun r hr e he => ?_
  · rcases List.mem_cons.1 he with rfl | he
    · exact hs _
    · rw [List.mem_singleton.1 he]; exact hs _
  · obtain ⟨x, hx, rfl⟩ := List.mem_map.1 hr
    rcases List.mem_cons.1 he with rfl | he
    · exact (hm x hx).1
    · rw [List.mem_singleton.1 he]; exact (hm x hx).2

end

end Verif.Lang
