import Verif.Lemmas.LangPlays
import Verif.Spec.Lang
/-! The commands without variables do as announced. -/
namespace Verif.Lang
open Verif Verif.Comp
variable {N : Type} {sh : String → Shape} {t0 u : Tab.Ty} {ios pre : List (Tab.Ty × Tab.Ty)}

/-! ### Arithmetic, comparison and logic -/

theorem combine_plays {agg : Tab.Value N → Tab.Value N → Got (Tab.Value N)} {t : Tab.Ty}
    (ha : ∀ a b, Fit sh t a → Fit sh t b → (agg a b).Is (Fit sh t)) {x : Tab.Value N} (hx : Fit sh t x) :
    ∀ (n k : Nat) {v : Tab.Value N}, (∀ j < n, ios[k + j]? = some (t, t)) → Fit sh t v → Plays (Fit sh) t ios (combine agg x n k v)
  | 0, _, _, _, hv => hv
  | n + 1, k, v, hk, hv => plays_ask (hk 0 (by omega)) hx fun w hw => plays_got (ha v w hv hw) fun c hc =>
      combine_plays ha hx n (k + 1) (fun j hj => by rw [show k + 1 + j = k + (j + 1) by omega]; exact hk (j + 1) (by omega)) hc

theorem replicate_at {α : Type} {n j : Nat} {a : α} (h : j < n) : (List.replicate n a)[0 + j]? = some a := by
  rw [Nat.zero_add, List.getElem?_replicate, if_pos h]

theorem variadic_sound {agg : Tab.Value N → Tab.Value N → Got (Tab.Value N)} {t : Tab.Ty} {fs : List String} {n : Nat}
    (ha : ∀ a b, Fit sh t a → Fit sh t b → (agg a b).Is (Fit sh t)) : (variadic t agg fs n t0).Sound (Fit sh) t0 [] := by
  unfold variadic
  split
  · rename_i e
    subst e
    show Talk.Sound (Fit sh) t0 [] (if n = 0 then _ else _)
    split
    · trivial
    · refine sound_argsAs n (sound_fin fun x hx => combine_plays ha hx n 0 (fun j hj => ?_) hx)
      rw [List.nil_append]
      exact replicate_at hj
  · trivial

/-- A computation with one converted value. -/
theorem is_one {α β : Type} {o : Option α} {f : α → β} {P : β → Prop} (h : ∃ a, o = some a) (hf : ∀ a, o = some a → P (f a)) : ((must o).map f).Is P :=
  is_map (is_must h) hf

/-- A computation with two converted values. -/
theorem is_two {α β γ : Type} {o : Option α} {p : Option β} {f : α → β → γ} {P : γ → Prop} (h1 : ∃ a, o = some a) (h2 : ∃ b, p = some b) (hf : ∀ a b, P (f a b)) :
    ((must o).bind fun a => (must p).map fun b => f a b).Is P :=
  is_bind (is_must h1) fun a _ => is_one h2 fun b _ => hf a b

theorem numAgg_fit {f : N → N → N} (a b : Tab.Value N) (h1 : Fit sh .num a) (h2 : Fit sh .num b) : (numAgg f a b).Is (Fit sh .num) :=
  is_two (fit_num' h1) (fit_num' h2) fun _ _ => fit_num _

theorem strAgg_fit (a b : Tab.Value N) (h1 : Fit sh .str a) (h2 : Fit sh .str b) : (strAgg a b).Is (Fit sh .str) :=
  is_two (fit_str' h1) (fit_str' h2) fun _ _ => fit_str _

theorem valOf_some {α : Type} {r : Tab.Res α} {a : α} (h : Tab.valOf r = some a) : r = .ok a := by
  cases r with
  | error e => cases h
  | ok b => cases h; rfl

theorem okOf_some {α : Type} {r : Except Tab.TErr α} {a : α} (h : Tab.okOf r = some a) : r = .ok a := by
  cases r with
  | error e => cases h
  | ok b => cases h; rfl

theorem liftErr_ok {α : Type} {r : Except Tab.TErr α} {a : α} (h : Tab.liftErr r = .ok a) : r = .ok a := by
  cases r with
  | error e => cases h
  | ok b => cases h; rfl

theorem tabAgg_fit {b i : Bool} (x y : Tab.Value N) (hx : Fit sh .tab x) (hy : Fit sh .tab y) : (tabAgg b i x y).Is (Fit sh .tab) := by
  refine is_bind (is_must (fit_tab' hx)) fun t h1 => is_bind (is_must (fit_tab' hy)) fun t' h2 => ?_
  split
  · exact is_map (is_may _) fun t2 h3 => fit_tab (addByRow_all ok_nil (fit_asTab hx h1) (fit_asTab hy h2) (valOf_some h3))
  · exact fit_tab (addByCol_all ok_nil (fit_asTab hx h1) (fit_asTab hy h2))

theorem unary_sound {t u : Tab.Ty} {says : Bool} {f : Tab.Value N → Got (Tab.Value N)} {fs : List String}
    (h : ∀ x, Fit sh t x → (f x).Is (Fit sh u)) : (unary t0 t u says f fs).Sound (Fit sh) t0 pre := by
  unfold unary
  split
  · rename_i e
    subst e
    split
    · exact sound_fin fun x hx => plays_got (h x hx) fun y hy => hy
    · exact sound_fin fun x hx => plays_got (h x hx) fun y hy => hy
  · trivial

theorem binary_sound {t a u : Tab.Ty} {says : Bool} {f : Tab.Value N → Tab.Value N → Got (Tab.Value N)} {fs : List String}
    (h : ∀ x y, Fit sh t x → Fit sh a y → (f x y).Is (Fit sh u)) : (binary t0 t a u says f fs).Sound (Fit sh) t0 [] := by
  unfold binary
  dsimp only
  have key : t0 = t → (Talk.argAs t0 a (fin fs u fun x => ask 0 x fun y => got (f x y) .done)).Sound (Fit sh) t0 [] := fun e => by
    subst e
    exact sound_argAs (sound_fin fun x hx => plays_ask rfl hx fun y hy => plays_got (h x y hx hy) fun z hz => hz)
  split
  · rename_i e
    split
    · exact key e
    · exact key e
  · trivial

theorem ignoring_sound {v : Tab.Value N} {fs : List String} (h : Fit sh u v) : (ignoring u v fs t0).Sound (Fit sh) t0 pre := by
  unfold ignoring
  split
  · exact sound_argAs (sound_fin fun _ _ => h)
  · trivial

theorem injected_sound {W : World N} {code : String → Option (Tab.Value N → Tab.Value N → Option (Tab.Value N))} {fs : List String}
    (h : ∀ name f x y z, code name = some f → f x y = some z → Fit sh u z) : (injected u W code fs t0).Sound (Fit sh) t0 [] := by
  unfold injected
  split
  · rename_i name
    show Talk.Sound (Fit sh) _ [] (if W.isTuple name = true then _ else _)
    split
    · refine sound_argAs ?_
      split
      · trivial
      · rename_i f hf
        exact sound_fin fun x hx => plays_ask rfl hx fun y _ => plays_opt fun z hz => h name f x y z hf hz
    · trivial
  · trivial

theorem ord_fit (hW : sh "Ord" = .sum [[], [], []]) (o : Ordering) : Fit (N := N) sh ordTy (ordVal o) := by
  cases o <;> exact fit_ogma (fun _ h => by cases h) (by rw [hW]; rfl)

theorem decide_plays {stop : Bool} {x : Tab.Value N} {t : Tab.Ty} (hx : Fit sh t x) :
    ∀ (n k : Nat) {b : Bool}, (∀ j < n, ios[k + j]? = some (t, .bool)) → Plays (Fit sh) .bool ios (decide_ stop x n k b)
  | 0, _, _, _ => fit_bool _
  | n + 1, k, b, hk => by
    refine plays_ask (hk 0 (by omega)) hx fun w hw => plays_bool hw fun c => ?_
    dsimp only
    generalize (if stop = true then b || c else b && c) = b'
    split
    · exact fit_bool _
    · exact decide_plays hx n (k + 1) fun j hj => by rw [show k + 1 + j = k + (j + 1) by omega]; exact hk (j + 1) (by omega)

theorem logic_sound {stop : Bool} {fs : List String} {n : Nat} : (logic (N := N) stop fs n t0).Sound (Fit sh) t0 [] := by
  cases n with
  | zero => trivial
  | succ n =>
    refine sound_argsAs (n + 1) (sound_fin fun x hx => ?_)
    rw [List.nil_append]
    refine plays_ask (i := t0) (o := .bool) ?_ hx fun v hv => plays_bool hv fun b => decide_plays hx n 1 fun j hj => ?_
    · exact replicate_at (n := n + 1) (j := 0) (by omega)
    · rw [List.getElem?_replicate, if_pos (by omega)]

theorem if_plays {x : Tab.Value N} {t u : Tab.Ty} (hx : Fit sh t x) : ∀ (n k : Nat),
    (∀ j < n, ios[k + 2 * j]? = some (t, .bool) ∧ ios[k + 2 * j + 1]? = some (t, u)) → ios[k + 2 * n]? = some (t, u) →
    Plays (Fit sh) u ios (ifAct x n k)
  | 0, k, _, hl => plays_ask hl hx fun v hv => hv
  | n + 1, k, hk, hl => by
    refine plays_ask (hk 0 (by omega)).1 hx fun v hv => plays_bool hv fun b => ?_
    split
    · exact plays_ask (hk 0 (by omega)).2 hx fun v hv => hv
    · refine if_plays hx n (k + 2) (fun j hj => ?_) ?_
      · have := hk (j + 1) (by omega)
        rw [show k + 2 * (j + 1) = k + 2 + 2 * j by omega] at this
        exact this
      · rw [show k + 2 + 2 * n = k + 2 * (n + 1) by omega]; exact hl

/-- The arguments of `if` so far. -/
def ifIos (t : Tab.Ty) (us : List Tab.Ty) : List (Tab.Ty × Tab.Ty) := us.flatMap fun u => [(t, .bool), (t, u)]

theorem ifIos_length (t : Tab.Ty) (us : List Tab.Ty) : (ifIos t us).length = 2 * us.length := by
  induction us with
  | nil => rfl
  | cons u us ih => simp only [ifIos, List.flatMap_cons, List.length_append, List.length_cons, List.length_nil] at ih ⊢; omega

theorem ifIos_at (t : Tab.Ty) : ∀ (us : List Tab.Ty) (j : Nat) (u : Tab.Ty) (l : List (Tab.Ty × Tab.Ty)), us[j]? = some u →
    (ifIos t us ++ l)[2 * j]? = some (t, .bool) ∧ (ifIos t us ++ l)[2 * j + 1]? = some (t, u)
  | [], j, u, _, h => by simp at h
  | v :: us, 0, u, _, h => by
    simp at h
    subst h
    exact ⟨rfl, rfl⟩
  | v :: us, j + 1, u, l, h => by
    have := ifIos_at t us j u l (by simpa using h)
    rw [show 2 * (j + 1) = 2 * j + 1 + 1 by omega]
    exact this

theorem if_sound {fs : List String} {total : Nat} : ∀ (n : Nat) (us : List Tab.Ty), us.length + n = total →
    (ifTalk (N := N) fs t0 total n us).Sound (Fit sh) t0 (ifIos t0 us.reverse)
  | 0, us, hl => by
    refine sound_arg fun u => ?_
    show Talk.Sound (Fit sh) t0 _ (if us.all (fun x => decide (x = u)) = true then _ else _)
    split
    · rename_i hc
      refine sound_fin fun x hx => if_plays hx total 0 (fun j hj => ?_) ?_
      · have hj' : j < us.reverse.length := by rw [List.length_reverse]; omega
        have e : us.reverse[j]? = some u := by
          rw [List.getElem?_eq_getElem hj']
          have := List.all_eq_true.1 hc us.reverse[j] (List.mem_reverse.1 (List.getElem_mem hj'))
          rw [of_decide_eq_true this]
        have := ifIos_at t0 us.reverse j u [(t0, u)] e
        rw [show 0 + 2 * j = 2 * j by omega]
        exact this
      · rw [List.getElem?_append_right (by rw [ifIos_length, List.length_reverse]; omega), ifIos_length, List.length_reverse,
          show 0 + 2 * total - 2 * us.length = 0 by omega]
        rfl
    · trivial
  | n + 1, us, hl => by
    refine sound_argAs (sound_arg fun u => ?_)
    have := if_sound (fs := fs) (total := total) n (u :: us) (by rw [List.length_cons]; omega)
    rw [List.reverse_cons, ifIos, List.flatMap_append] at this
    rw [List.append_assoc]
    exact this

/-! ### Tables -/

theorem str_ios {n : Nat} {t : Tab.Ty} (j : Nat) (v : Tab.Ty) (h : (List.replicate n Tab.Ty.str)[j]? = some v) :
    (List.replicate n (t, Tab.Ty.str))[0 + j]? = some (t, v) := by
  rw [Nat.zero_add]
  rw [List.getElem?_replicate] at h ⊢
  split at h
  · rename_i hc
    cases h
    rw [if_pos hc]
  · cases h

theorem withNames_plays {n : Nat} {f : Tab.Rows N → List String → Tab.Res (Tab.Rows N)} {x : Tab.Value N} (hx : Fit sh .tab x)
    (hf : ∀ t ns t', Good sh t → f t ns = .ok t' → Good sh t') :
    Plays (Fit sh) .tab (List.replicate n (.nil, .str)) (withNames n f x) :=
  plays_tab hx fun t ht => plays_askAll (i := .nil) fit_nil (List.replicate n .str) (by rw [List.length_replicate]) str_ios fun vs h1 h2 =>
    plays_strs (all_fit h1 h2) fun ns => plays_res fun t' h => fit_tab (hf t ns t' ht h)

theorem withHeader_ok {h : Tab.Entry N} {t : Tab.Rows N} {vs : List (Tab.Entry N)} (hh : okE sh h = true) (hv : ∀ e ∈ vs, okE sh e = true) :
    ∀ e ∈ withHeader h t vs, okE sh e = true := by
  unfold withHeader
  split
  · intro e he; cases he
  · intro e he
    rcases List.mem_cons.1 he with rfl | he
    · exact hh
    · exact hv e he

theorem appendCols_plays {t : Tab.Rows N} (ht : Good sh t) {ns : List String} : ∀ (n k : Nat) {cs : List (List (Tab.Entry N))},
    (∀ j < n, ∃ o, ios[k + j]? = some (.tabRow, o)) → Good sh cs → Plays (Fit sh) .tab ios (appendTalk.appendCols t ns n k cs)
  | 0, _, cs, _, hc => fit_tab (addCols_all ok_nil ht fun c h => hc c (List.mem_reverse.1 h))
  | n + 1, k, cs, hk, hc => by
    obtain ⟨o, ho⟩ := hk 0 (by omega)
    refine plays_askEach ho (rowsOf_fit ht) fun vs _ hvs => ?_
    refine appendCols_plays ht n (k + 1) (fun j hj => ?_) (All.cons (withHeader_ok (ok_str _) fun e he => ?_) hc)
    · rw [show k + 1 + j = k + (j + 1) by omega]; exact hk (j + 1) (by omega)
    · obtain ⟨v, hv, rfl⟩ := List.mem_map.1 he
      exact fit_entry (hvs v hv)

theorem map_at {us : List Tab.Ty} {t : Tab.Ty} {j : Nat} (h : j < us.length) : ∃ o, (us.map fun u => (t, u))[0 + j]? = some (t, o) := by
  rw [Nat.zero_add, List.getElem?_map, List.getElem?_eq_getElem h]
  exact ⟨_, rfl⟩

theorem map_at' {us : List Tab.Ty} {t : Tab.Ty} (j : Nat) (v : Tab.Ty) (h : us[j]? = some v) : (us.map fun u => (t, u))[0 + j]? = some (t, v) := by
  rw [Nat.zero_add, List.getElem?_map, h]
  rfl

theorem append_sound {fs : List String} {n : Nat} : (appendTalk (N := N) fs n t0).Sound (Fit sh) t0 [] := by
  refine sound_tab fun e => ?_
  subst e
  split
  · trivial
  · refine sound_args n fun us hus => sound_fin fun x hx => plays_tab hx fun t ht => ?_
    rw [List.nil_append]
    exact appendCols_plays ht n 0 (fun j hj => map_at (by omega)) All.nil

theorem appendRow_sound {fs : List String} {n : Nat} : (appendRowTalk (N := N) fs n t0).Sound (Fit sh) t0 [] := by
  refine sound_tab fun e => ?_
  subst e
  refine sound_args n fun us hus => sound_fin fun x hx => ?_
  rw [List.nil_append]
  refine plays_askAll hx us hus map_at' fun vs _ hok => plays_tab hx fun t ht => plays_res fun t' h => fit_tab (appendRow_all ok_nil ok_str ht (fun v hv => ?_) h)
  obtain ⟨w, hw, e⟩ := List.mem_map.1 hv
  cases e
  exact ok_entry (hok v hw)

theorem dedup_sound {W : World N} {fs : List String} {n : Nat} : (dedupTalk W fs n t0).Sound (Fit sh) t0 [] := by
  refine sound_tab fun e => ?_
  subst e
  have key : ∀ {x : Tab.Value N}, Fit sh .tab x → Plays (Fit sh) .tab (List.replicate n (.nil, .str)) (withNames n (fun t ns => Tab.dedupTable W.cellEq t (names ns)) x) :=
    fun hx => withNames_plays hx fun t ns t' ht h => dedupTable_all ht h
  split
  · rename_i hn
    subst hn
    exact sound_fin fun x hx => key hx
  · exact sound_colNames (sound_fin fun x hx => key hx)

theorem filterStr_plays {x : Tab.Value N} (hx : Fit sh .str x) : Plays (Fit sh) .str [(.str, .bool)] (filterStrAct x) :=
  plays_str hx fun s => plays_askEach rfl (fun x hx => by
    obtain ⟨c, _, rfl⟩ := List.mem_map.1 hx
    exact fit_str _) fun vs _ hvs => plays_bools hvs fun bs => fit_str _

theorem cellsOf_fit {ty : Tab.Ty} {t : Tab.Rows N} {c : Nat} (ht : Good sh t) : ∀ {is : List Nat} {cs : List (Option (Tab.Value N))},
    cellsOf ty t c is = .ok cs → ∀ v, some v ∈ cs → Fit sh ty v
  | [], cs, h, v, hv => by cases h; cases hv
  | i :: is, cs, h, v, hv => by
    obtain ⟨e, h1, h⟩ := res_bind h
    obtain ⟨ds, h2, rfl⟩ := res_map h
    rcases List.mem_cons.1 hv with e' | hv
    · exact fit_cnv (entryAt_all ht h1) (okOf_some e'.symm)
    · exact cellsOf_fit ht h2 v hv

theorem askSome_plays {k : Nat} {i : Tab.Ty} (hk : ios[k]? = some (i, .bool)) : ∀ {xs : List (Option (Tab.Value N))} {next : List Bool → Act (Tab.Value N)},
    (∀ v, some v ∈ xs → Fit sh i v) → (∀ bs, Plays (Fit sh) u ios (next bs)) → Plays (Fit sh) u ios (askSome k xs next)
  | [], next, _, h => h []
  | none :: xs, next, hx, h => by
    rw [askSome]
    exact askSome_plays hk (fun v hv => hx v (List.mem_cons_of_mem _ hv)) fun bs => h _
  | some x :: xs, next, hx, h => plays_ask hk (hx x (.head _)) fun v hv => plays_bool hv fun b =>
      askSome_plays hk (fun v hv => hx v (List.mem_cons_of_mem _ hv)) fun bs => h _

theorem filterCols_plays : ∀ (n : Nat) {t : Tab.Rows N}, Good sh t → Plays (Fit sh) .tab [(.str, .bool)] (filterColsAct n t)
  | 0, _, ht => fit_tab ht
  | n + 1, t, ht => plays_ask rfl (fit_str _) fun v hv => plays_bool hv fun b => filterCols_plays n (by
      split
      · exact ht
      · exact removeCol_all ht)

theorem filter_sound {W : World N} {op n : Nat} : (filterTalk W op n t0).Sound (Fit sh) t0 [] := by
  refine sound_tab fun e => ?_
  subst e
  split
  · exact sound_argAs (sound_fin fun x hx => plays_tab hx fun t ht => filterCols_plays _ ht)
  · split
    · exact sound_argAs (sound_fin fun x hx => plays_tab hx fun t ht => plays_askEach rfl (rowsOf_fit ht) fun vs _ hvs => plays_bools hvs fun bs =>
        fit_tab (retainKeep_all ht))
    · refine sound_argAs ?_
      split
      · trivial
      · intro i o _ ho
        rw [ho _ rfl]
        refine sound_fin fun x hx => plays_tab hx fun t ht => plays_ask rfl fit_nil fun v hv => plays_str hv fun name => ?_
        split
        · exact fit_tab ht
        · exact plays_res fun col _ => plays_res fun cs hcs => askSome_plays rfl (cellsOf_fit ht hcs) fun bs => fit_tab (retainKeep_all ht)

theorem plays_mono {x : Tab.Value N} {t : Tab.Rows N} (h : asTab x = some t) : x = .tab t := by
  cases x <;> simp_all [asTab]

theorem grp_sound {W : World N} {fs : List String} {n : Nat} : (grpTalk W fs n t0).Sound (Fit sh) t0 [] := by
  refine sound_tab fun e => ?_
  subst e
  refine sound_colNames (sound_fin fun x hx => plays_tab hx fun t ht => ?_)
  split
  · trivial
  · refine withNames_plays hx fun t ns t' ht h => ?_
    unfold Tab.grp at h
    split at h
    · cases h
    · rename_i hd d
      obtain ⟨cs, _, rfl⟩ := res_map h
      refine buildGroups_all ok_nil ok_str fun x hx => ⟨ok_str _, ?_⟩
      have := groups_all (P := fun e => okE sh e = true) (R := fun _ => True) ok_nil (ht hd (.head _)) (fun x hx => ?_) (fun _ h => by cases h) x hx
      · exact okRs_iff.2 this.2
      · obtain ⟨r, hr, rfl⟩ := List.mem_map.1 hx
        exact ⟨trivial, ht r (List.mem_cons_of_mem _ hr)⟩

theorem grpBy_sound {W : World N} {fs : List String} : (grpByTalk W fs t0).Sound (Fit sh) t0 [] := by
  refine sound_tab fun e => ?_
  subst e
  refine sound_arg fun u => ?_
  split
  · refine sound_fin fun x hx => plays_tab hx fun t ht => plays_askEach rfl (rowsOf_fit ht) fun vs _ hvs => fit_tab ?_
    cases t with
    | nil => exact buildGroups_all ok_nil ok_str fun x hx => by cases hx
    | cons hd d =>
      refine buildGroups_all ok_nil ok_str fun x hx => ?_
      have := groups_all (P := fun e => okE sh e = true) (R := fun v => okV sh v = true) ok_nil (ht hd (.head _)) (fun y hy => ?_) (fun _ h => by cases h) x hx
      · exact ⟨ok_entry this.1, okRs_iff.2 this.2⟩
      · obtain ⟨y1, y2⟩ := y
        have := List.of_mem_zip hy
        exact ⟨(hvs _ this.1).2, ht _ (List.mem_cons_of_mem _ this.2)⟩
  · trivial

theorem sortBy_sound {W : World N} {op : Nat} {fs : List String} : (sortByTalk W op fs t0).Sound (Fit sh) t0 [] := by
  refine sound_tab fun e => ?_
  subst e
  refine sound_arg fun u => ?_
  split
  · exact sound_fin fun x hx => plays_tab hx fun t ht => plays_askEach rfl (rowsOf_fit ht) fun vs _ hvs => plays_res fun l _ =>
      plays_res fun t' h => fit_tab (reorder_all ht h)
  · trivial

theorem pick_sound {fs : List String} {n : Nat} : (pickTalk (N := N) fs n).Sound (Fit sh) .tab [] :=
  sound_colNames (sound_fin fun x hx => withNames_plays hx fun t ns t' ht h => pick_all ok_nil ok_str ht h)

theorem renNames_plays : ∀ (is : List Nat) (k : Nat) {t : Tab.Rows N}, Good sh t → (∀ j < is.length, ios[k + 2 * j]? = some (.nil, .str)) →
    Plays (Fit sh) .tab ios (renNames is k t)
  | [], _, _, ht, _ => fit_tab ht
  | i :: is, k, t, ht, hk => by
    rw [renNames]
    split
    · refine plays_ask (hk 0 (by simp)) fit_nil fun v hv => plays_str hv fun s => renNames_plays is (k + 2) (setHeader_all ok_str ht) fun j hj => ?_
      rw [show k + 2 + 2 * j = k + 2 * (j + 1) by omega]
      exact hk (j + 1) (by rw [List.length_cons]; omega)
    · trivial

theorem renRefs_plays {W : World N} {t : Tab.Rows N} : ∀ (ms : List Bool) (k : Nat) {next : List Nat → Act (Tab.Value N)},
    (∀ (j : Nat) m, ms[j]? = some m → ios[k + 2 * j]? = some (.nil, if m then .num else .str)) → (∀ is, is.length = ms.length → Plays (Fit sh) u ios (next is)) →
    Plays (Fit sh) u ios (renRefs W t ms k next)
  | [], _, next, _, h => h [] rfl
  | m :: ms, k, next, hk, h => by
    refine plays_ask (hk 0 m rfl) fit_nil fun v hv => plays_got (P := fun _ => True) ?_ fun i _ => renRefs_plays ms (k + 2) (fun j m' hj => ?_) fun is his => h (i :: is) (by
      rw [List.length_cons, List.length_cons, his])
    · cases m with
      | true => exact nat_is hv
      | false => exact is_bind (is_must (fit_str' hv)) fun s _ => by cases Tab.okOf (Tab.colIdx t s) <;> trivial
    · rw [show k + 2 + 2 * j = k + 2 * (j + 1) by omega]
      exact hk (j + 1) m' hj

/-- What a column is referred to by. -/
abbrev refTy (m : Bool) : Tab.Ty := if m then .num else .str

/-- The arguments of `ren` so far. -/
def renIos (os : List Tab.Ty) : List (Tab.Ty × Tab.Ty) := os.flatMap fun o => [(.nil, o), (.nil, .str)]

theorem renIos_at : ∀ (os : List Tab.Ty) (j : Nat), j < os.length →
    (∀ o, os[j]? = some o → (renIos os)[0 + 2 * j]? = some (.nil, o)) ∧ (renIos os)[1 + 2 * j]? = some (.nil, .str)
  | [], j, h => by simp at h
  | o :: os, 0, _ => ⟨fun o' h => by cases h; rfl, rfl⟩
  | o :: os, j + 1, h => by
    rw [List.getElem?_cons_succ]
    have := renIos_at os j (by simpa using h)
    rw [show 0 + 2 * (j + 1) = (0 + 2 * j) + 1 + 1 by omega, show 1 + 2 * (j + 1) = (1 + 2 * j) + 1 + 1 by omega]
    exact this

theorem ren_sound {W : World N} {fs : List String} : ∀ (n : Nat) (ms : List Bool), 
    (renTalk W fs n ms).Sound (Fit sh) .tab (renIos (ms.reverse.map refTy))
  | 0, ms => sound_fin fun x hx => plays_tab hx fun t ht =>
      renRefs_plays ms.reverse 0 (fun j m hj => (renIos_at _ j (by rw [List.length_map]; exact (List.getElem?_eq_some_iff.1 hj).1)).1 _ (by
        rw [List.getElem?_map, hj]; rfl)) fun is his =>
        renNames_plays is 1 ht fun j hj => (renIos_at _ j (by rw [List.length_map, ← his]; exact hj)).2
  | n + 1, ms => by
    intro i o hi ho
    have e := hi _ rfl
    subst e
    refine sound_argAs ?_
    have := ren_sound (W := W) (fs := fs) n (decide (o = .num) :: ms)
    rw [List.reverse_cons, List.map_append, renIos, List.flatMap_append] at this
    rw [List.append_assoc]
    have e : refTy (decide (o = .num)) = o := by
      by_cases hc : o = .num
      · rw [hc]; rfl
      · have := ho _ rfl
        rw [if_neg (by simpa using hc)] at this
        rw [this]; rfl
    rw [List.map_singleton, e] at this
    exact this

theorem renWith_sound {W : World N} {op : Nat} : (renWithTalk W op t0).Sound (Fit sh) t0 [] := by
  refine sound_tab fun e => ?_
  subst e
  refine sound_argAs ?_
  split
  · trivial
  · intro i o _ ho
    rw [ho _ rfl]
    refine sound_fin fun x hx => plays_ask rfl fit_nil fun v hv => plays_nat hv fun k => plays_tab hx fun t ht => ?_
    cases t with
    | nil => trivial
    | cons hd d =>
      refine plays_opt fun r hr => plays_res fun xs hxs => plays_askEach rfl (fun y hy => ?_) fun vs _ hvs => plays_strs hvs fun ns => fit_tab ?_
      · obtain ⟨e, he, h⟩ := List.mem_map.1 (seq_mem hxs y hy)
        exact fit_cnv (ht r (List.mem_of_getElem? hr) e he) (liftErr_ok h)
      · refine All.cons (fun e he => ?_) fun r hr => ht r (List.mem_cons_of_mem _ hr)
        rcases List.mem_append.1 he with h | h
        · rw [List.zipWith_eq_zipWith_take_min] at h
          obtain ⟨a, s, _, rfl⟩ : ∃ (a : Tab.Entry N) (s : String), True ∧ e = .obj (.str s) := by
            clear hxs
            rw [← List.map_uncurry_zip_eq_zipWith] at h
            obtain ⟨p, _, e⟩ := List.mem_map.1 h
            exact ⟨p.1, p.2, trivial, e.symm⟩
          exact ok_str _
        · exact ht hd (.head _) e (List.mem_of_mem_drop h)

/-! ### Pipelines -/

theorem rowGet_fit {t : Tab.Rows N} {i : Nat} {name : String} {v : Tab.Value N} (ht : Good sh t) (h : rowGet t i name u = .ok v) : Fit sh u v := by
  obtain ⟨c, _, h⟩ := res_bind h
  obtain ⟨e, h1, h⟩ := res_bind h
  exact fit_cnv (entryAt_all ht h1) (liftErr_ok h)

theorem getRow_sound {W : World N} {op n : Nat} : (getRowTalk W op n t0).Sound (Fit sh) t0 [] := by
  unfold getRowTalk
  have key : ∀ {u x}, Fit sh .tabRow x → Plays (Fit sh) u ([] ++ [(Tab.Ty.nil, Tab.Ty.str)]) (getRowTalk.act (N := N) u x) := fun hx =>
    plays_row hx fun r hr => plays_ask rfl fit_nil fun v hv => plays_str hv fun name => plays_res fun v hv => rowGet_fit hr hv
  split
  · rename_i e
    subst e
    refine sound_argAs ?_
    split
    · refine sound_arg fun u => sound_fin fun x hx => plays_row hx fun r hr => plays_ask rfl fit_nil fun v hv => plays_str hv fun name => plays_res fun e he => ?_
      split
      · rename_i hc
        obtain ⟨c, _, h⟩ := res_bind he
        exact ⟨hc, ok_value (entryAt_all hr h)⟩
      · exact plays_ask rfl fit_nil fun v hv => hv
    · split
      · trivial
      · exact sound_fin fun x hx => key hx
      · exact fun u x hx => key hx
  · trivial

theorem field_fit {W : World N} {f : Option String} {t : Tab.Ty} {i : Nat} {x y : Tab.Value N} (h : accessor W f t = some (i, u)) (hx : Fit W.shape t x)
    (hy : fieldOf i x = some y) : Fit W.shape u y := by
  unfold accessor at h
  split at h
  · rename_i name
    split at h
    · cases h
    · rename_i fs hs
      obtain ⟨s, _, h⟩ := Option.bind_eq_some_iff.1 h
      obtain ⟨j, _, h⟩ := Option.bind_eq_some_iff.1 h
      obtain ⟨p, h1, h2⟩ := Option.map_eq_some_iff.1 h
      cases h2
      obtain ⟨k, vs, rfl, hok, hf⟩ := fit_def hx
      rw [hs] at hf
      injection hf with hf
      replace hy : vs[i]? = some y := hy
      refine ⟨?_, hok y (List.mem_of_getElem? hy)⟩
      have e : (fs.map (·.2))[i]? = some p.2 := by rw [List.getElem?_map, h1]; rfl
      rw [hf, List.getElem?_map, hy] at e
      injection e
  · cases h

theorem field_some {W : World N} {f : Option String} {t : Tab.Ty} {i : Nat} {x : Tab.Value N} (h : accessor W f t = some (i, u)) (hx : Fit W.shape t x) :
    ∃ y, fieldOf i x = some y := by
  unfold accessor at h
  split at h
  · rename_i name
    split at h
    · cases h
    · rename_i fs hs
      obtain ⟨s, _, h⟩ := Option.bind_eq_some_iff.1 h
      obtain ⟨j, _, h⟩ := Option.bind_eq_some_iff.1 h
      obtain ⟨p, h1, h2⟩ := Option.map_eq_some_iff.1 h
      cases h2
      obtain ⟨k, vs, rfl, hok, hf⟩ := fit_def hx
      rw [hs] at hf
      injection hf with hf
      have hl : i < vs.length := by
        have := congrArg List.length hf
        rw [List.length_map, List.length_map] at this
        rw [← this]
        exact (List.getElem?_eq_some_iff.1 h1).1
      exact ⟨vs[i], List.getElem?_eq_getElem hl⟩
  · cases h

theorem get_sound {W : World N} {op : Nat} : (getTalk W op t0).Sound (Fit W.shape) t0 [] := by
  refine sound_arg fun o => ?_
  split
  · trivial
  · rename_i h
    exact sound_fin fun x hx => plays_cast (field_some h hx) fun y hy => field_fit h hx hy

theorem dot_sound {W : World N} {op : Nat} : (dotTalk W op t0).Sound (Fit W.shape) t0 [] := by
  refine sound_arg fun t => ?_
  split
  · rename_i e
    subst e
    refine sound_argAs ?_
    split
    · exact fun u x hx => plays_ask rfl hx fun r hr => plays_row hr fun r hr => plays_ask rfl fit_nil fun v hv => plays_str hv fun name =>
        plays_res fun v hv => rowGet_fit hr hv
    · trivial
  · refine sound_arg fun o => ?_
    split
    · trivial
    · rename_i h
      exact sound_fin fun x hx => plays_ask rfl hx fun r hr => plays_cast (field_some h hr) fun y hy => field_fit h hr hy

theorem nth_sound {W : World N} {fs : List String} : (nthTalk W fs t0).Sound (Fit sh) t0 [] := by
  unfold nthTalk
  split
  · rename_i e
    subst e
    refine sound_argAs (sound_arg fun u => sound_fin fun x hx => plays_ask rfl hx fun v hv => plays_nat hv fun n => plays_tab hx fun t ht => plays_res fun k _ => ?_)
    split
    · trivial
    · exact plays_ask rfl (fit_row ht k) fun v hv => hv
  · trivial

theorem num_ios {n : Nat} {t : Tab.Ty} (j : Nat) (v : Tab.Ty) (h : (List.replicate n Tab.Ty.num)[j]? = some v) :
    (List.replicate n (t, Tab.Ty.num))[0 + j]? = some (t, v) := by
  rw [Nat.zero_add]
  rw [List.getElem?_replicate] at h ⊢
  split at h
  · rename_i hc
    cases h
    rw [if_pos hc]
  · cases h

theorem randNumber_plays {W : World N} {l : List N} (h : l.length = 2) : Plays (Fit sh) .num ios (randTalk.number W l) := by
  match l, h with
  | [f, t], _ => exact plays_opt fun n _ => fit_num n

theorem randNumbers_plays {W : World N} {l : List N} (h : l.length = 3) : Plays (Fit sh) .tab ios (randTalk.numbers W l) := by
  match l, h with
  | [f, t, l], _ =>
    refine plays_opt fun l _ => plays_opt fun ns _ => fit_tab (addCol_all ok_nil All.nil fun e he => ?_)
    rcases List.mem_cons.1 he with rfl | he
    · exact ok_str _
    · obtain ⟨n, _, rfl⟩ := List.mem_map.1 he
      rfl

theorem plays_nums {vs : List (Tab.Value N)} {n : Nat} {next : List N → Act (Tab.Value N)} (h1 : vs.map Tab.Value.ty = List.replicate n .num)
    (h2 : ∀ v ∈ vs, okV sh v = true) (h : ∀ l, l.length = n → Plays (Fit sh) u ios (next l)) : Plays (Fit sh) u ios (cast (nums vs) next) := by
  obtain ⟨ns, h3, h4⟩ := nums_some (all_fit h1 h2)
  rw [h3]
  refine h ns ?_
  rw [h4, ← List.length_map (f := Tab.Value.ty), h1, List.length_replicate]

theorem rand_sound {W : World N} {fs : List String} {n : Nat} : (randTalk W fs t0 n).Sound (Fit sh) t0 [] := by
  unfold randTalk
  split
  · exact sound_argsAs 1 (sound_fin fun x hx => plays_askAll hx [.num] rfl (num_ios (n := 1)) fun vs h1 h2 =>
      plays_nums (n := 1) h1 h2 fun l hl => randNumber_plays (by rw [List.length_cons, hl]))
  · exact sound_argsAs 2 (sound_fin fun x hx => plays_askAll hx [.num, .num] rfl (num_ios (n := 2)) fun vs h1 h2 =>
      plays_nums (n := 2) h1 h2 fun l hl => randNumber_plays hl)
  · exact sound_argsAs 3 (sound_fin fun x hx => plays_askAll hx [.num, .num, .num] rfl (num_ios (n := 3)) fun vs h1 h2 =>
      plays_nums (n := 3) h1 h2 fun l hl => randNumbers_plays hl)
  · exact sound_fin fun x hx => randNumber_plays rfl

theorem range_good {f : Nat → N} {a b : Nat} : Good sh (Tab.range f a b) := by
  refine All.cons (fun e he => by rw [List.mem_singleton.1 he]; exact ok_str _) fun r hr => ?_
  obtain ⟨i, _, rfl⟩ := List.mem_map.1 hr
  intro e he
  rw [List.mem_singleton.1 he]
  rfl

theorem range_sound {W : World N} {fs : List String} {n : Nat} : (rangeTalk W fs n t0).Sound (Fit sh) t0 [] := by
  refine sound_argAs ?_
  split
  · rename_i e
    obtain ⟨_, rfl⟩ := e
    exact sound_fin fun x hx => plays_ask rfl hx fun v hv => plays_nat hv fun a => plays_nat hx fun b => fit_tab range_good
  · exact sound_argAs (sound_fin fun x hx => plays_ask rfl hx fun v hv => plays_nat hv fun a => plays_ask rfl hx fun w hw => plays_nat hw fun b => fit_tab range_good)

theorem table_sound {fs : List String} {n : Nat} : (tableTalk (N := N) fs n t0).Sound (Fit sh) t0 [] :=
  sound_argsAs n (sound_fin fun x hx => plays_askAll hx (List.replicate n .str) (by rw [List.length_replicate]) str_ios fun vs h1 h2 => plays_strs (all_fit h1 h2) fun ns =>
    plays_res fun t h => fit_tab (tableCtor_all ok_nil ok_str h))

theorem toStrNum_sound {W : World N} {op n : Nat} : (toStrNumTalk W op n t0).Sound (Fit sh) t0 [] := by
  unfold toStrNumTalk
  split
  · rename_i e
    subst e
    show Talk.Sound (Fit sh) .num [] (if n = 0 then _ else _)
    split
    · exact sound_fin fun x hx => plays_num hx fun v => fit_str _
    · refine sound_argAs ?_
      split
      · trivial
      · split
        · exact sound_fin fun x hx => plays_num hx fun v => fit_str _
        · trivial
  · trivial

theorem tuple_sound {W : World N} (hW : W.Ok) {fs : List String} {n : Nat} : (tupleTalk W fs n t0).Sound (Fit W.shape) t0 [] := by
  unfold tupleTalk
  split
  · trivial
  · rename_i hn
    refine sound_args n fun us hus => ?_
    show Talk.Sound (Fit W.shape) t0 _ (if fs = [] then _ else _)
    split
    · refine fun x hx => plays_askAll hx us hus map_at' fun vs h1 h2 => fit_ogma h2 ?_
      have := hW.tuples vs (by rw [← List.length_map (f := Tab.Value.ty), h1, hus]; omega) h2
      rw [h1] at this
      rw [h1]
      exact this
    · trivial

theorem ctor_sound {W : World N} {fs : List String} {ty : String} {k : Nat} : (ctorTalk W fs ty k t0).Sound (Fit W.shape) t0 [] := by
  unfold ctorTalk
  split
  · trivial
  · rename_i us hus
    exact sound_argsOf us (sound_fin fun x hx => plays_askAll hx us rfl map_at' fun vs h1 h2 => fit_ogma h2 (by rw [h1]; exact hus))

/-! ### Input and output -/

theorem ls_sound {W : World N} (hW : W.Ok) {fs : List String} {n : Nat} : (lsTalk W fs n).Sound (Fit W.shape) t0 [] := by
  unfold lsTalk
  show Talk.Sound (Fit W.shape) t0 [] (if n = 0 then _ else _)
  split
  · exact sound_fin fun x _ => plays_opt fun t ht => fit_tab (okRs_iff.1 (hW.files _ _ ht))
  · exact sound_argAs (sound_fin fun x _ => plays_ask rfl fit_nil fun v hv => plays_str hv fun p => plays_opt fun t ht => fit_tab (okRs_iff.1 (hW.files _ _ ht)))

theorem open_sound {W : World N} (hW : W.Ok) {op : Nat} : (openTalk W op t0).Sound (Fit W.shape) t0 [] := by
  refine sound_argAs ?_
  have key : ∀ {x}, Fit W.shape t0 x → Plays (Fit W.shape) .tab ([] ++ [(t0, Tab.Ty.str)]) (openTalk.tabAct W x) := fun hx =>
    plays_ask rfl hx fun v hv => plays_str hv fun p => plays_opt fun t ht => fit_tab (okRs_iff.1 (hW.openTab _ _ ht))
  split
  · exact sound_fin fun x hx => plays_ask rfl hx fun v hv => plays_str hv fun p => plays_opt fun s _ => fit_str s
  · exact sound_fin fun x hx => key hx
  · exact sound_fin fun x hx => key hx
  · trivial

theorem save_sound {W : World N} {fs : List String} : (saveTalk W fs t0).Sound (Fit sh) t0 [] := by
  unfold saveTalk
  show Talk.Sound (Fit sh) t0 [] (if t0 = .tabRow then _ else _)
  split
  · trivial
  · refine sound_argAs (sound_fin fun x hx => plays_ask rfl hx fun v hv => plays_str hv fun p => ?_)
    split
    · exact hx
    · trivial

theorem lsHeader_fit {x : Tab.Value N} (hx : Fit sh .tab x) : (lsHeader x).Is (Fit sh .tab) := by
  cases x <;> first | (cases hx.1; done) | skip
  rename_i t
  cases t with
  | nil => trivial
  | cons hd d =>
    have hg : Good sh (hd :: d) := fit_asTab hx rfl
    refine fit_tab fun r hr => ?_
    obtain ⟨e, he, rfl⟩ := List.mem_map.1 hr
    intro e' he'
    rw [List.mem_singleton.1 he']
    rcases List.mem_cons.1 he with rfl | he
    · exact ok_str _
    · exact hg hd (.head _) e he

/-! ### All of them -/

/-- The commands that introduce variables. -/
def Cmd.hasVars : Cmd → Bool
  | .fold => true
  | .foldWhile => true
  | .map => true
  | .let_ => true
  | _ => false

theorem talk_sound {W : World N} (hW : W.Ok) {op n : Nat} {c : Cmd} (hc : c.hasVars = false) (hp : c = .pick → t0 = .tab) : (talk W op n t0 c).Sound (Fit W.shape) t0 [] := by
  cases c with
  | num o => exact variadic_sound numAgg_fit
  | addStr => exact variadic_sound strAgg_fit
  | addTab => exact variadic_sound tabAgg_fit
  | ceil => exact unary_sound fun x hx => is_one (fit_num' hx) fun _ _ => fit_num _
  | floor => exact unary_sound fun x hx => is_one (fit_num' hx) fun _ _ => fit_num _
  | isFinite => exact unary_sound fun x hx => is_one (fit_num' hx) fun _ _ => fit_bool _
  | root => exact binary_sound fun x y hx hy => is_two (fit_num' hx) (fit_num' hy) fun _ _ => fit_num _
  | cmpNil => exact ignoring_sound (ord_fit hW.ord _)
  | cmpBool => exact binary_sound fun x y hx hy => is_two (fit_bool' hx) (fit_bool' hy) fun _ _ => ord_fit hW.ord _
  | cmpNum => exact binary_sound fun x y hx hy => is_two (fit_num' hx) (fit_num' hy) fun _ _ => ord_fit hW.ord _
  | cmpStr => exact binary_sound fun x y hx hy => is_two (fit_str' hx) (fit_str' hy) fun _ _ => ord_fit hW.ord _
  | cmpOrd => exact binary_sound fun x y hx hy => is_two (fit_variant hx) (fit_variant hy) fun _ _ => ord_fit hW.ord _
  | cmp =>
    refine injected_sound fun name f x y z hf h => ?_
    obtain ⟨g, _, rfl⟩ := Option.map_eq_some_iff.1 hf
    obtain ⟨a, _, rfl⟩ := Option.map_eq_some_iff.1 h
    exact ord_fit hW.ord _
  | eqNil => exact ignoring_sound (fit_bool _)
  | eqBool => exact binary_sound fun x y hx hy => is_two (fit_bool' hx) (fit_bool' hy) fun _ _ => fit_bool _
  | eqNum => exact binary_sound fun x y hx hy => is_two (fit_num' hx) (fit_num' hy) fun _ _ => fit_bool _
  | eqStr => exact binary_sound fun x y hx hy => is_two (fit_str' hx) (fit_str' hy) fun _ _ => fit_bool _
  | eqOrd => exact binary_sound fun x y hx hy => is_two (fit_variant hx) (fit_variant hy) fun _ _ => fit_bool _
  | eq =>
    refine injected_sound fun name f x y z hf h => ?_
    obtain ⟨g, _, rfl⟩ := Option.map_eq_some_iff.1 hf
    obtain ⟨a, _, rfl⟩ := Option.map_eq_some_iff.1 h
    exact fit_bool _
  | benchmark => exact sound_arg fun o => sound_fin fun x hx => plays_ask rfl hx fun _ _ => fit_tab (okRs_iff.1 (hW.duration _))
  | typify => exact sound_arg fun o => sound_fin fun x hx => fit_str _
  | lsTab => exact unary_sound fun x hx => lsHeader_fit hx
  | ls => exact ls_sound hW
  | open_ => exact open_sound hW
  | save => exact save_sound
  | and_ => exact logic_sound
  | or_ => exact logic_sound
  | not_ => exact unary_sound fun x hx => is_one (fit_bool' hx) fun _ _ => fit_bool _
  | if_ =>
    show Talk.Sound (Fit W.shape) t0 [] (if n % 2 = 0 then _ else _)
    split
    · trivial
    · exact if_sound (n / 2) [] (by simp)
  | append => exact append_sound
  | appendRow => exact appendRow_sound
  | dedupStr => exact unary_sound fun x hx => is_one (fit_str' hx) fun _ _ => fit_str _
  | dedupTab => exact dedup_sound
  | filterStr =>
    show Talk.Sound (Fit W.shape) t0 [] (if t0 = .str then _ else _)
    split
    · rename_i e
      subst e
      exact sound_argAs (sound_fin fun x hx => filterStr_plays hx)
    · trivial
  | filterTab => exact filter_sound
  | fold => cases hc
  | foldWhile => cases hc
  | grp => exact grp_sound
  | grpBy => exact grpBy_sound
  | map => cases hc
  | pick => rw [hp rfl]; exact pick_sound
  | ren => exact sound_tab fun e => by subst e; exact ren_sound (n / 2) []
  | renWith => exact renWith_sound
  | revStr => exact unary_sound fun x hx => is_one (fit_str' hx) fun _ _ => fit_str _
  | revTab => exact unary_sound fun x hx => is_one (fit_tab' hx) fun _ h => fit_tab (rev_all (fit_asTab hx h))
  | skipStr => exact binary_sound fun x y hx hy => is_bind (nat_is hy) fun _ _ => is_one (fit_str' hx) fun _ _ => fit_str _
  | skipTab => exact binary_sound fun x y hx hy => is_bind (nat_is hy) fun _ _ => is_bind (is_must (fit_tab' hx)) fun _ h1 => is_map (is_may _) fun _ h2 => fit_tab (skip_all ok_nil (fit_asTab hx h1) (valOf_some h2))
  | sort => exact sound_tab fun e => by subst e; exact sound_colNames (sound_fin fun x hx => withNames_plays hx fun t ns t' ht h => sort_all ht h)
  | sortBy => exact sortBy_sound
  | takeStr => exact binary_sound fun x y hx hy => is_bind (nat_is hy) fun _ _ => is_one (fit_str' hx) fun _ _ => fit_str _
  | takeTab => exact binary_sound fun x y hx hy => is_bind (nat_is hy) fun _ _ => is_one (fit_tab' hx) fun _ h1 => fit_tab (take_all ok_nil (fit_asTab hx h1))
  | getRow => exact getRow_sound
  | get => exact get_sound
  | dot => exact dot_sound
  | input => exact sound_arg fun u => sound_fin fun x hx => plays_ask rfl hx fun v hv => hv
  | lenStr => exact unary_sound fun x hx => is_one (fit_str' hx) fun _ _ => fit_num _
  | lenTab => exact unary_sound fun x hx => is_one (fit_tab' hx) fun _ _ => fit_num _
  | let_ => cases hc
  | nthStr => exact binary_sound fun x y hx hy => is_bind (nat_is hy) fun _ _ => is_bind (is_must (fit_str' hx)) fun _ _ => is_map (is_may _) fun _ _ => fit_str _
  | nthTab => exact nth_sound
  | rand => exact rand_sound
  | range => exact range_sound
  | table => exact table_sound
  | toStrBool => exact unary_sound fun x hx => is_one (fit_bool' hx) fun _ _ => fit_str _
  | toStrNum => exact toStrNum_sound
  | toStrStr => exact unary_sound fun x hx => hx
  | toStr => exact sound_fin fun x _ => fit_str _
  | tuple => exact tuple_sound hW
  | ctor ty k => exact ctor_sound

end Verif.Lang
