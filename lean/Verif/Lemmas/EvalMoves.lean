import Verif.Lemmas.EvalHolds
/-! What holds of variables and compiled blocks throughout compiling. -/
namespace Verif.Comp
open Verif
set_option linter.unusedSectionVars false
variable {T V : Type} [DecidableEq T]

/-- Where a variable comes from: it was given with the program, a command asked for it, or it is a parameter. -/
inductive Src (A : Ast T) (I : Builtins T) (m : Nat) (s : S T) (i : Nat) (q : Loc.Node) (name : String) (u : T) : Prop
  | seed (hq : q = []) (hi : i < m)
  | builtin (s0 : S T) (j op : Nat) (t : T) (n : Nat) (ho : op ∈ A.ops) (hov : Sane s0) (hw : Within s0 s)
      (ht : Ty.Settled (s.tg.kn op .inp) t)
      (hg : A.getImpl op t = some (.intrinsic j)) (hc : Chg.var name u n ∈ (runBuiltin A I s0 j op t).chgs) (hq : q = A.place n)
      (hn : Near A op n)
  | param (d j : Nat) (p : Blk.PTy T) (a : Nat) (hd : d ∈ A.defs) (hq : q = A.place (A.body d)) (hp : (A.params d)[j]? = some (name, p))
      (ha : (A.args (A.owner d))[j]? = some a) (ht : Ty.Settled (s.tg.kn a .out) u)

/-- The variables of the parameters of a definition. -/
structure BindOk (A : Ast T) (slots : List T) (D : List Scope.DefAt) (x : Nat × List (Nat × T)) : Prop where
  mem : x.1 ∈ A.defs
  length : x.2.length = (A.params x.1).length
  vars : ∀ (j : Nat) name p, (A.params x.1)[j]? = some (name, p) → ∃ i u, x.2[j]? = some (i, u) ∧ D[i]? = some (A.place (A.body x.1), name) ∧
    slots[i]? = some u

structure Vars (A : Ast T) (I : Builtins T) (E : Exec T V) (m : Nat) (s : S T) (D : List Scope.DefAt) (H : List (List Nat)) : Prop where
  locs : Locs A s D
  uniq : D.Pairwise fun a b => a = b → a.1 = []
  src : ∀ (i : Nat) q name u, D[i]? = some (q, name) → s.slots[i]? = some u → Src A I m s i q name u
  keys : s.binds.map (·.1) = s.callsite.map (·.1)
  binds : ∀ x ∈ s.binds, BindOk A s.slots D x
  seen : ∀ K ∈ H, ∀ d ∈ K, d ∈ s.callsite.map (·.1)
  world : World A I E s D H
  called : Called A s
  inputs : ∀ op ∈ A.ops, ∀ a ∈ A.args op, a ∉ A.lits → a ∉ A.exprs → ⟨op, a, .ii⟩ ∈ s.tg.edges ∧ ⟨op, a, .io⟩ ∈ s.tg.edges
  literals : ∀ n ∈ A.lits, A.var n = none → Ty.Settled (s.tg.kn n .out) (E.ty (E.lit n))

section
variable {A : Ast T} {I : Builtins T} {E : Exec T V} {m : Nat} {s s' : S T} {D D' : List Scope.DefAt} {H : List (List Nat)}

/-! ### Later states -/

theorem Src.later (hl : Later s s') {i : Nat} {q : Loc.Node} {name : String} {u : T} (h : Src A I m s i q name u) : Src A I m s' i q name u := by
  cases h with
  | seed hq hi => exact .seed hq hi
  | builtin s0 j op t n ho hov hw ht hg hc hq hn => exact .builtin s0 j op t n ho hov (hw.later hl) (hl.keeps _ _ _ ht) hg hc hq hn
  | param d j p a hd hq hp ha ht => exact .param d j p a hd hq hp ha (hl.keeps _ _ _ ht)

theorem BindOk.mono {slots slots' : List T} (hs : ∀ (i : Nat) u, slots[i]? = some u → slots'[i]? = some u)
    (hd : ∀ (i : Nat) x, D[i]? = some x → D'[i]? = some x) {x : Nat × List (Nat × T)} (h : BindOk A slots D x) : BindOk A slots' D' x := by
  refine ⟨h.mem, h.length, fun j name p hp => ?_⟩
  obtain ⟨i, u, h1, h2, h3⟩ := h.vars j name p hp
  exact ⟨i, u, h1, hd _ _ h2, hs _ _ h3⟩

theorem Done.mono {prior prior' : List Nat} (hl : Later s s') (hp : ∀ x ∈ prior, x ∈ prior') {e : Nat} {t u : T} (h : Done A s prior e t u) :
    Done A s' prior' e t u :=
  ⟨h.mem, hl.keeps _ _ _ h.inp, hl.keeps _ _ _ h.out, h.pipe.mono hl.steps, fun op ho => hp _ (h.prior op ho)⟩

theorem HeldOk.mono {K prior prior' : List Nat} (hl : Later s s') (hs : ∀ (i : Nat) u, s.slots[i]? = some u → s'.slots[i]? = some u)
    (hd : ∀ (i : Nat) x, D[i]? = some x → D'[i]? = some x) (hp : ∀ x ∈ prior, x ∈ prior') {op : Nat} {a : Argument T}
    (h : HeldOk A E s D K prior op a) : HeldOk A E s' D' K prior' op a := by
  refine ⟨h.node, ?_, fun slot t e => hs _ _ (h.slot slot t e)⟩
  have h1 := h.hold
  cases hh : a.hold with
  | lit n => rw [hh] at h1; exact h1
  | input => rw [hh] at h1; exact h1
  | var slot t =>
    rw [hh] at h1
    obtain ⟨e, q, name, h2, h3, h4⟩ := h1
    exact ⟨e, q, name, hd _ _ h2, h3, h4⟩
  | expr e =>
    rw [hh] at h1
    exact ⟨h1.1, h1.2.mono hl hp⟩

/-- New variables are for other blocks, and for definitions whose parameters were not in place. -/
def Apart (A : Ast T) (op : Nat) (K : List Nat) (x : Scope.DefAt) : Prop :=
  (∀ n, x.1 = A.place n → ¬ Near A op n) ∧ ∀ d ∈ A.defs, d ∈ K → x.1 ≠ A.place (A.body d)

theorem CodeOk.mono {K prior prior' : List Nat} (hl : Later s s') (hs : ∀ (i : Nat) u, s.slots[i]? = some u → s'.slots[i]? = some u)
    (hd : ∀ (i : Nat) x, D[i]? = some x → D'[i]? = some x) (hp : ∀ x ∈ prior, x ∈ prior') {op : Nat}
    (hn : ∀ (i : Nat) x, D'[i]? = some x → D[i]? = some x ∨ Apart A op K x) {t u : T} {code : Code T}
    (h : CodeOk A I E s D K prior op t u code) : CodeOk A I E s' D' K prior' op t u code := by
  cases h with
  | builtin i args vars act hargs hvars covers =>
    refine .builtin i args vars act (fun a ha => (hargs a ha).mono hl hs hd hp) (fun x hx => ?_) fun j n name h1 h2 => ?_
    · exact ⟨(hvars x hx).want, fun n slot e => hs _ _ ((hvars x hx).slot n slot e)⟩
    · rcases hn j _ h1 with h3 | h3
      · exact covers j n name h3 h2
      · exact absurd h2 (h3.1 n rfl)
  | call d params body hd' hparams sets hnone =>
    refine .call d params (body.mono hl hp) hd' (fun p h => ?_) (fun j name h1 h2 => ?_) fun j n name h1 h2 => ?_
    · obtain ⟨h1, h2, h3, h4⟩ := hparams p h
      exact ⟨h1.mono hl hs hd hp, h2, h3, hs _ _ h4⟩
    · rcases hn j _ h1 with h3 | h3
      · exact sets j name h3 h2
      · exact absurd rfl (h3.2 d hd' h2)
    · rcases hn j _ h1 with h3 | h3
      · exact hnone j n name h3 h2
      · exact h3.1 n rfl h2

theorem Src.not_first {names : List String} (hw : A.Wf names) (hpl : A.Placed) {i : Nat} {q : Loc.Node} {name : String} {u : T}
    (h : Src A I m s i q name u) (p : Loc.Node) : q ≠ .blk 0 :: p := by
  cases h with
  | seed hq hi => rw [hq]; simp
  | builtin s0 j op t n ho _ hw' ht hg hc hq hn => rw [hq]; exact hn.not_first hw hpl ho p
  | param d j p' a hd hq hp ha ht =>
    obtain ⟨k, p', hb⟩ := hpl.body d hd
    rw [hq, hb]; simp

theorem Locs.slot (h : Locs A s D) {i : Nat} {x : Scope.DefAt} (hi : D[i]? = some x) : ∃ u, s.slots[i]? = some u := by
  have h1 := (List.getElem?_eq_some_iff.1 hi).1
  rw [← h.slots] at h1
  exact ⟨s.slots[i], by simp [h1]⟩

theorem Locs.sane (h : Locs A s D) (hf : Fresh s) : Sane s := by
  refine ⟨fun l hl => ?_, hf.single⟩
  rw [h.locals] at hl
  obtain ⟨i, hi, e⟩ := List.mem_map.1 hl
  exact ⟨i, e.symm, by rw [h.slots]; exact List.mem_range.1 hi⟩

theorem append_at {α : Type} {l l' : List α} (i : Nat) (x : α) (h : l[i]? = some x) : (l ++ l')[i]? = some x := by
  rw [List.getElem?_append_left (List.getElem?_eq_some_iff.1 h).1]; exact h

theorem append_cases {α : Type} {l l' : List α} {i : Nat} {x : α} (h : (l ++ l')[i]? = some x) :
    l[i]? = some x ∨ ∃ j, i = l.length + j ∧ l'[j]? = some x := by
  by_cases hi : i < l.length
  · rw [List.getElem?_append_left hi] at h; exact .inl h
  · rw [List.getElem?_append_right (by omega)] at h; exact .inr ⟨i - l.length, by omega, h⟩

theorem prior_take {k : Nat} {op : Nat} (h : op ∈ s.prior k) : op ∈ s.codes.map (·.1) := by
  obtain ⟨x, hx, e⟩ := List.mem_map.1 h
  exact List.mem_map.2 ⟨x, List.mem_of_mem_take hx, e⟩

theorem World.ops (W : World A I E s D H) : s.codes.map (·.1) = s.ops := by
  rw [S.ops, ← W.codes]; simp

/-- A move that compiles no block, and adds these variables. -/
theorem Vars.step {names : List String} (hw : A.Wf names) (hpl : A.Placed) (h : Vars A I E m s D H) (hl : Later s s')
    {N : List (Scope.DefAt × T)} (hlocs : Locs A s' (D ++ N.map (·.1))) (hslots : s'.slots = s.slots ++ N.map (·.2))
    (hcodes : s'.codes = s.codes) (hsteps : s'.steps = s.steps) (hkeys : s'.binds.map (·.1) = s'.callsite.map (·.1))
    (hbinds : ∀ x ∈ s'.binds, x ∈ s.binds ∨ BindOk A s.slots D x) (hsrc : ∀ x ∈ N, ∀ i, Src A I m s' i x.1.1 x.1.2 x.2)
    (hnew : ∀ x ∈ N, x.1 ∉ D) (hnd : (N.map (·.1)).Nodup) (hnear : ∀ x ∈ N, ∀ op ∈ s.ops, ∀ n, x.1.1 = A.place n → ¬ Near A op n)
    (hbody : ∀ x ∈ N, ∀ K ∈ H, ∀ d ∈ A.defs, d ∈ K → x.1.1 ≠ A.place (A.body d)) : Vars A I E m s' (D ++ N.map (·.1)) H := by
  have hs : ∀ (i : Nat) u, s.slots[i]? = some u → s'.slots[i]? = some u := fun i u hi => by rw [hslots]; exact append_at i u hi
  have hd : ∀ (i : Nat) x, D[i]? = some x → (D ++ N.map (·.1))[i]? = some x := fun i x hi => append_at i x hi
  have src : ∀ (i : Nat) q name u, (D ++ N.map (·.1))[i]? = some (q, name) → s'.slots[i]? = some u → Src A I m s' i q name u := by
    intro i q name u h1 h2
    rcases append_cases h1 with h3 | ⟨j, e, h3⟩
    · obtain ⟨v, hv⟩ := h.locs.slot h3
      have := hs _ _ hv
      rw [h2] at this
      injection this with this
      subst this
      exact (h.src i q name u h3 hv).later hl
    · rw [List.getElem?_map] at h3
      obtain ⟨x, h4, h5⟩ := Option.map_eq_some_iff.1 h3
      have h6 : s'.slots[i]? = some x.2 := by
        rw [hslots, e, ← h.locs.slots, List.getElem?_append_right (by omega), Nat.add_sub_cancel_left, List.getElem?_map, h4]; rfl
      rw [h2] at h6
      injection h6 with h6
      have := hsrc x (List.mem_of_getElem? h4) i
      rw [h5, ← h6] at this
      exact this
  refine ⟨hlocs, ?_, src, hkeys, fun x hx => ?_, fun K hK d hd => ?_, ?_, h.called.later hl, fun op ho a ha h1 h2 => ?_, fun n hn hv =>
    hl.keeps _ _ _ (h.literals n hn hv)⟩
  · refine List.pairwise_append.2 ⟨h.uniq, hnd.imp fun hne e => absurd e hne, fun a ha b hb e => ?_⟩
    obtain ⟨x, hx, rfl⟩ := List.mem_map.1 hb
    rw [e] at ha
    exact absurd ha (hnew x hx)
  · exact ((hbinds x hx).elim (h.binds x) id).mono hs hd
  · obtain ⟨x, hx, e⟩ := List.mem_map.1 (h.seen K hK d hd)
    exact List.mem_map.2 ⟨x, hl.callsite x hx, e⟩
  · have W := h.world
    refine ⟨by rw [hcodes, hsteps]; exact W.codes, by rw [hsteps]; exact W.nodup, by rw [hcodes]; exact W.hist, W.mono, fun k x K hx hK => ?_,
      fun i p name he => ?_⟩
    · rw [hcodes] at hx
      refine (W.ok k x K hx hK).mono hl hs hd (fun y hy => by unfold S.prior at hy ⊢; rw [hcodes]; exact hy) fun i y hy => ?_
      rcases append_cases hy with h3 | ⟨j, e, h3⟩
      · exact .inl h3
      · rw [List.getElem?_map] at h3
        obtain ⟨z, h4, h5⟩ := Option.map_eq_some_iff.1 h3
        subst h5
        have hz := List.mem_of_getElem? h4
        refine .inr ⟨fun n hn => hnear z hz _ ?_ n hn, fun d hdd hdk => hbody z hz K (List.mem_of_getElem? hK) d hdd hdk⟩
        rw [← W.ops]
        exact List.mem_map.2 ⟨x, List.mem_of_getElem? hx, rfl⟩
    · obtain ⟨u, hu⟩ := hlocs.slot he
      exact (src i _ _ u he hu).not_first hw hpl p rfl
  · obtain ⟨h3, h4⟩ := h.inputs op ho a ha h1 h2
    exact ⟨hl.edges.mem h3, hl.edges.mem h4⟩

theorem Vars.still {names : List String} (hw : A.Wf names) (hpl : A.Placed) (h : Vars A I E m s D H) (hl : Later s s') (hst : Still s s') :
    Vars A I E m s' D H := by
  have := h.step hw hpl hl (N := []) (by
    simp only [List.map_nil, List.append_nil]
    exact h.locs.congr (by rw [hst.lg]) (by rw [hst.lg]) (by rw [hst.lg]) hst.slots) (by simp [hst.slots]) hst.codes hst.steps
    (by rw [hst.binds, hst.callsite]; exact h.keys) (fun x hx => .inl (by rw [hst.binds] at hx; exact hx)) (fun _ h => (by cases h))
    (fun _ h => (by cases h)) (by simp) (fun _ h => (by cases h)) (fun _ h => (by cases h))
  simpa using this

/-! ### New blocks -/

/-- The variables of a name at a node. -/
theorem Vars.same (h : Vars A I E m s D H) {i j : Nat} {x : Scope.DefAt} (hx : x.1 ≠ []) (hi : D[i]? = some x) (hj : D[j]? = some x) : i = j := by
  obtain ⟨hi1, hi2⟩ := List.getElem?_eq_some_iff.1 hi
  obtain ⟨hj1, hj2⟩ := List.getElem?_eq_some_iff.1 hj
  have hp := List.pairwise_iff_getElem.1 h.uniq
  rcases Nat.lt_trichotomy i j with hlt | he | hlt
  · exact absurd (hp i j hi1 hj1 hlt (by rw [hi2, hj2])) (by rw [hi2]; exact hx)
  · exact he
  · exact absurd (hp j i hj1 hi1 hlt (by rw [hi2, hj2])) (by rw [hj2]; exact hx)

/-- A variable next to a block is one its command asked for. -/
theorem Vars.near {names : List String} (hw : A.Wf names) (hpl : A.Placed) (h : Vars A I E m s D H) {op n i : Nat} {name : String} {t : T}
    (ho : op ∈ A.ops) (ht : Ty.Settled (s.tg.kn op .inp) t) (hn : Near A op n) (hi : D[i]? = some (A.place n, name)) {u : T}
    (hu : s.slots[i]? = some u) : ∃ j s0, A.getImpl op t = some (.intrinsic j) ∧ Sane s0 ∧ Within s0 s ∧ Chg.var name u n ∈ (runBuiltin A I s0 j op t).chgs := by
  cases h.src i _ _ u hi hu with
  | seed hq _ => exact absurd hq (hn.not_root hw hpl ho)
  | builtin s0 j op' t' n' ho' hov hw' ht' hg hc hq hn' =>
    have e : n = n' := place_inj hw.places (hn.lt hw) (hn'.lt hw) hq
    subst e
    have e := hn.inj hw hpl ho ho' hn'
    subst e
    have e := settled_eq ht ht'
    subst e
    exact ⟨j, s0, hg, hov, hw', hc⟩
  | param d j p a hd hq hp ha ht => exact absurd hq (hn.not_body hw hpl ho hd)

/-- A variable at the expression of a definition is a parameter. -/
theorem Vars.ofBody {names : List String} (hw : A.Wf names) (hpl : A.Placed) (h : Vars A I E m s D H) {d i : Nat} {name : String} (hd : d ∈ A.defs)
    (hi : D[i]? = some (A.place (A.body d), name)) {u : T} (hu : s.slots[i]? = some u) :
    ∃ (j : Nat) (p : Blk.PTy T) (a : Nat), (A.params d)[j]? = some (name, p) ∧ (A.args (A.owner d))[j]? = some a ∧ Ty.Settled (s.tg.kn a .out) u := by
  cases h.src i _ _ u hi hu with
  | seed hq _ =>
    obtain ⟨k, p, hb⟩ := hpl.body d hd
    rw [hb] at hq; cases hq
  | builtin s0 j op' t' n' ho' _ hw' ht' hg hc hq hn' => exact absurd hq.symm (hn'.not_body hw hpl ho' hd)
  | param d' j p a hd' hq hp ha ht =>
    have e : A.body d = A.body d' := place_inj hw.places (hw.body_lt _ (List.mem_map.2 ⟨d, hd, rfl⟩)) (hw.body_lt _ (List.mem_map.2 ⟨d', hd', rfl⟩)) hq
    have e := hw.body_inj d hd d' hd' e
    subst e
    exact ⟨j, p, a, hp, ha, ht⟩

theorem runBuiltin_requests {i op : Nat} {t u : T} (h : (runBuiltin A I s i op t).res = .ok u) :
    ∃ r, requests A s op (.start (A.args op)) (I s i op t).1 = (r, none) := by
  unfold runBuiltin at h
  dsimp only at h
  split at h
  · cases h
  · rename_i r hr; exact ⟨r, hr⟩

theorem builtin_ok {names : List String} (hw : A.Wf names) (hpl : A.Placed) (hst : I.Steady A) (hE : E.Sound A I) (hi : Inv A s) (hf : Fresh s)
    (h : Vars A I E m s D H) {op i : Nat} {t u : T} (ho : op ∈ A.ops) (ht : Ty.Settled (s.tg.kn op .inp) t)
    (hg : A.getImpl op t = some (.intrinsic i)) (hr : (runBuiltin A I s i op t).res = .ok u) :
    CodeOk A I E s D (s.callsite.map (·.1)) s.ops op t u
      (.builtin i (madeArgs A s op (.start (A.args op)) (I s i op t).1) (madeVars A s op (.start (A.args op)) (I s i op t).1)) := by
  obtain ⟨r, hq⟩ := runBuiltin_requests hr
  obtain ⟨h1, h2⟩ := madeVars_spec hw h.locs (start_where op) hq
  have asked : ∀ {n k : Nat} {name : String}, Near A op n → D[k]? = some (A.place n, name) → ∀ {v}, s.slots[k]? = some v →
      (n, name, v) ∈ I.introduces A s i op t := by
    intro n k name hn hk v hv
    obtain ⟨j, s0, h3, h0, h4, h5⟩ := h.near hw hpl ho ht hn hk hv
    rw [hg] at h3
    injection h3 with h3
    injection h3 with h3
    subst h3
    exact hst.again s0 s i op t u ho hg h0 (h.locs.sane hf) h4 hr name v n h5
  refine .builtin i _ _ (hE s i op t u ho hg (h.locs.sane hf) hr _ _ rfl rfl) (fun a ha => ?_) (fun x hx => ?_) fun j n name hj hn => ?_
  · obtain ⟨b, hb⟩ := madeArgs_spec hi.tg.any hf h.locs.noPtr (start_where op) (by trivial) hq a ha
    exact hb.held hw hpl hi hf h.locs h.inputs h.literals ho ht
  · rcases h1 x hx with ⟨e1, e2⟩ | ⟨n, name, slot, e1, e2, e3, e4⟩
    · exact ⟨e2, fun n slot e => by rw [e1] at e; cases e⟩
    · obtain ⟨h3, h4⟩ := h.locs.there (hpl.ok hw) (e4.lt hw) e2
      refine ⟨hst.tidy s i op t u ho hg (h.locs.sane hf) hr n name _ _ (asked e4 h3 h4) e3, fun n' slot' e => ?_⟩
      rw [e1] at e
      cases e
      exact h4
  · obtain ⟨v, hv⟩ := h.locs.slot hj
    obtain ⟨slot, w, h3, x, h4, h5⟩ := h2 _ (asked hn hj hv)
    obtain ⟨h6, _⟩ := h.locs.there (hpl.ok hw) (hn.lt hw) h3
    have e := h.same (hn.not_root hw hpl ho) hj h6
    subst e
    exact ⟨x, h4, h5⟩

/-! ### Calls -/

theorem supplied_inp {t : T} {a b : Arg T} (h : supplied t a = .ok b) : b.inp.ty = some t := by
  unfold supplied at h
  split at h
  · cases h; rfl
  · rename_i t' ha
    split at h
    · rename_i e; cases h; rw [ha, e]; rfl
    · cases h
  · rename_i t' ha
    split at h
    · rename_i e; cases h; rw [ha, e]; rfl
    · cases h
  · cases h

theorem returns_same {t : T} {a b : Arg T} (h : returns t a = .ok b) : b = a := by
  unfold returns at h
  repeat' split at h
  all_goals first | cases h; rfl | cases h

theorem concrete_argument {b : Arg T} (h : concrete A s b = none) : ∃ a, argument A s b = some a := by
  have key : ∀ {o}, fits b o = none → ∃ i u, b.inp.ty = some i ∧ b.out.ty = some u ∧ o = some u := by
    intro o h
    unfold fits at h
    split at h
    · rename_i hx
      simp only [Bool.and_eq_true, decide_eq_true_eq] at hx
      obtain ⟨i, hi⟩ := Option.isSome_iff_exists.1 hx.1.1
      obtain ⟨u, hu⟩ := Option.isSome_iff_exists.1 hx.1.2
      exact ⟨i, u, hi, hu, by rw [hx.2, hu]⟩
    · cases h
  unfold concrete at h
  cases hv : A.var b.node with
  | some v =>
    rw [hv] at h
    dsimp only at h
    split at h
    · cases h
    · cases h
    · split at h <;> cases h
    · rename_i slot hg
      obtain ⟨i, u, h1, h2, h3⟩ := key h
      exact ⟨⟨b.node, i, u, .var slot u⟩, by simp [argument, h1, h2, holdOf, hv, hg, h3]⟩
  | none =>
    rw [hv] at h
    dsimp only at h
    split at h
    · cases h
    · obtain ⟨i, u, h1, h2, h3⟩ := key h
      exact ⟨⟨b.node, i, u, if b.node ∈ A.exprs then .expr b.node else if b.node ∈ A.lits then .lit b.node else .input⟩, by
        simp [argument, h1, h2, holdOf, hv]⟩

/-- The argument for a parameter. -/
theorem callsiteArg_given (hany : ∀ n, s.tg.kn n .inp = .any → n ∈ A.lits) (hf : Fresh s) (hp : ∀ p, Loc.Local.ptr p ∉ s.lg.locals)
    {op : Nat} {t : T} {p : Option T × Nat} {cs : List (Chg T)} (h : callsiteArg A s t (A.args op) p = (cs, none)) :
    ∃ n b a, (A.args op)[p.2]? = some n ∧ b.node = n ∧ Given A s op b a ∧ callArgument A s t (A.args op) p = some a ∧ a.inp = t := by
  unfold callsiteArg at h
  split at h
  · cases h
  · rename_i n hn
    split at h
    · cases h
    · rename_i b hb
      have hcur := (supplied_met hany hf (newArg_cur A s n) hb).1
      have hbn : b.node = n := by rw [supplied_node hb]; exact follow_self hp _ _
      have fin : ∀ {b'}, declared p.1 b = .ok b' → b' = b → concrete A s b = none →
          ∃ n b a, (A.args op)[p.2]? = some n ∧ b.node = n ∧ Given A s op b a ∧ callArgument A s t (A.args op) p = some a ∧ a.inp = t := by
        intro b' h1 e h2
        subst e
        obtain ⟨a, ha⟩ := concrete_argument h2
        refine ⟨n, b', a, hn, hbn, ⟨by rw [hbn]; exact List.mem_of_getElem? hn, by rw [hbn]; exact hcur, by
          rw [hbn]; exact concrete_met hf hcur h2, ha⟩, ?_, ?_⟩
        · simp only [callArgument, hn, hb, h1]; exact ha
        · have := (argument_some ha).2.1
          rw [supplied_inp hb] at this
          injection this with this
          exact this.symm
      split at h
      · rename_i e
        injection h with _ h
        exact fin (b' := b) (by rw [e]; rfl) rfl h
      · rename_i u e
        split at h
        · cases h
        · rename_i b' hb'
          have e2 := returns_same hb'
          subst e2
          injection h with _ h
          exact fin (b' := b') (by rw [e]; exact hb') rfl h

theorem mappedParams_at : ∀ {ps : List (String × Blk.PTy T)} {i : Nat}, (∀ p ∈ ps, p.2 ≠ .expr) → ∀ j : Nat,
    (mappedParams i ps)[j]? = ps[j]?.map fun p => (ptyOf p.2, (i + j) % 256)
  | [], _, _, _ => by simp [mappedParams]
  | p :: ps, i, h, j => by
    have h1 : atCall p.2 = true := by
      have := h p (by simp)
      cases hp : p.2 <;> first | rfl | exact absurd hp this
    unfold mappedParams
    rw [if_pos h1]
    cases j with
    | zero => rfl
    | succ j =>
      have := mappedParams_at (i := i + 1) (fun q hq => h q (List.mem_cons_of_mem _ hq)) j
      simp only [List.cons_append, List.nil_append, List.getElem?_cons_succ]
      rw [this]
      congr 1
      funext q
      rw [show i + 1 + j = i + (j + 1) by omega]

theorem filterMap_at {α β : Type} {f : α → Option β} : ∀ {l : List α}, (∀ x ∈ l, ∃ y, f x = some y) → ∀ j : Nat, (l.filterMap f)[j]? = l[j]?.bind f
  | [], _, _ => by simp
  | x :: l, h, j => by
    obtain ⟨y, hy⟩ := h x (by simp)
    rw [List.filterMap_cons, hy]
    cases j with
    | zero => simp [hy]
    | succ j =>
      simp only [List.getElem?_cons_succ]
      exact filterMap_at (fun z hz => h z (by simp [hz])) j

theorem bindsOf_mem {d : Nat} (h : d ∈ s.binds.map (·.1)) : (d, s.bindsOf d) ∈ s.binds := by
  obtain ⟨x, hx, e⟩ := List.mem_map.1 h
  unfold S.bindsOf
  cases hf : s.binds.find? fun x => x.1 = d with
  | none => exact absurd (by simpa using e) (List.find?_eq_none.1 hf x hx)
  | some y =>
    have h1 : y.1 = d := by simpa using List.find?_some hf
    dsimp only
    rw [← h1]
    exact List.mem_of_find?_eq_some hf

theorem bindsOf_none {d : Nat} (h : d ∉ s.binds.map (·.1)) : s.bindsOf d = [] := by
  unfold S.bindsOf
  cases hf : s.binds.find? fun x => x.1 = d with
  | none => rfl
  | some y =>
    have h1 : y.1 = d := by simpa using List.find?_some hf
    exact absurd (List.mem_map.2 ⟨y, List.mem_of_find?_eq_some hf, h1⟩) h

theorem nodup_at {α : Type} {l : List α} (h : l.Nodup) {i j : Nat} {x : α} (hi : l[i]? = some x) (hj : l[j]? = some x) : i = j :=
  (List.getElem?_inj (List.getElem?_eq_some_iff.1 hi).1 h).1 (hi.trans hj.symm)

theorem call_ok {names : List String} (hw : A.Wf names) (hpl : A.Placed) (hi : Inv A s) (hf : Fresh s)
    (h : Vars A I E m s D H) {op d : Nat} {t u : T} (ho : op ∈ A.ops) (ht : Ty.Settled (s.tg.kn op .inp) t)
    (hg : A.getImpl op t = some (.defn d)) (hr : (runDef A s d t).res = .ok u) :
    CodeOk A I E s D (s.callsite.map (·.1)) s.ops op t u
      (.call d ((s.bindsOf d).zip ((s.callsiteOf d).filterMap (callArgument A s t (A.args (A.owner d)))))) := by
  obtain ⟨k, hm⟩ := getImpl_mem hg
  have hd := (def_mem ho hm).1
  have hown := hw.owner op ho _ hm d rfl
  unfold runDef at hr
  split at hr
  case isFalse => cases hr
  rename_i hb
  split at hr
  · cases hr
  rename_i cs hc
  split at hr
  · cases hr
  rename_i v hv
  injection hr with hr
  subst hr
  rw [hown] at hc ⊢
  obtain ⟨he, i, o, h1, h2, h3⟩ := hi.exprs _ hb
  have e1 : o = v := settled_eq h2 (settled_of_ty hf hv)
  have hin : Ty.Settled (s.tg.kn d .inp) t := by
    rcases (getImpl_chosen hg).key with hm | hm
    · exact (h.called.calls op ho _ d hm).2
    · exact fresh_edge hi hf (h.called.calls op ho _ d hm).2 (fun hl => hw.lit_op _ hl ho) ht
  have hbody : Ty.Settled (s.tg.kn (A.body d) .inp) t := fresh_edge hi hf (h.called.calls op ho _ d hm).1 (hw.lit_def d hd) hin
  have e2 : i = t := settled_eq h1 hbody
  subst e1 e2
  have hdone : Done A s s.ops (A.body d) i o := ⟨he, h1, h2, h3, Pipe.ops h3⟩
  have hnone : ∀ (j n : Nat) name, D[j]? = some (A.place n, name) → ¬ Near A op n := by
    intro j n name hj hn
    obtain ⟨w, hw'⟩ := h.locs.slot hj
    obtain ⟨_, _, h4, _⟩ := h.near hw hpl ho ht hn hj hw'
    rw [hg] at h4
    cases h4
  by_cases hk : d ∈ s.callsite.map (·.1)
  · obtain ⟨ps, h4, h5⟩ := callsiteOf_mem hk
    obtain ⟨h6, h7⟩ := hi.call.calls _ h4
    dsimp only at h6 h7
    have hB := h.binds _ (bindsOf_mem (by rw [h.keys]; exact hk))
    have hall := callsiteArgs_met hc
    have hgiven := fun p hp => let ⟨_, hx⟩ := hall p hp; callsiteArg_given hi.tg.any hf h.locs.noPtr hx
    have hat : ∀ j : Nat, ((s.callsiteOf d).filterMap (callArgument A s i (A.args op)))[j]? =
        ((A.params d)[j]?.map fun p => (ptyOf p.2, j % 256)).bind (callArgument A s i (A.args op)) := by
      intro j
      rw [filterMap_at fun p hp => ?_, h5, h7, mappedParams_at (hpl.values d hd) j]
      · simp
      · obtain ⟨_, _, a, _, _, _, ha, _⟩ := hgiven p hp
        exact ⟨a, ha⟩
    have hpos : ∀ (j : Nat) q, (A.params d)[j]? = some q → j % 256 = j ∧ (ptyOf q.2, j) ∈ s.callsiteOf d := by
      intro j q hq
      have hlt := (List.getElem?_eq_some_iff.1 hq).1
      have := hpl.few d hd
      have e : j % 256 = j := Nat.mod_eq_of_lt (by omega)
      refine ⟨e, ?_⟩
      have hz := mappedParams_at (i := 0) (hpl.values d hd) j
      rw [hq, Nat.zero_add, e] at hz
      rw [h5, h7]
      exact List.mem_of_getElem? hz
    refine .call d _ hdone hd (fun p hp => ?_) (fun j name hj _ => ?_) hnone
    · obtain ⟨j, hj⟩ := List.getElem?_of_mem hp
      obtain ⟨h8, h9⟩ := List.getElem?_zip_eq_some.1 hj
      have hlt : j < (A.params d).length := by
        rw [← hB.length]; exact (List.getElem?_eq_some_iff.1 h8).1
      obtain ⟨q, hq⟩ : ∃ q, (A.params d)[j]? = some q := ⟨_, List.getElem?_eq_getElem hlt⟩
      obtain ⟨e3, h10⟩ := hpos j q hq
      rw [hat, hq, Option.map_some, e3, Option.bind_some] at h9
      obtain ⟨n, b, a, h11, h12, h13, h14, h15⟩ := hgiven _ h10
      rw [h14] at h9
      injection h9 with h9
      obtain ⟨slot, w, h16, h17, h18⟩ := hB.vars j q.1 q.2 hq
      dsimp only at h16 h17
      rw [h8] at h16
      injection h16 with h16
      rw [h16, ← h9]
      refine ⟨h13.held hw hpl hi hf h.locs h.inputs h.literals ho ht, h15, ?_, h18⟩
      obtain ⟨j', p', a', h19, h20, h21⟩ := h.ofBody hw hpl hd h17 h18
      have e4 : j' = j := nodup_at (hpl.names d hd) (x := q.1) (by rw [List.getElem?_map, h19]; rfl) (by rw [List.getElem?_map, hq]; rfl)
      subst e4
      rw [hown, h11] at h20
      injection h20 with h20
      rw [← h20, ← h12] at h21
      exact settled_eq (h13.cur.settled_out hf (argument_some h13.made).2.2.1) h21
    · obtain ⟨w, hw'⟩ := h.locs.slot hj
      obtain ⟨j', p', a', h19, h20, h21⟩ := h.ofBody hw hpl hd hj hw'
      obtain ⟨slot, w', h16, h17, h18⟩ := hB.vars j' name p' h19
      dsimp only at h16 h17
      have e3 : slot = j := h.same (by obtain ⟨k, p, hb⟩ := hpl.body d hd; rw [hb]; simp) h17 hj
      subst e3
      obtain ⟨e4, h10⟩ := hpos j' _ h19
      obtain ⟨n, b, a, h11, h12, h13, h14, h15⟩ := hgiven _ h10
      refine ⟨((slot, w'), a), List.mem_of_getElem? (i := j') (List.getElem?_zip_eq_some.2 ⟨h16, ?_⟩), rfl⟩
      rw [hat, h19, Option.map_some, e4, Option.bind_some]
      exact h14
  · have e3 := bindsOf_none (s := s) (d := d) (by rw [h.keys]; exact hk)
    rw [e3]
    exact .call d _ hdone hd (fun p hp => (by cases hp)) (fun j name _ hk' => absurd hk' hk) hnone

theorem codeOf_ok {names : List String} (hw : A.Wf names) (hpl : A.Placed) (hst : I.Steady A) (hE : E.Sound A I) (hi : Inv A s) (hf : Fresh s)
    (h : Vars A I E m s D H) {op : Nat} {t u : T} (ho : op ∈ A.ops) (ht : Ty.Settled (s.tg.kn op .inp) t)
    (hr : (compileBlock A I s op t).res = .ok u) : CodeOk A I E s D (s.callsite.map (·.1)) s.ops op t u (codeOf A I s op t) := by
  cases hg : A.getImpl op t with
  | none => simp only [compileBlock, hg] at hr; cases hr
  | some c =>
    cases c with
    | intrinsic i =>
      simp only [compileBlock, hg] at hr
      simp only [codeOf, hg]
      exact builtin_ok hw hpl hst hE hi hf h ho ht hg hr
    | defn d =>
      simp only [compileBlock, hg] at hr
      simp only [codeOf, hg]
      exact call_ok hw hpl hi hf h ho ht hg hr

end

end Verif.Comp
