import Verif.Lemmas.CompInv
import Verif.Props.Infer
/-! The stages of a round: what they keep, and that they come nearer to the end. -/
namespace Verif.Comp
open Verif
set_option linter.unusedSectionVars false
variable {T : Type} [DecidableEq T]

structure Grows (A : Ast T) (s s' : S T) : Prop where
  inv : Inv A s'
  later : Later s s'

theorem Grows.trans {A : Ast T} {a b c : S T} (h : Grows A a b) (h' : Grows A b c) : Grows A a c := ⟨h'.inv, h.later.trans h'.later⟩

theorem inv_congr {A : Ast T} {s s' : S T} (hi : Inv A s) (h1 : s'.tg = s.tg) (h2 : s'.outs = s.outs ∨ s'.outs = [])
    (h3 : s'.lg.locals = s.lg.locals) (h4 : s'.steps = s.steps) (h5 : s'.exprs = s.exprs) (h6 : CallInv A s') : Inv A s' := by
  refine ⟨by rw [h1]; exact hi.tg, ?_, hi.ptr.mono (by rw [h1]; exact Ty.Keeps.refl _) h3, by rw [h1]; exact hi.flows, by
    rw [h1, h4]; exact hi.steps, by rw [h1, h4, h5]; exact hi.exprs, h6⟩
  rcases h2 with h2 | h2 <;> rw [h2]
  · exact hi.outs
  · intro n hn; cases hn

/-! ### Resolution -/

/-- As resolution leaves the graph. -/
structure Fresh (s : S T) : Prop where
  single : Ty.NoSingle s.tg
  idle : ∀ e, Ty.Pending s.tg e → ∀ t, ¬ Ty.Settled (s.tg.srcKn e) t

theorem Fresh.congr {s s' : S T} (h : Fresh s) (e : s'.tg = s.tg) : Fresh s' := ⟨by rw [e]; exact h.single, by rw [e]; exact h.idle⟩

theorem total_add (f g : Nat → Nat) : ∀ n, total n (fun i => f i + g i) = total n f + total n g
  | 0 => rfl
  | n + 1 => by simp only [total, total_add f g n]; omega

theorem M2_eq (A : Ast T) (names : List String) (s : S T) :
    M2 A names s = rankSum (kind A s.lg) A.count s.tg + total A.count (unpointed A s.lg) + edgeM A.count s.tg + locM A.places names s.lg := by
  have : total A.count (cost A s) = rankSum (kind A s.lg) A.count s.tg + total A.count (unpointed A s.lg) :=
    total_add (fun i => rank (kind A s.lg i .inp) (s.tg.kn i .inp) + rank (kind A s.lg i .out) (s.tg.kn i .out)) _ _
  rw [M2, this]

theorem resolveTg_ok {A : Ast T} {names : List String} {s s' : S T} (hi : Inv A s) (h : resolveTg s = .ok s') :
    Grows A s s' ∧ NotAbove A names s' s ∧ Fresh s' := by
  unfold resolveTg at h
  simp only [Ty.step] at h
  obtain ⟨r, hr⟩ := Ty.resolve_ends s.tg
  rw [hr] at h
  simp only [Option.getD_some] at h
  cases r with
  | error x => cases x <;> cases h
  | ok g =>
    cases h
    have hrs := Ty.rounds_of hr
    obtain ⟨h1, h2, h3⟩ := Ty.rounds_keeps hrs
    have h4 := (rounds_rank (kd := kind A s.lg) (n := A.count) hrs hi.tg.sets).1
    have hrest : Rest s { s with tg := g } := ⟨rfl, rfl, rfl, rfl, rfl, rfl, rfl⟩
    refine ⟨⟨inv_rest hi hrest (rounds_tgInv hrs hi.tg) h1 (edgesKeep_eq h3) (hi.ptr.mono h1 rfl) (hi.call.congr rfl rfl), hrest.later h1 (edgesKeep_eq h3)⟩,
      .inr ⟨Nat.le_of_eq hrest.m1, ?_⟩, h2, fun e he => (Ty.resolved_complete hr he).1⟩
    rw [M2_eq, M2_eq]
    show rankSum (kind A s.lg) A.count g + total A.count (unpointed A s.lg) + edgeM A.count g + locM A.places names s.lg ≤ _
    omega

theorem resolveTg_error {s : S T} {e : Err} (h : resolveTg s = .error e) : e ≠ .expect := by
  unfold resolveTg at h
  split at h <;> cases h <;> simp

/-- Over an edge from a block or an expression flows the settled type. -/
theorem fresh_edge {A : Ast T} {s : S T} (hi : Inv A s) (hf : Fresh s) {x : Ty.Edge} (hx : x ∈ s.tg.edges) (hl : x.src ∉ A.lits) {t : T}
    (ht : Ty.Settled (s.tg.srcKn x) t) : Ty.Settled (s.tg.dstKn x) t := by
  obtain ⟨i, hi'⟩ := List.getElem?_of_mem hx
  by_cases hd : i ∈ s.tg.done
  · obtain ⟨e, he, h⟩ := hi.tg.ty i hd
    rw [hi'] at he
    injection he with he
    subst he
    rcases h with ⟨h, _⟩ | ⟨u, h1, h2⟩
    · obtain ⟨e, he, hs⟩ := hi.tg.via i h
      rw [hi'] at he
      injection he with he
      subst he
      exact absurd hs hl
    · rw [Ty.settled_unique ht h1]; exact h2
  · exact absurd ht (hf.idle x ⟨i, hi', hd⟩ t)

theorem settled_of_ty {s : S T} (hf : Fresh s) {n : Nat} {sd : Ty.Side} {t : T} (h : (s.tg.kn n sd).ty = some t) :
    Ty.Settled (s.tg.kn n sd) t := by
  have := hf.single n sd
  generalize s.tg.kn n sd = k at *
  match k, h, this with
  | .known u, h, _ => simp only [Ty.Kn.ty, Option.some.injEq] at h; exact .inl (h ▸ rfl)
  | .obliged u, h, _ => simp only [Ty.Kn.ty, Option.some.injEq] at h; exact .inr (h ▸ rfl)
  | .inferred [u], _, h => exact absurd rfl (h u)

theorem ty_of_settled {k : Ty.Kn T} {t : T} (h : Ty.Settled k t) : k.ty = some t := by rcases h with h | h <;> rw [h] <;> rfl

/-- Along an expression: either there is a block not compiled whose input is settled, or the blocks are a pipeline. -/
theorem links_spec {A : Ast T} {names : List String} (hw : A.Wf names) {s : S T} (hi : Inv A s) (hf : Fresh s) (e : Nat) :
    ∀ (bs : List Nat) (b : Nat) (t : T), (∀ x ∈ links e (b :: bs), x ∈ s.tg.edges) → (∀ op ∈ b :: bs, op ∈ A.ops) →
      Ty.Settled (s.tg.kn b .inp) t →
      (∃ op ∈ b :: bs, op ∉ s.ops ∧ ∃ u, Ty.Settled (s.tg.kn op .inp) u) ∨
      ((∀ op ∈ b :: bs, op ∈ s.ops) ∧ ∃ o, Pipe s.steps (b :: bs) t o ∧ Ty.Settled (s.tg.kn e .out) o) := by
  intro bs
  induction bs with
  | nil =>
    intro b t hl ho ht
    by_cases hb : b ∈ s.ops
    · right
      refine ⟨fun op h => by rw [List.mem_singleton.1 h]; exact hb, ?_⟩
      obtain ⟨⟨b', i, o⟩, hm, rfl⟩ := List.mem_map.1 hb
      obtain ⟨_, h2, h3⟩ := hi.steps _ hm
      have : i = t := Ty.settled_unique h2 ht
      subst this
      exact ⟨o, .cons hm (.nil o), fresh_edge hi hf (x := ⟨b', e, .oo⟩) (hl _ (by simp [links]))
        (fun h => hw.lit_op _ h (ho b' (by simp))) h3⟩
    · exact .inl ⟨b, by simp, hb, t, ht⟩
  | cons c bs ih =>
    intro b t hl ho ht
    by_cases hb : b ∈ s.ops
    · obtain ⟨⟨b', i, o⟩, hm, rfl⟩ := List.mem_map.1 hb
      obtain ⟨_, h2, h3⟩ := hi.steps _ hm
      have : i = t := Ty.settled_unique h2 ht
      subst this
      have hc : Ty.Settled (s.tg.kn c .inp) o := fresh_edge hi hf (x := ⟨b', c, .oi⟩) (hl _ (by simp [links]))
        (fun h => hw.lit_op _ h (ho b' (by simp))) h3
      rcases ih c o (fun x hx => hl x (by simp only [links]; exact List.mem_cons_of_mem _ hx))
        (fun op h => ho op (List.mem_cons_of_mem _ h)) hc with ⟨op, h1, h2⟩ | ⟨h1, o', h2, h3⟩
      · exact .inl ⟨op, List.mem_cons_of_mem _ h1, h2⟩
      · refine .inr ⟨fun op h => ?_, o', .cons hm h2, h3⟩
        rcases List.mem_cons.1 h with e | h
        · rw [e]; exact hb
        · exact h1 op h
    · exact .inl ⟨b, by simp, hb, t, ht⟩

/-- The same for a whole expression. -/
theorem expr_spec {A : Ast T} {names : List String} (hw : A.Wf names) {s : S T} (hi : Inv A s) (hf : Fresh s) {e : Nat} (he : e ∈ A.exprs)
    {t : T} (ht : Ty.Settled (s.tg.kn e .inp) t) :
    (∃ op ∈ A.blocks e, op ∉ s.ops ∧ ∃ u, Ty.Settled (s.tg.kn op .inp) u) ∨
    ((∀ op ∈ A.blocks e, op ∈ s.ops) ∧ ∃ o, Pipe s.steps (A.blocks e) t o ∧ Ty.Settled (s.tg.kn e .out) o) := by
  have hfl := hi.flows e he
  have hop := hw.block_op e
  have hne := hw.blocks e he
  unfold Ast.flows at hfl
  cases hb : A.blocks e with
  | nil => exact absurd hb hne
  | cons b bs =>
    rw [hb] at hfl hop
    have h1 : Ty.Settled (s.tg.kn b .inp) t := fresh_edge hi hf (x := ⟨e, b, .ii⟩) (hfl _ (by simp))
      (fun h => hw.lit_expr _ h he) ht
    exact links_spec hw hi hf e bs b t (fun x hx => hfl x (List.mem_cons_of_mem _ hx)) hop h1

/-! ### Expressions -/

theorem complete_ok {A : Ast T} {names : List String} (hw : A.Wf names) {s : S T} (hi : Inv A s) (hf : Fresh s)
    (hne : (complete A s).isEmpty = false) :
    Grows A s { s with exprs := s.exprs ++ complete A s } ∧ Below A names { s with exprs := s.exprs ++ complete A s } s := by
  refine ⟨⟨⟨hi.tg, hi.outs, hi.ptr, hi.flows, hi.steps, ?_, hi.call.congr rfl rfl⟩, Ty.Keeps.refl _, fun _ _ h => h, fun _ h => h,
    fun x hx => List.mem_append_left _ hx, Nat.le_refl _, fun _ h => h⟩, .inl ?_⟩
  · intro e he
    rcases List.mem_append.1 he with he | he
    · exact hi.exprs e he
    · simp only [complete, List.mem_filter, Bool.and_eq_true, decide_eq_true_eq, List.all_eq_true] at he
      obtain ⟨hm, ⟨⟨_, h2⟩, h3⟩, h4⟩ := he
      obtain ⟨i, hi'⟩ := Option.isSome_iff_exists.1 h2
      have hs := settled_of_ty hf hi'
      refine ⟨hm, ?_⟩
      rcases expr_spec hw hi hf hm hs with ⟨op, ho, hn, _⟩ | ⟨_, o, hp, ho⟩
      · exact absurd (h4 op ho) hn
      · exact ⟨i, o, hs, ho, hp⟩
  · have h : ∃ e, e ∈ complete A s := by
      cases hc : complete A s with
      | nil => rw [hc] at hne; cases hne
      | cons e es => exact ⟨e, by simp⟩
    obtain ⟨e, he⟩ := h
    have he' := he
    simp only [complete, List.mem_filter, Bool.and_eq_true, decide_eq_true_eq] at he
    have := (Ty.filter_shrinks (fun x => decide (x ∉ s.exprs)) (fun x => decide (x ∉ s.exprs ++ complete A s)) A.exprs
      (by intro x hx; simp only [decide_eq_true_eq] at *; exact fun h => hx (List.mem_append_left _ h))).2
      ⟨e, he.1, by simpa using he.2.1.1.1, by simp [he']⟩
    unfold M1 S.ops
    dsimp only
    omega

/-! ### Variables -/

theorem assign_stage {A : Ast T} {names : List String} (hw : A.Wf names) {s s' : S T} {b : Bool} (hi : Inv A s)
    (h : assignVariables A s = .ok (s', b)) :
    Grows A s s' ∧ (b = true → Below A names s' s) ∧ (b = false → NotAbove A names s' s ∧ s'.tg = s.tg) := by
  have hv := assign_ok (names := names) hw s
  obtain ⟨h1, h2⟩ := applyAll_inv hi (Ty.Keeps.refl _) (fun c hc => (hv c hc).sound) h
  have hr := applyAll_rel (Rel.refl A names s) hv h
  have hre := (applyAll_rest h).1
  exact ⟨⟨h1, h2⟩, fun hb => by subst hb; exact rel_below hr hre, fun hb => by
    subst hb; exact ⟨rel_notAbove hr hre, applyAll_same hv h⟩⟩

theorem Valid.congr {A : Ast T} {names : List String} {s s' : S T} (ht : s'.tg = s.tg) (hm : s'.lg.maps = s.lg.maps)
    (hl : s'.lg.locals = s.lg.locals) {c : Chg T} (h : Valid A names s' c) : Valid A names s c := by
  have hk : ∀ n sd, kind A s'.lg n sd = kind A s.lg n sd := by
    intro n sd; cases sd <;> simp [kind, pointed, hl]
  have hd : ∀ p k, DefinedAt s.lg p k → DefinedAt s'.lg p k := fun p k ⟨x, h1, h2⟩ => ⟨x, by rw [hm]; exact h1, h2⟩
  have hf : ∀ op, Fixed A s' op → Fixed A s op := fun op h => h.mono (by rw [ht]; exact Ty.Keeps.refl _)
  cases h with
  | known hn hx => rw [hk, ht] at hx; exact .known hn hx
  | oblige hn hx => rw [hk, ht] at hx; exact .oblige hn hx
  | any hn hx => exact .any hn hx
  | edge h1 h2 h3 => exact .edge h1 h2 h3
  | var hn hx hy => exact .var hn hx fun h => hy (hd _ _ h)
  | lzy hn hx hy ho ha hfx => exact .lzy hn hx (fun h => hy (hd _ _ h)) ho ha (hf _ hfx)
  | sealOp hn hb => exact .sealOp hn hb
  | breakEdge hn hp => exact .breakEdge hn hp

theorem mapLoop_cons {A : Ast T} {s : S T} {d i : Nat} {name : String} {p : Blk.PTy T} (hp : p ≠ .expr) (ps : List (String × Blk.PTy T))
    (a : Nat) (as : List Nat) (acc : List (Option T × Nat)) (chg : Bool) :
    mapLoop A s d i ((name, p) :: ps) (a :: as) acc chg = match callsiteParam A s d name (ptyOf p) a with
      | (cs, .error e) => (cs, .fail e)
      | (cs, .ok none) => (cs, .later)
      | (cs, .ok (some true)) =>
        (cs ++ (mapLoop A s d (i + 1) ps as (acc ++ [(ptyOf p, i % 256)]) chg).1,
          (mapLoop A s d (i + 1) ps as (acc ++ [(ptyOf p, i % 256)]) chg).2)
      | (cs, .ok (some false)) =>
        (cs ++ (mapLoop A s d (i + 1) ps as acc true).1, (mapLoop A s d (i + 1) ps as acc true).2) := by
  cases p <;> first | rfl | exact absurd rfl hp

/-- Mapping succeeds only if there was nothing to change, and then every parameter has its argument. -/
theorem mapLoop_success {A : Ast T} {s : S T} {d : Nat} : ∀ (ps : List (String × Blk.PTy T)) (i : Nat) (as : List Nat)
    (acc out : List (Option T × Nat)) (chg : Bool), (mapLoop A s d i ps as acc chg).2 = .success out →
    chg = false ∧ ps.length = as.length ∧ out = acc ++ mappedParams i ps := by
  intro ps
  induction ps with
  | nil =>
    intro i as acc out chg h
    cases as with
    | cons => cases h
    | nil =>
      simp only [mapLoop] at h
      cases chg with
      | true => cases h
      | false => injection h with h; exact ⟨rfl, rfl, by rw [← h]; simp [mappedParams]⟩
  | cons p ps ih =>
    intro i as acc out chg h
    obtain ⟨name, p⟩ := p
    cases as with
    | nil => cases p <;> cases h
    | cons a as =>
      by_cases hpe : p = .expr
      · subst hpe
        simp only [mapLoop] at h
        split at h
        · cases h
        · obtain ⟨h1, h2, h3⟩ := ih _ _ _ _ _ h
          exact ⟨h1, by simp [h2], by simpa [mappedParams, atCall] using h3⟩
        · cases (ih _ _ _ _ _ h).1
      · have hat : atCall p = true := by cases p <;> first | rfl | exact absurd rfl hpe
        rw [mapLoop_cons hpe] at h
        split at h
        · cases h
        · cases h
        · obtain ⟨h1, h2, h3⟩ := ih _ _ _ _ _ h
          exact ⟨h1, by simp [h2], by simpa [mappedParams, hat] using h3⟩
        · cases (ih _ _ _ _ _ h).1

theorem mapDef_success {A : Ast T} {s : S T} {d : Nat} {cs : List (Chg T)} {ps : List (Option T × Nat)} (h : mapDef A s d = (cs, .success ps)) :
    (A.params d).length = (A.args (A.owner d)).length ∧ ps = mappedParams 0 (A.params d) := by
  unfold mapDef at h
  split at h
  · cases h
  · have := (mapLoop_success (A := A) (s := s) (d := d) _ _ _ _ _ _ (congrArg (·.2) h)).2
    simpa using this

/-- The loop over the definitions. -/
theorem defsLoop_ok {A : Ast T} {names : List String} (hw : A.Wf names) {s0 : S T} : ∀ (ds : List Nat) {s s' : S T}
    {cs cs' : List (Chg T)} {b b' : Bool}, Inv A s → s.tg = s0.tg → s.lg.maps = s0.lg.maps → s.lg.locals = s0.lg.locals →
    (∀ d ∈ ds, A.owner d ∈ A.ops ∧ d ∈ A.defs ∧ A.body d ∈ A.bodies ∧ Fixed A s0 (A.owner d)) → AllValid A names s0 cs →
    defsLoop A ds s cs b = .ok (s', cs', b') →
    Inv A s' ∧ s'.tg = s0.tg ∧ AllValid A names s0 cs' ∧ s'.steps = s.steps ∧ s'.exprs = s.exprs ∧ s'.outs = s.outs ∧
    s'.depth = s.depth ∧ (∀ x ∈ s.callsite, x ∈ s'.callsite) ∧ (b' = false → s' = s) ∧
    (b' = true → b = true ∨ ∃ d ∈ ds, d ∈ s'.callsite.map (·.1)) := by
  intro ds
  induction ds with
  | nil =>
    intro s s' cs cs' b b' hi ht hm hl hds hv h
    cases h
    exact ⟨hi, ht, hv, rfl, rfl, rfl, rfl, fun _ h => h, fun _ => rfl, fun h => .inl h⟩
  | cons d ds ih =>
    intro s s' cs cs' b b' hi ht hm hl hds hv h
    obtain ⟨h1, h2, h3, h4⟩ := hds d (by simp)
    have hds' : ∀ d ∈ ds, A.owner d ∈ A.ops ∧ d ∈ A.defs ∧ A.body d ∈ A.bodies ∧ Fixed A s0 (A.owner d) :=
      fun x hx => hds x (by simp [hx])
    have hv' : AllValid A names s0 (mapDef A s d).1 := fun c hc =>
      (mapDef_ok hw hi.ptr h3 h1 (h4.mono (by rw [ht]; exact Ty.Keeps.refl _)) c hc).congr ht hm hl
    unfold defsLoop at h
    split at h
    · cases h
    · rename_i cs1 e
      rw [e] at hv'
      obtain ⟨r1, r2, r3, r4, r5, r6, r7, r8, r9, r10⟩ := ih hi ht hm hl hds' (hv.append hv') h
      exact ⟨r1, r2, r3, r4, r5, r6, r7, r8, r9, fun hb => (r10 hb).imp_right fun ⟨d, hd, hx⟩ => ⟨d, by simp [hd], hx⟩⟩
    · rename_i cs1 ps e
      rw [e] at hv'
      have hi' : Inv A { s with
          callsite := s.callsite ++ [(d, ps)], binds := s.binds ++ [(d, boundTo A s d)], lg := Loc.apply A.places s.lg (.sealExpr (A.place (A.body d))) } :=
        inv_congr hi rfl (.inl rfl) rfl rfl rfl ⟨fun x hx => by
          rcases List.mem_append.1 hx with hx | hx
          · exact hi.call.calls x hx
          · rw [List.mem_singleton.1 hx]; exact mapDef_success e, hi.call.seals, fun d' hd' hs => by
          simp only [Loc.apply, Bool.or_eq_true, decide_eq_true_eq] at hs
          simp only [List.map_append, List.mem_append]
          rcases hs with hs | hs
          · have hb' : A.body d' ∈ A.bodies := List.mem_map.2 ⟨d', hd', rfl⟩
            have := hw.body_inj d' hd' d h2 (place_inj hw.places (hw.body_lt _ hb') (hw.body_lt _ h3) hs)
            exact .inr (by simp [this])
          · exact .inl (hi.call.bodies d' hd' hs)⟩
      obtain ⟨r1, r2, r3, r4, r5, r6, r7, r8, r9, r10⟩ := ih hi' ht hm hl hds' (hv.append hv') h
      have hd : d ∈ s'.callsite.map (·.1) := List.mem_map.2 ⟨_, r8 (d, ps) (by simp), rfl⟩
      refine ⟨r1, r2, r3, r4, r5, r6, r7, fun x hx => r8 x (List.mem_append_left _ hx),
        fun hb => ?_, fun _ => .inr ⟨d, by simp, hd⟩⟩
      exfalso
      subst hb
      clear r1 r2 r3 r4 r5 r6 r7 r8 r9 r10 hd ih hi'
      have key : ∀ (ds : List Nat) {s s' : S T} {cs cs' : List (Chg T)} {b' : Bool},
          defsLoop A ds s cs true = .ok (s', cs', b') → b' = true := by
        intro ds
        induction ds with
        | nil => intro s s' cs cs' b' h; cases h; rfl
        | cons d ds ih =>
          intro s s' cs cs' b' h
          unfold defsLoop at h
          split at h
          · cases h
          · exact ih h
          · exact ih h
      cases key _ h

theorem defLocals_stage {A : Ast T} {names : List String} (hw : A.Wf names) {s s' : S T} {b : Bool} (hi : Inv A s) (hf : Fresh s)
    (h : defLocals A s = .ok (s', b)) :
    Grows A s s' ∧ (b = true → Below A names s' s) ∧ (b = false → NotAbove A names s' s ∧ s'.tg = s.tg) := by
  unfold defLocals at h
  split at h
  · cases h
  · rename_i s1 cs b1 hd
    have hds : ∀ d ∈ (knownPaths A s).filter fun d => d ∉ s.callsite.map (·.1),
        A.owner d ∈ A.ops ∧ d ∈ A.defs ∧ A.body d ∈ A.bodies ∧ Fixed A s (A.owner d) :=
      fun d hd => knownPaths_spec hw hf.single (List.mem_filter.1 hd).1
    obtain ⟨r1, r2, r3, r4, r5, r6, r7, r8, r9, r10⟩ := defsLoop_ok hw _ hi rfl rfl rfl hds (allValid_nil A names s) hd
    obtain ⟨h1, h2⟩ := applyAll_inv (s0 := s) r1 (by rw [r2]; exact Ty.Keeps.refl _) (fun c hc => (r3 c hc).sound) h
    have hl : Later s s1 := ⟨by rw [r2]; exact Ty.Keeps.refl _, by rw [r2]; exact fun _ _ h => h, by rw [r4]; exact fun _ h => h, by
      rw [r5]; exact fun _ h => h, by rw [r7]; exact Nat.le_refl _, r8⟩
    refine ⟨⟨h1, hl.trans h2⟩, ?_⟩
    cases b1 with
    | true =>
      have hb := applyAll_true h
      subst hb
      refine ⟨fun _ => .inl ?_, fun h => by cases h⟩
      rcases r10 rfl with h' | ⟨d, hd', hx⟩
      · cases h'
      · obtain ⟨_, hdd, _⟩ := hds d hd'
        have hn : d ∉ s.callsite.map (·.1) := by simpa using (List.mem_filter.1 hd').2
        rw [(applyAll_rest h).1.m1]
        have := (Ty.filter_shrinks (fun x => decide (x ∉ s.callsite.map (·.1))) (fun x => decide (x ∉ s1.callsite.map (·.1))) A.defs
          (by intro x hx; simp only [decide_eq_true_eq] at *; exact fun h => hx (by
            obtain ⟨y, hy, e⟩ := List.mem_map.1 h; exact List.mem_map.2 ⟨y, r8 y hy, e⟩))).2
          ⟨d, hdd, by simpa using hn, by simpa using hx⟩
        unfold M1 S.ops
        rw [r4, r5]
        omega
    | false =>
      have e := r9 rfl
      subst e
      have hr := applyAll_rel (Rel.refl A names s1) r3 h
      have hre := (applyAll_rest h).1
      exact ⟨fun hb => by subst hb; exact rel_below hr hre, fun hb => by
        subst hb; exact ⟨rel_notAbove hr hre, applyAll_same r3 h⟩⟩

/-! ### Arguments of definitions -/

structure Linked (A : Ast T) (g g' : Ty.State T) : Prop where
  kn : g'.kn = g.kn
  inv : TgInv A g'
  edges : EdgesKeep g g'
  less : g' = g ∨ (edgeM A.count g' < edgeM A.count g ∧ g.edges.length < g'.edges.length)

theorem Linked.trans {A : Ast T} {a b c : Ty.State T} (h : Linked A a b) (h' : Linked A b c) : Linked A a c := by
  refine ⟨h'.kn.trans h.kn, h'.inv, h.edges.trans h'.edges, ?_⟩
  rcases h.less with e | h1
  · subst e; exact h'.less
  · rcases h'.less with e | h2
    · subst e; exact .inr h1
    · right; omega

theorem link1_ok {A : Ast T} {names : List String} (hw : A.Wf names) {g : Ty.State T} (hi : TgInv A g) {op a : Nat} (ho : op ∈ A.ops)
    (ha : a < A.count) : Linked A g (link1 op g a) := by
  unfold link1
  split
  · exact ⟨rfl, hi, fun _ _ h => h, .inl rfl⟩
  · rename_i hn
    obtain ⟨h1, h2⟩ := tgInv_edge hi (e := ⟨op, a, .ii⟩) fun _ h => absurd ho (hw.lit_op _ h)
    refine ⟨rfl, h1, h2, .inr ⟨edgeM_append (hw.ops_lt _ ho) ha fun h => hn ?_, by simp⟩⟩
    simp only [List.any_eq_true, decide_eq_true_eq]
    exact ⟨_, h, rfl, rfl⟩

theorem fold_linked {A : Ast T} {β : Type} (f : Ty.State T → β → Ty.State T) : ∀ (xs : List β) {g : Ty.State T}, TgInv A g →
    (∀ x ∈ xs, ∀ g, TgInv A g → Linked A g (f g x)) → Linked A g (xs.foldl f g)
  | [], g, hi, _ => ⟨rfl, hi, fun _ _ h => h, .inl rfl⟩
  | x :: xs, g, hi, h => by
    have h1 := h x (by simp) g hi
    exact h1.trans (fold_linked f xs h1.inv fun y hy => h y (by simp [hy]))

theorem linkDef_ok {A : Ast T} {names : List String} (hw : A.Wf names) {g : Ty.State T} (hi : TgInv A g) {d : Nat} (ho : A.owner d ∈ A.ops) :
    Linked A g (linkDef A g d) := by
  refine fold_linked _ _ hi fun a ha g hi => link1_ok hw hi ho ?_
  obtain ⟨x, hx, rfl⟩ := List.mem_map.1 ha
  exact hw.arg_lt _ _ (List.of_mem_zip (a := x.1) (b := x.2) (List.mem_filter.1 hx).1).2

theorem linkArgs_stage {A : Ast T} {names : List String} (hw : A.Wf names) {s s' : S T} {b : Bool} (hi : Inv A s) (hf : Fresh s)
    (h : linkArgs A s = (s', b)) :
    Grows A s s' ∧ (b = true → Below A names s' s) ∧ (b = false → s' = s) := by
  have hl : Linked A s.tg (((knownPaths A s).filter fun d => A.owner d ∉ s.ops).foldl (linkDef A) s.tg) :=
    fold_linked _ _ hi.tg fun d hd g hg => linkDef_ok hw hg (knownPaths_spec hw hf.single (List.mem_filter.1 hd).1).1
  unfold linkArgs at h
  dsimp only at h
  generalize ((knownPaths A s).filter fun d => A.owner d ∉ s.ops).foldl (linkDef A) s.tg = g at h hl
  injection h with h1 h2
  subst h1
  have hre : Rest s { s with tg := g } := ⟨rfl, rfl, rfl, rfl, rfl, rfl, rfl⟩
  have hk : Ty.Keeps s.tg g := by intro n sd t ht; rw [hl.kn]; exact ht
  refine ⟨⟨inv_rest hi hre hl.inv hk hl.edges (hi.ptr.mono hk rfl) (hi.call.congr rfl rfl), hre.later hk hl.edges⟩, fun hb => ?_, fun hb => ?_⟩
  · subst hb
    simp only [decide_eq_true_eq] at h2
    rcases hl.less with e | ⟨h3, _⟩
    · rw [e] at h2; omega
    · refine .inr ⟨Nat.le_of_eq hre.m1, ?_⟩
      rw [M2_eq, M2_eq]
      show rankSum (kind A s.lg) A.count g + total A.count (unpointed A s.lg) + edgeM A.count g + locM A.places names s.lg < _
      have : rankSum (kind A s.lg) A.count g = rankSum (kind A s.lg) A.count s.tg := by unfold rankSum; rw [hl.kn]
      omega
  · subst hb
    simp only [decide_eq_false_iff_not, Nat.not_lt] at h2
    rcases hl.less with e | ⟨_, h3⟩
    · rw [e]
    · omega

/-! ### Blocks -/

theorem mem_candidates {A : Ast T} {s : S T} {op : Nat} {t : T} :
    (op, t) ∈ candidates A s ↔ op ∈ A.ops ∧ op ∉ s.ops ∧ (s.tg.kn op .inp).ty = some t := by
  simp only [candidates, List.mem_filterMap, List.mem_filter, decide_eq_true_eq, Option.map_eq_some_iff, Prod.mk.injEq]
  constructor
  · rintro ⟨a, ⟨h1, h2⟩, u, h3, rfl, rfl⟩; exact ⟨h1, h2, h3⟩
  · rintro ⟨h1, h2, h3⟩; exact ⟨op, ⟨h1, h2⟩, t, h3, rfl, rfl⟩

structure TriedOk (A : Ast T) (names : List String) (s : S T) (r : Tried T) : Prop where
  steps : ∀ x ∈ r.steps, x.1 ∈ A.ops ∧ x.1 ∉ s.ops ∧ (s.tg.kn x.1 .inp).ty = some x.2.1 ∧ Chg.ty (.known x.1 .out x.2.2) ∈ r.chgs
  outs : ∀ n ∈ r.outs, n ∈ A.ops
  sound : ∀ c ∈ r.chgs, Sound A s c
  valid : r.steps = [] → AllValid A names s r.chgs

theorem OutOk.sound {A : Ast T} {names : List String} {s : S T} {o : Out T} (h : OutOk A names s o) : ∀ c ∈ o.chgs, Sound A s c := by
  obtain ⟨cs, anon, e, hv, _⟩ := h
  intro c hc
  rw [e] at hc
  rcases List.mem_append.1 hc with hc | hc
  · exact (hv c hc).sound
  · obtain ⟨t, _, rfl⟩ := List.mem_map.1 hc
    trivial

theorem tryBlock_ok {A : Ast T} {I : Builtins T} {names : List String} (hw : A.Wf names) (hn : I.Named names) {s : S T} (hi : Inv A s)
    {r : Tried T} (h : TriedOk A names s r) {x : Nat × T} (hx : x ∈ candidates A s) : TriedOk A names s (tryBlock A I s r x) := by
  obtain ⟨op, t⟩ := x
  obtain ⟨h1, h2, h3⟩ := mem_candidates.1 hx
  have ho := compileBlock_ok hw hn hi.ptr h1 h3
  have hlt := hw.ops_lt _ h1
  have hs : AllValid A names s (if (compileBlock A I s op t).adds then [] else [.sealOp op]) := by
    split
    · exact allValid_nil A names s
    · exact allValid_one (.sealOp hlt (seal_places hw h1))
  unfold tryBlock
  dsimp only
  generalize (if (compileBlock A I s op t).adds then [] else [.sealOp op] : List (Chg T)) = sl at hs
  split
  · rename_i u hu
    refine ⟨?_, h.outs, ?_, ?_⟩
    · intro x hx
      rcases List.mem_append.1 hx with hx | hx
      · obtain ⟨a, b, c, d⟩ := h.steps x hx
        exact ⟨a, b, c, by simp [d]⟩
      · rw [List.mem_singleton.1 hx]
        exact ⟨h1, h2, h3, by simp⟩
    · intro c hc
      rcases List.mem_append.1 hc with hc | hc
      · rcases List.mem_append.1 hc with hc | hc
        · rcases List.mem_append.1 hc with hc | hc
          · exact h.sound c hc
          · exact ho.sound c hc
        · rw [List.mem_singleton.1 hc]; trivial
      · exact (hs c hc).sound
    · intro e; simp at e
  · rename_i e he
    refine ⟨?_, ?_, ?_, ?_⟩
    · intro x hx
      obtain ⟨a, b, c, d⟩ := h.steps x hx
      exact ⟨a, b, c, by simp [d]⟩
    · intro n hn'
      dsimp only at hn'
      split at hn'
      · rcases List.mem_append.1 hn' with hn' | hn'
        · exact h.outs n hn'
        · rw [List.mem_singleton.1 hn']; exact h1
      · exact h.outs n hn'
    · intro c hc
      rcases List.mem_append.1 hc with hc | hc
      · rcases List.mem_append.1 hc with hc | hc
        · exact h.sound c hc
        · exact ho.sound c hc
      · exact (hs c hc).sound
    · intro hst
      refine ((h.valid hst).append ?_).append hs
      obtain ⟨cs, anon, e', hv, ha⟩ := ho
      rw [e', ha ⟨e, he⟩]
      simpa using hv

theorem tryAll_ok {A : Ast T} {I : Builtins T} {names : List String} (hw : A.Wf names) (hn : I.Named names) {s : S T} (hi : Inv A s) :
    TriedOk A names s (tryAll A I s) := by
  have key : ∀ (xs : List (Nat × T)) {r : Tried T}, (∀ x ∈ xs, x ∈ candidates A s) → TriedOk A names s r →
      TriedOk A names s (xs.foldl (tryBlock A I s) r) := by
    intro xs
    induction xs with
    | nil => intro r _ h; exact h
    | cons x xs ih => intro r hx h; exact ih (fun y hy => hx y (by simp [hy])) (tryBlock_ok hw hn hi h (hx x (by simp)))
  exact key _ (fun _ h => h) ⟨fun _ h => (by cases h), fun _ h => (by cases h), fun _ h => (by cases h), fun _ => allValid_nil A names s⟩

/-- The state after compiling the blocks. -/
theorem blocks_applied {A : Ast T} {I : Builtins T} {names : List String} (hw : A.Wf names) (hn : I.Named names) {s s' : S T} {b : Bool}
    (hi : Inv A s) (hf : Fresh s)
    (h : applyAll A { s with
        steps := s.steps ++ (tryAll A I s).steps
        outs := s.outs ++ (tryAll A I s).outs
        codes := s.codes ++ (tryAll A I s).steps.map fun x => (x.1, x.2.1, x.2.2, codeOf A I s x.1 x.2.1) } false (tryAll A I s).chgs =
      .ok (s', b)) :
    Grows A s s' ∧ ((tryAll A I s).steps ≠ [] → Below A names s' s) ∧
    ((tryAll A I s).steps = [] → (b = true → Below A names s' s) ∧ NotAbove A names s' s) := by
  have ht := tryAll_ok hw hn hi
  generalize tryAll A I s = r at *
  obtain ⟨s1, h1, rfl⟩ := applyAll_with h
  obtain ⟨hi1, hl1⟩ := applyAll_inv (s0 := s) hi (Ty.Keeps.refl _) ht.sound h1
  have hre := (applyAll_rest h1).1
  refine ⟨⟨⟨hi1.tg, ?_, hi1.ptr, hi1.flows, ?_, ?_, hi1.call.congr rfl rfl⟩, hl1.keeps, hl1.edges, fun x hx => List.mem_append_left _ hx,
    hl1.exprs, hl1.depth, hl1.callsite⟩, ?_, ?_⟩
  · intro n hn
    rcases List.mem_append.1 hn with hn | hn
    · exact hi.outs n hn
    · exact ht.outs n hn
  · intro x hx
    rcases List.mem_append.1 hx with hx | hx
    · obtain ⟨a, b, c⟩ := hi.steps x hx
      exact ⟨a, hl1.keeps _ _ _ b, hl1.keeps _ _ _ c⟩
    · obtain ⟨a, b, c, d⟩ := ht.steps x hx
      have := applyAll_settles h1 d
      exact ⟨a, hl1.keeps _ _ _ (settled_of_ty hf c), this⟩
  · intro e he
    obtain ⟨a, i, o, b, c, d⟩ := hi1.exprs e he
    refine ⟨a, i, o, b, c, d.mono fun x hx => ?_⟩
    rw [hre.steps] at hx
    exact List.mem_append_left _ hx
  · intro hne
    left
    obtain ⟨x, hx⟩ := List.exists_mem_of_ne_nil _ hne
    obtain ⟨a, b, c, d⟩ := ht.steps x hx
    have := (Ty.filter_shrinks (fun op => decide (op ∉ s.steps.map (·.1))) (fun op => decide (op ∉ (s.steps ++ r.steps).map (·.1))) A.ops
      (by intro y hy; simp only [decide_eq_true_eq] at *; exact fun h => hy (by rw [List.map_append]; exact List.mem_append_left _ h))).2
      ⟨x.1, a, by simpa [S.ops] using b, by
        simp only [decide_eq_false_iff_not, Classical.not_not, List.map_append]
        exact List.mem_append_right _ (List.mem_map.2 ⟨x, hx, rfl⟩)⟩
    show M1 A { s1 with steps := s.steps ++ r.steps, outs := s.outs ++ r.outs, codes := s.codes ++ r.steps.map fun x => (x.1, x.2.1, x.2.2, codeOf A I s x.1 x.2.1) } < M1 A s
    unfold M1 S.ops
    dsimp only
    rw [hre.exprs, hre.callsite]
    omega
  · intro hst
    have hr := applyAll_rel (Rel.refl A names s) (ht.valid hst) h1
    have hm1 : M1 A { s1 with steps := s.steps ++ r.steps, outs := s.outs ++ r.outs, codes := s.codes ++ r.steps.map fun x => (x.1, x.2.1, x.2.2, codeOf A I s x.1 x.2.1) } = M1 A s := by
      unfold M1 S.ops
      dsimp only
      rw [hre.exprs, hre.callsite, hst, List.append_nil]
    have hm2 : M2 A names { s1 with steps := s.steps ++ r.steps, outs := s.outs ++ r.outs, codes := s.codes ++ r.steps.map fun x => (x.1, x.2.1, x.2.2, codeOf A I s x.1 x.2.1) } = M2 A names s1 := rfl
    refine ⟨fun hb => .inr ⟨Nat.le_of_eq hm1, ?_⟩, .inr ⟨Nat.le_of_eq hm1, ?_⟩⟩
    · rw [hm2]; exact hr.m2.2 hb
    · rw [hm2]; exact hr.m2.1

theorem blocks_stage {A : Ast T} {I : Builtins T} {names : List String} (hw : A.Wf names) (hn : I.Named names) {s : S T} (hi : Inv A s)
    (hf : Fresh s) :
    (∀ s', compileBlocks A I s = .again s' → Grows A s s' ∧ Below A names s' s) ∧
    (∀ s' e, compileBlocks A I s = .failed s' e → Grows A s s' ∧ NotAbove A names s' s) := by
  unfold compileBlocks
  dsimp only
  split
  · exact ⟨fun _ h => (by cases h), fun _ _ h => (by cases h)⟩
  · split
    · exact ⟨fun _ h => (by cases h), fun _ _ h => (by cases h)⟩
    · rename_i s1 b h
      obtain ⟨h1, h2, h3⟩ := blocks_applied hw hn hi hf h
      split
      · rename_i hc
        refine ⟨fun s' e => ?_, fun _ _ e => by cases e⟩
        cases e
        refine ⟨h1, ?_⟩
        by_cases hst : (tryAll A I s).steps = []
        · simp only [hst, List.isEmpty_nil, Bool.not_true, Bool.or_false] at hc
          exact (h3 hst).1 hc
        · exact h2 hst
      · rename_i hc
        have hst : (tryAll A I s).steps = [] := by
          cases hs : (tryAll A I s).steps with
          | nil => rfl
          | cons x xs => rw [hs] at hc; simp at hc
        refine ⟨fun s' e => ?_, fun s' e' e => ?_⟩
        · split at e <;> cases e
        · split at e
          · cases e; exact ⟨h1, (h3 hst).2⟩
          · cases e

end Verif.Comp
