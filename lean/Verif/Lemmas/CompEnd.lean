import Verif.Lemmas.CompRound
/-! Inference, whole rounds, and the loop. -/
namespace Verif.Comp
open Verif
set_option linter.unusedSectionVars false
variable {T : Type} [DecidableEq T]

/-! ### Removing types -/

theorem rmTy_rank (kd : Bool) (t : T) (k : Ty.Kn T) :
    rank kd (Ty.rmTy t k) ≤ rank kd k ∧ ∀ ts, k = .inferred ts → t ∈ ts → rank kd (Ty.rmTy t k) < rank kd k := by
  cases k with
  | inferred ts =>
    have h1 : (ts.filter fun x => decide (x ≠ t)).length ≤ ts.length := List.length_filter_le _ _
    refine ⟨by simp only [Ty.rmTy, rank]; omega, fun us e ht => ?_⟩
    cases e
    have : (ts.filter fun x => decide (x ≠ t)).length < ts.length :=
      List.length_filter_lt_length_iff_exists.2 ⟨t, ht, by simp⟩
    simp only [Ty.rmTy, rank]; omega
  | any => exact ⟨Nat.le_refl _, fun _ e => by cases e⟩
  | known => exact ⟨Nat.le_refl _, fun _ e => by cases e⟩
  | obliged => exact ⟨Nat.le_refl _, fun _ e => by cases e⟩

theorem remove_m2 {A : Ast T} {names : List String} {s s' : S T} {b : Bool} {n : Nat} {sd : Ty.Side} {t : T} (hn : n < A.count)
    (h : apply1 A s (.ty (.remove n sd t)) = .ok (s', b)) :
    M2 A names s' ≤ M2 A names s ∧ (b = true → M2 A names s' < M2 A names s) := by
  simp only [apply1, Ty.applyChg] at h
  injection h with h
  injection h with h1 h2
  subst h1
  rw [M2_eq, M2_eq]
  dsimp only
  have he : edgeM A.count (s.tg.set n sd (Ty.rmTy t (s.tg.kn n sd))) = edgeM A.count s.tg := edgeM_congr rfl rfl
  have hle : ∀ i sd', rank (kind A s.lg i sd') ((s.tg.set n sd (Ty.rmTy t (s.tg.kn n sd))).kn i sd') ≤
      rank (kind A s.lg i sd') (s.tg.kn i sd') := by
    intro i sd'
    rw [Ty.set_kn]
    split
    · rename_i e; obtain ⟨rfl, rfl⟩ := e; exact (rmTy_rank _ t _).1
    · exact Nat.le_refl _
  have h1 : rankSum (kind A s.lg) A.count (s.tg.set n sd (Ty.rmTy t (s.tg.kn n sd))) ≤ rankSum (kind A s.lg) A.count s.tg :=
    rankSum_le fun i _ sd' => hle i sd'
  refine ⟨by omega, fun hb => ?_⟩
  subst hb
  have h3 : rankSum (kind A s.lg) A.count (s.tg.set n sd (Ty.rmTy t (s.tg.kn n sd))) < rankSum (kind A s.lg) A.count s.tg := by
    refine total_lt (fun i _ => ?_) n hn ?_
    · have := hle i .inp; have := hle i .out; omega
    · have hlt : rank (kind A s.lg n sd) ((s.tg.set n sd (Ty.rmTy t (s.tg.kn n sd))).kn n sd) <
          rank (kind A s.lg n sd) (s.tg.kn n sd) := by
        rw [Ty.set_kn, if_pos ⟨rfl, rfl⟩]
        simp only [tyAlters] at h2
        split at h2
        · rename_i ts e
          exact (rmTy_rank _ t _).2 ts e (by simpa using h2)
        · cases h2
      have := hle n .inp
      have := hle n .out
      cases sd <;> omega
  omega

theorem removes_m2 {A : Ast T} {names : List String} : ∀ {cs : List (Chg T)} {s s' : S T} {b b' : Bool},
    (∀ c ∈ cs, ∃ n sd t, c = .ty (.remove n sd t) ∧ n < A.count) → applyAll A s b cs = .ok (s', b') →
    M2 A names s' ≤ M2 A names s ∧ (b' = true → b = true ∨ M2 A names s' < M2 A names s)
  | [], s, s', b, b', _, h => by cases h; exact ⟨Nat.le_refl _, .inl⟩
  | c :: cs, s, s', b, b', hc, h => by
    obtain ⟨n, sd, t, rfl, hn⟩ := hc _ List.mem_cons_self
    simp only [applyAll] at h
    cases h1 : apply1 A s (.ty (.remove n sd t)) with
    | error x => rw [h1] at h; cases h
    | ok x =>
      obtain ⟨s1, b1⟩ := x
      rw [h1] at h
      obtain ⟨h2, h3⟩ := remove_m2 (names := names) hn h1
      obtain ⟨h4, h5⟩ := removes_m2 (names := names) (fun c h => hc c (by simp [h])) h
      refine ⟨by omega, fun hb => ?_⟩
      rcases h5 hb with h | h
      · rw [Bool.or_eq_true] at h
        rcases h with h | h
        · exact .inl h
        · have := h3 h; right; omega
      · right; omega

theorem removes_stage {A : Ast T} {names : List String} {cs : List (Chg T)} {s s' : S T} {b : Bool} (hi : Inv A s)
    (hc : ∀ c ∈ cs, ∃ n sd t, c = .ty (.remove n sd t) ∧ n < A.count) (h : applyAll A s false cs = .ok (s', b)) :
    Grows A s s' ∧ (b = true → Below A names s' s) ∧ NotAbove A names s' s := by
  obtain ⟨h1, h2⟩ := applyAll_inv (s0 := s) hi (Ty.Keeps.refl _) (fun c hm => by
    obtain ⟨n, sd, t, rfl, _⟩ := hc c hm; trivial) h
  obtain ⟨h3, h4⟩ := removes_m2 (names := names) hc h
  have hre := (applyAll_rest h).1
  exact ⟨⟨h1, h2⟩, fun hb => .inr ⟨Nat.le_of_eq hre.m1, (h4 hb).elim (fun e => by cases e) id⟩, .inr ⟨Nat.le_of_eq hre.m1, h3⟩⟩

theorem sinks_mem (under : Nat → Nat → Bool) : ∀ (f : Nat) (l : List Nat) (x : Nat), x ∈ sinks under f l → x ∈ l
  | 0, _, _, h => by cases h
  | _ + 1, [], _, h => by cases h
  | f + 1, y :: ys, x, h => by
    simp only [sinks] at h
    rcases List.mem_cons.1 h with e | h
    · rw [e]; simp
    · exact List.mem_cons_of_mem _ (List.mem_filter.1 (sinks_mem under f _ x h)).1

theorem mem_insert (n x : Nat) : ∀ l : List Nat, x ∈ insert n l ↔ x = n ∨ x ∈ l
  | [] => by simp [insert]
  | m :: ms => by
    unfold insert
    split
    · simp
    · simp only [List.mem_cons, mem_insert n x ms]
      constructor
      · rintro (h | h | h)
        · exact .inr (.inl h)
        · exact .inl h
        · exact .inr (.inr h)
      · rintro (h | h | h)
        · exact .inr (.inl h)
        · exact .inl h
        · exact .inr (.inr h)

theorem mem_descending (x : Nat) : ∀ l : List Nat, x ∈ descending l ↔ x ∈ l
  | [] => by simp [descending]
  | n :: ns => by simp only [descending, mem_insert, mem_descending x ns, List.mem_cons]

theorem narrowable_op {A : Ast T} {s : S T} {op : Nat} (h : op ∈ narrowable A s) : op ∈ A.ops := by
  have := sinks_mem _ _ _ _ h
  rw [mem_descending] at this
  exact (List.mem_filter.1 this).1

theorem narrow_stage {A : Ast T} {I : Builtins T} {names : List String} (hw : A.Wf names) {s s' : S T} {b : Bool} (hi : Inv A s)
    (h : narrow A I s = .ok (s', b)) : Grows A s s' ∧ (b = true → Below A names s' s) ∧ NotAbove A names s' s := by
  unfold narrow at h
  split at h
  · cases h
  · refine removes_stage hi (fun c hc => ?_) h
    obtain ⟨op, ho, hc⟩ := List.mem_flatMap.1 hc
    obtain ⟨t, _, rfl⟩ := List.mem_map.1 hc
    exact ⟨op, .inp, t, rfl, hw.ops_lt _ (narrowable_op ho)⟩

/-! ### Trials -/

/-- What is asked of what happens inside trials. -/
def InnerOk (A : Ast T) (names : List String) (inner : Inner T) : Prop :=
  ∀ brk s c, inner brk s = some (.ok c) → Inv A s → Grows A s c ∧ NotAbove A names c s

theorem trialState_ok {A : Ast T} {names : List String} {s s' : S T} {n : Nat} {sd : Ty.Side} {t : T} {b : Bool} (hi : Inv A s)
    (hn : n < A.count) (hm : (s.tg.kn n sd).isMultiple = true) (h : trialState A s n sd t = .ok (s', b)) :
    Grows A s s' ∧ Below A names s' s ∧ s'.depth = s.depth + 1 := by
  have hi' : Inv A { s with depth := s.depth + 1 } := inv_congr hi rfl (.inl rfl) rfl rfl rfl (hi.call.congr rfl rfl)
  have hv : AllValid A names { s with depth := s.depth + 1 } [.ty (.oblige n sd t)] := allValid_one (.oblige hn (.inr hm))
  obtain ⟨h1, h2⟩ := applyAll_inv (s0 := { s with depth := s.depth + 1 }) hi' (Ty.Keeps.refl _) (fun c hc => (hv c hc).sound) h
  have hr := applyAll_rel (Rel.refl A names { s with depth := s.depth + 1 }) hv h
  have hre := (applyAll_rest h).1
  have hb : b = true := by
    simp only [trialState, applyAll] at h
    split at h
    · rename_i s1 b1 h3
      have e3 : b = b1 := by
        injection h with h; injection h with _ h; rw [← h, Bool.false_or]
      subst e3
      simp only [apply1] at h3
      split at h3
      · injection h3 with h3
        injection h3 with _ h3
        rw [← h3]
        simp only [tyAlters, decide_eq_true_eq]
        intro e
        rw [e] at hm
        cases hm
      · cases h3
    · cases h
  subst hb
  have hlow : Below A names s' { s with depth := s.depth + 1 } := rel_below hr hre
  exact ⟨⟨h1, h2.keeps, h2.edges, h2.steps, h2.exprs, Nat.le_trans (Nat.le_succ _) h2.depth, h2.callsite⟩, hlow, hre.depth⟩

theorem testLoop_ok {Ty C E : Type} [DecidableEq Ty] {trial : Ty → Infer.Trial C E} {c : C} : ∀ {ts v rm : List Ty} {o : Option C},
    Infer.testLoop trial ts v rm o = .ok c → o = some c ∨ ∃ t ∈ ts, trial t = .compiled c
  | [], v, rm, o, h => by
    unfold Infer.testLoop at h
    split at h
    · cases h; exact .inl rfl
    · split at h <;> cases h
  | t :: ts, v, rm, o, h => by
    unfold Infer.testLoop at h
    split at h
    · exact (testLoop_ok h).imp_right fun ⟨u, hu, e⟩ => ⟨u, List.mem_cons_of_mem _ hu, e⟩
    · rename_i d hd
      split at h
      · cases h
      · rcases testLoop_ok h with e | ⟨u, hu, e⟩
        · cases e; exact .inr ⟨t, by simp, hd⟩
        · exact .inr ⟨u, List.mem_cons_of_mem _ hu, e⟩
    · cases h
    · exact (testLoop_ok h).imp_right fun ⟨u, hu, e⟩ => ⟨u, List.mem_cons_of_mem _ hu, e⟩

theorem testLoop_depth {Ty C E : Type} [DecidableEq Ty] {trial : Ty → Infer.Trial C E} {e : E} : ∀ {ts v rm : List Ty} {o : Option C},
    Infer.testLoop trial ts v rm o = .error (.depthLimit e) → ∃ t ∈ ts, trial t = .depth e
  | [], v, rm, o, h => by
    unfold Infer.testLoop at h
    split at h
    · cases h
    · split at h <;> cases h
  | t :: ts, v, rm, o, h => by
    unfold Infer.testLoop at h
    split at h
    · obtain ⟨u, hu, e⟩ := testLoop_depth h; exact ⟨u, List.mem_cons_of_mem _ hu, e⟩
    · split at h
      · cases h
      · obtain ⟨u, hu, e⟩ := testLoop_depth h; exact ⟨u, List.mem_cons_of_mem _ hu, e⟩
    · rename_i e' he
      cases h; exact ⟨t, by simp, he⟩
    · obtain ⟨u, hu, e⟩ := testLoop_depth h; exact ⟨u, List.mem_cons_of_mem _ hu, e⟩

theorem testLoop_congr {Ty C E : Type} [DecidableEq Ty] {f g : Ty → Infer.Trial C E} : ∀ {ts v rm : List Ty} {o : Option C},
    (∀ t ∈ ts, f t = g t) → Infer.testLoop f ts v rm o = Infer.testLoop g ts v rm o
  | [], v, rm, o, _ => by unfold Infer.testLoop; rfl
  | t :: ts, v, rm, o, h => by
    have h1 := h t (by simp)
    have h2 : ∀ v rm o, Infer.testLoop f ts v rm o = Infer.testLoop g ts v rm o :=
      fun v rm o => testLoop_congr fun u hu => h u (List.mem_cons_of_mem _ hu)
    unfold Infer.testLoop
    simp only [h1, h2]

theorem nodesLoop_congr {Ty C E N : Type} {f g : N → Except (Infer.Err Ty E) C} : ∀ {ns : List N} {cs : List (N × Ty)}
    {o : Option (N × Infer.Err Ty E)}, (∀ n ∈ ns, f n = g n) → Infer.nodesLoop f ns cs o = Infer.nodesLoop g ns cs o
  | [], _, _, _ => by unfold Infer.nodesLoop; rfl
  | n :: ns, cs, o, h => by
    have h1 := h n (by simp)
    have h2 : ∀ cs o, Infer.nodesLoop f ns cs o = Infer.nodesLoop g ns cs o :=
      fun cs o => nodesLoop_congr fun u hu => h u (List.mem_cons_of_mem _ hu)
    unfold Infer.nodesLoop
    simp only [h1, h2]

/-- How the loop over the nodes can end. -/
theorem nodesLoop_spec {Ty C E N : Type} {f : N → Except (Infer.Err Ty E) C} : ∀ (ns : List N) (cs : List (N × Ty))
    (o : Option (N × Infer.Err Ty E)), (∀ n e, o = some (n, e) → ∀ x, e ≠ .depthLimit x) →
    (∃ n ∈ ns, ∃ c, f n = .ok c ∧ Infer.nodesLoop f ns cs o = .next c) ∨
    (∃ n ∈ ns, ∃ x, f n = .error (.depthLimit x) ∧ Infer.nodesLoop f ns cs o = .fail n (.depthLimit x)) ∨
    (∃ cs', Infer.nodesLoop f ns cs o = .remove cs' ∧ ∀ y ∈ cs', y ∈ cs ∨ y.1 ∈ ns) ∨
    (∃ n e, Infer.nodesLoop f ns cs o = .fail n e ∧ ∀ x, e ≠ .depthLimit x) ∨ Infer.nodesLoop f ns cs o = .nothing
  | [], cs, o, ho => by
    unfold Infer.nodesLoop
    split
    · exact .inr (.inr (.inl ⟨cs, rfl, fun y hy => .inl hy⟩))
    · split
      · rename_i n e
        exact .inr (.inr (.inr (.inl ⟨n, e, rfl, ho n e rfl⟩)))
      · exact .inr (.inr (.inr (.inr rfl)))
  | n :: ns, cs, o, ho => by
    have lift : ∀ cs1 o1, (∀ y ∈ cs1, y ∈ cs ∨ y.1 = n) → (∀ n e, o1 = some (n, e) → ∀ x, e ≠ .depthLimit x) →
        Infer.nodesLoop f (n :: ns) cs o = Infer.nodesLoop f ns cs1 o1 →
        (∃ m ∈ n :: ns, ∃ c, f m = .ok c ∧ Infer.nodesLoop f (n :: ns) cs o = .next c) ∨
        (∃ m ∈ n :: ns, ∃ x, f m = .error (.depthLimit x) ∧ Infer.nodesLoop f (n :: ns) cs o = .fail m (.depthLimit x)) ∨
        (∃ cs', Infer.nodesLoop f (n :: ns) cs o = .remove cs' ∧ ∀ y ∈ cs', y ∈ cs ∨ y.1 ∈ n :: ns) ∨
        (∃ m e, Infer.nodesLoop f (n :: ns) cs o = .fail m e ∧ ∀ x, e ≠ .depthLimit x) ∨
        Infer.nodesLoop f (n :: ns) cs o = .nothing := by
      intro cs1 o1 h1 h2 e
      rw [e]
      rcases nodesLoop_spec (f := f) ns cs1 o1 h2 with ⟨m, hm, h⟩ | ⟨m, hm, h⟩ | ⟨cs', h, h'⟩ | h | h
      · exact .inl ⟨m, List.mem_cons_of_mem _ hm, h⟩
      · exact .inr (.inl ⟨m, List.mem_cons_of_mem _ hm, h⟩)
      · refine .inr (.inr (.inl ⟨cs', h, fun y hy => ?_⟩))
        rcases h' y hy with h3 | h3
        · rcases h1 y h3 with h4 | h4
          · exact .inl h4
          · exact .inr (by rw [h4]; simp)
        · exact .inr (List.mem_cons_of_mem _ h3)
      · exact .inr (.inr (.inr (.inl h)))
      · exact .inr (.inr (.inr (.inr h)))
    cases hf : f n with
    | ok c => exact .inl ⟨n, by simp, c, hf, by unfold Infer.nodesLoop; rw [hf]⟩
    | error e =>
      cases e with
      | depthLimit x => exact .inr (.inl ⟨n, by simp, x, hf, by unfold Infer.nodesLoop; rw [hf]⟩)
      | reduce ts =>
        refine lift (cs ++ ts.map fun t => (n, t)) o (fun y hy => ?_) ho (by rw [Infer.nodesLoop, hf])
        rcases List.mem_append.1 hy with h | h
        · exact .inl h
        · obtain ⟨t, _, rfl⟩ := List.mem_map.1 h; exact .inr rfl
      | noTypes =>
        exact lift cs (some (n, .noTypes)) (fun y hy => .inl hy) (fun _ _ e => by cases e; intro x h; cases h) (by
          rw [Infer.nodesLoop, hf] <;> (intros; first | contradiction | simp_all))
      | ambiguous set =>
        exact lift cs (some (n, .ambiguous set)) (fun y hy => .inl hy) (fun _ _ e => by cases e; intro x h; cases h) (by
          rw [Infer.nodesLoop, hf] <;> (intros; first | contradiction | simp_all))

theorem trial_compiled {A : Ast T} {names : List String} {inner : Inner T} (hin : InnerOk A names inner) {s c : S T} {brk n : Nat}
    {sd : Ty.Side} {t : T} (hi : Inv A s) (hn : n < A.count) (hm : (s.tg.kn n sd).isMultiple = true)
    (h : trial A inner s brk n sd t = some (.compiled c)) : Grows A s c ∧ Below A names c s ∧ s.depth < c.depth := by
  unfold trial at h
  split at h
  · cases h
  · cases h
  · rename_i s' b hs
    obtain ⟨h1, h2, h3⟩ := trialState_ok (names := names) hi hn hm hs
    cases hr : inner brk s' with
    | none => rw [hr] at h; cases h
    | some r =>
      rw [hr] at h
      cases r with
      | error e => cases e <;> cases h
      | ok d =>
        simp only [Option.map_some, judge, Option.some.injEq, Infer.Trial.compiled.injEq] at h
        subst h
        obtain ⟨h4, h5⟩ := hin brk s' d hr h1.inv
        exact ⟨h1.trans h4, h2.trans_right h5, by have := h4.later.depth; omega⟩

theorem test_ok {A : Ast T} {names : List String} {inner : Inner T} (hin : InnerOk A names inner) {s c : S T} {brk : Nat → Nat} {n : Nat}
    {sd : Ty.Side} (hi : Inv A s) (hn : n < A.count) (hm : (s.tg.kn n sd).isMultiple = true)
    (h : test A inner s brk sd n = some (.ok c)) : Grows A s c ∧ Below A names c s ∧ s.depth < c.depth := by
  unfold test at h
  split at h
  · rename_i hall
    injection h with h
    rcases testLoop_ok h with e | ⟨t, ht, e⟩
    · cases e
    · refine trial_compiled hin hi hn hm (brk := brk n) (t := t) ?_
      have := List.all_eq_true.1 hall t ht
      obtain ⟨x, hx⟩ := Option.isSome_iff_exists.1 this
      rw [hx] at e ⊢
      simp only [Option.getD_some] at e
      rw [e]
  · cases h

theorem inferNodes_stage {A : Ast T} {names : List String} {inner : Inner T} (hin : InnerOk A names inner) {s s' : S T} {b : Bool}
    {brk : Nat → Nat} {sd : Ty.Side} {ns : List Nat} (hi : Inv A s) (hns : ∀ n ∈ ns, n < A.count ∧ (s.tg.kn n sd).isMultiple = true)
    (h : inferNodes A inner s brk sd ns = some (.ok (s', b))) :
    Grows A s s' ∧ (b = true → Below A names s' s) ∧ NotAbove A names s' s := by
  unfold inferNodes at h
  split at h
  · split at h
    · rename_i hall
      injection h with h
      rcases nodesLoop_spec (f := fun n => (test A inner s brk sd n).getD (.error .noTypes)) ns [] none (fun _ _ e => by cases e) with
        ⟨n, hn, c, hc, e⟩ | ⟨n, hn, x, hx, e⟩ | ⟨cs, e, hcs⟩ | ⟨n, x, e, hx⟩ | e
      · rw [e] at h
        cases h
        have ht : test A inner s brk sd n = some (.ok s') := by
          obtain ⟨x, hx⟩ := Option.isSome_iff_exists.1 (List.all_eq_true.1 hall n hn)
          rw [hx] at hc ⊢
          simp only [Option.getD_some] at hc
          rw [hc]
        obtain ⟨h1, h2, _⟩ := test_ok hin hi (hns n hn).1 (hns n hn).2 ht
        exact ⟨h1, fun _ => h2, h2.notAbove⟩
      · rw [e] at h; cases h
      · rw [e] at h
        refine removes_stage hi (fun c hc => ?_) h
        obtain ⟨y, hy, rfl⟩ := List.mem_map.1 hc
        refine ⟨y.1, sd, y.2, rfl, ?_⟩
        rcases hcs y hy with h | h
        · cases h
        · exact (hns _ h).1
      · rw [e] at h
        cases x with
        | depthLimit x => exact absurd rfl (hx x)
        | noTypes => cases h
        | ambiguous => cases h
        | reduce => cases h
      · rw [e] at h
        cases h
        exact ⟨⟨hi, Later.refl _⟩, fun e => (by cases e), NotAbove.refl _ _ _⟩
    · cases h
  · cases h

theorem flagged_spec {A : Ast T} {names : List String} (hw : A.Wf names) {s : S T} (hi : Inv A s) :
    ∀ n ∈ flagged s, n < A.count ∧ (s.tg.kn n .out).isMultiple = true := by
  intro n hn
  unfold flagged at hn
  obtain ⟨h1, h2⟩ := List.mem_filter.1 hn
  rw [List.mem_eraseDups, mem_descending] at h1
  exact ⟨hw.ops_lt _ (hi.outs n h1), h2⟩

theorem shallow_spec {A : Ast T} {names : List String} (hw : A.Wf names) {s : S T} {n : Nat} (h : n ∈ shallow A s) :
    n < A.count ∧ (s.tg.kn n .inp).isMultiple = true := by
  unfold shallow at h
  have h1 := (List.mem_filter.1 h).1
  simp only [List.mem_filter, Bool.and_eq_true] at h1
  exact ⟨hw.exprs_lt _ h1.1, h1.2.2⟩

/-- The order in which nodes are visited names no others. -/
def OrderOk (ord : List Nat → List Nat) : Prop := ∀ l, ∀ n ∈ ord l, n ∈ l

theorem inferExprs_stage {A : Ast T} {names : List String} (hw : A.Wf names) {ord : List Nat → List Nat} (hord : OrderOk ord)
    {inner : Inner T} (hin : InnerOk A names inner) {s s' : S T} (hi : Inv A s) (h : inferExprs A ord inner s = some (.ok s')) :
    Grows A s s' ∧ Below A names s' s := by
  unfold inferExprs at h
  split at h
  · cases h
  · rename_i s1 h1
    cases h
    obtain ⟨r1, r2, _⟩ := inferNodes_stage hin hi (fun n hn => shallow_spec hw (hord _ n hn)) h1
    exact ⟨r1, r2 rfl⟩
  · cases h
  · cases h

theorem noOuts_grows {A : Ast T} {s : S T} (hi : Inv A s) (o : List Nat) (ho : o = s.outs ∨ o = []) : Grows A s { s with outs := o } :=
  ⟨inv_congr hi rfl ho rfl rfl rfl (hi.call.congr rfl rfl), Ty.Keeps.refl _, fun _ _ h => h, fun _ h => h, fun _ h => h, Nat.le_refl _,
    fun _ h => h⟩

theorem noOuts_notAbove (A : Ast T) (names : List String) (s : S T) (o : List Nat) : NotAbove A names { s with outs := o } s :=
  .inr ⟨Nat.le_refl _, Nat.le_refl _⟩

theorem inferOutputs_stage {A : Ast T} {names : List String} (hw : A.Wf names) {ord : List Nat → List Nat} (hord : OrderOk ord)
    {inner : Inner T} (hin : InnerOk A names inner) {s s' : S T} (hi : Inv A s) (h : inferOutputs A ord inner s = some (.ok s')) :
    Grows A s s' ∧ Below A names s' s := by
  have hg := noOuts_grows hi (if s.depth < 5 then [] else s.outs) (by split; exact .inr rfl; exact .inl rfl)
  have hna := noOuts_notAbove A names s (if s.depth < 5 then [] else s.outs)
  have hfl := flagged_spec hw hi
  unfold inferOutputs at h
  split at h
  · cases h
  · rename_i s1 h1
    cases h
    obtain ⟨r1, r2, _⟩ := inferNodes_stage hin hg.inv hfl h1
    exact ⟨hg.trans r1, hna |> fun h => Below.trans_left h (r2 rfl)⟩
  · rename_i s1 h1
    obtain ⟨r1, _, r2⟩ := inferNodes_stage hin hg.inv hfl h1
    obtain ⟨r3, r4⟩ := inferExprs_stage hw hord hin r1.inv h
    exact ⟨(hg.trans r1).trans r3, Below.trans_left (hna.trans r2) r4⟩
  · rename_i h1
    have hg' := noOuts_grows hi [] (.inr rfl)
    obtain ⟨r3, r4⟩ := inferExprs_stage hw hord hin hg'.inv h
    exact ⟨hg'.trans r3, Below.trans_left (noOuts_notAbove A names s []) r4⟩
  · cases h

theorem blocksStage_ok {A : Ast T} {I : Builtins T} {names : List String} (hw : A.Wf names) (hn : I.Named names)
    {ord : List Nat → List Nat} (hord : OrderOk ord) {inner : Inner T} (hin : InnerOk A names inner) {s s' : S T} (hi : Inv A s)
    (hf : Fresh s) (h : blocksStage A I ord inner s = some (.ok s')) : Grows A s s' ∧ Below A names s' s := by
  obtain ⟨b1, b2⟩ := blocks_stage hw hn hi hf
  unfold blocksStage at h
  split at h
  · cases h
  · rename_i s1 h1
    cases h
    exact b1 _ h1
  · rename_i s1 e h1
    obtain ⟨r1, r2⟩ := b2 _ _ h1
    split at h
    · rename_i s2 h2
      cases h
      obtain ⟨r3, r4, _⟩ := narrow_stage (names := names) hw r1.inv h2
      exact ⟨r1.trans r3, Below.trans_left r2 (r4 rfl)⟩
    · rename_i s2 h2
      obtain ⟨r3, _, r4⟩ := narrow_stage (names := names) hw r1.inv h2
      obtain ⟨r5, r6⟩ := inferOutputs_stage hw hord hin r3.inv h
      exact ⟨(r1.trans r3).trans r5, Below.trans_left (r2.trans r4) r6⟩
    · cases h

/-- The variables stay as they are, and nothing is compiled. -/
structure Still (s s' : S T) : Prop where
  lg : s'.lg = s.lg
  slots : s'.slots = s.slots
  callsite : s'.callsite = s.callsite
  binds : s'.binds = s.binds
  codes : s'.codes = s.codes
  steps : s'.steps = s.steps

theorem Still.refl (s : S T) : Still s s := ⟨rfl, rfl, rfl, rfl, rfl, rfl⟩

theorem Still.trans {a b c : S T} (h : Still a b) (h' : Still b c) : Still a c :=
  ⟨h'.lg.trans h.lg, h'.slots.trans h.slots, h'.callsite.trans h.callsite, h'.binds.trans h.binds, h'.codes.trans h.codes, h'.steps.trans h.steps⟩

theorem applyAll_still {A : Ast T} : ∀ {cs : List (Chg T)} {s s' : S T} {b b' : Bool}, (∀ c ∈ cs, ∃ x, c = .ty x) →
    applyAll A s b cs = .ok (s', b') → Still s s'
  | [], s, s', _, _, _, e => by cases e; exact .refl s
  | c :: cs, s, s', _, _, hc, e => by
    obtain ⟨x, rfl⟩ := hc c (by simp)
    simp only [applyAll, apply1] at e
    cases h : Ty.applyChg s.tg x with
    | error y => rw [h] at e; cases e
    | ok g =>
      rw [h] at e
      have := applyAll_still (fun c h => hc c (by simp [h])) e
      exact ⟨this.lg, this.slots, this.callsite, this.binds, this.codes, this.steps⟩

/-- A move in which no block is compiled: the parameters of definitions may be put in place. -/
def Kin (A : Ast T) (s s' : S T) : Prop :=
  ∃ s1 s2, Grows A s s1 ∧ Still s s1 ∧ (s2 = s1 ∨ Fresh s1 ∧ Grows A s1 s2 ∧ ∃ b, defLocals A s1 = .ok (s2, b)) ∧ Grows A s2 s' ∧ Still s2 s'

theorem Kin.still {A : Ast T} {s s' : S T} (h1 : Grows A s s') (h2 : Still s s') : Kin A s s' :=
  ⟨s', s', h1, h2, .inl rfl, ⟨h1.inv, Later.refl _⟩, .refl _⟩

/-- A state in which the blocks are about to be compiled. -/
structure Prepared (A : Ast T) (names : List String) (s s' : S T) : Prop where
  grows : Grows A s s'
  notAbove : NotAbove A names s' s
  fresh : Fresh s'
  none : complete A s' = []
  exprs : s'.exprs = s.exprs
  steps : s'.steps = s.steps
  depth : s'.depth = s.depth
  kin : Kin A s s'

/-- An error that is neither a panic over a missing error nor the depth limit. -/
def Plain (e : Err) : Prop := e = .soft ∨ e = .hard ∨ e = .crash

/-- A round, up to compiling the blocks. -/
inductive Prep (A : Ast T) (names : List String) (s : S T) : Except (Option (Except Err (S T))) (S T) → Prop
  | stop {e : Err} : Plain e → Prep A names s (.error (some (.error e)))
  | next {s' : S T} : Grows A s s' → Below A names s' s → s'.steps = s.steps ∧ s'.depth = s.depth → Kin A s s' → Prep A names s (.error (some (.ok s')))
  | go {s' : S T} : Prepared A names s s' → Prep A names s (.ok s')

theorem resolveTg_plain {s : S T} {e : Err} (h : resolveTg s = .error e) : Plain e := by
  unfold resolveTg at h
  split at h <;> cases h <;> simp [Plain]

theorem resolveTg_rest {s s' : S T} (h : resolveTg s = .ok s') : Rest s s' := by
  unfold resolveTg at h
  split at h <;> cases h
  exact ⟨rfl, rfl, rfl, rfl, rfl, rfl, rfl⟩

theorem resolveTg_still {s s' : S T} (h : resolveTg s = .ok s') : Still s s' := by
  unfold resolveTg at h
  split at h <;> cases h
  exact ⟨rfl, rfl, rfl, rfl, rfl, rfl⟩

theorem assign_still {A : Ast T} {s s' : S T} {b : Bool} (h : assignVariables A s = .ok (s', b)) : Still s s' := by
  refine applyAll_still (fun c hc => ?_) h
  obtain ⟨n, _, hc⟩ := List.mem_flatMap.1 hc
  unfold variableChgs at hc
  repeat' split at hc
  all_goals simp at hc
  all_goals rcases hc with rfl | rfl
  all_goals exact ⟨_, rfl⟩

theorem linkArgs_still {A : Ast T} {s s' : S T} {b : Bool} (h : linkArgs A s = (s', b)) : Still s s' := by
  unfold linkArgs at h; dsimp only at h; injection h with h _; rw [← h]; exact ⟨rfl, rfl, rfl, rfl, rfl, rfl⟩

theorem defsLoop_rest {A : Ast T} (ds : List Nat) : ∀ {s s' : S T} {cs cs' : List (Chg T)} {b b' : Bool},
    defsLoop A ds s cs b = .ok (s', cs', b') → s'.steps = s.steps ∧ s'.exprs = s.exprs ∧ s'.depth = s.depth := by
  induction ds with
  | nil => intro s s' cs cs' b b' h; cases h; exact ⟨rfl, rfl, rfl⟩
  | cons d ds ih =>
    intro s s' cs cs' b b' h
    unfold defsLoop at h
    split at h
    · cases h
    · exact ih h
    · have := ih h; exact this

theorem defLocals_rest {A : Ast T} {s s' : S T} {b : Bool} (h : defLocals A s = .ok (s', b)) :
    s'.steps = s.steps ∧ s'.exprs = s.exprs ∧ s'.depth = s.depth := by
  unfold defLocals at h
  split at h
  · cases h
  · rename_i hd
    obtain ⟨h1, h2, h3⟩ := defsLoop_rest _ hd
    have hre := (applyAll_rest h).1
    exact ⟨hre.steps.trans h1, hre.exprs.trans h2, hre.depth.trans h3⟩

theorem complete_congr {A : Ast T} {s s' : S T} (h1 : s'.tg = s.tg) (h2 : s'.exprs = s.exprs) (h3 : s'.steps = s.steps) :
    complete A s' = complete A s := by
  unfold complete S.ops
  rw [h1, h2, h3]

theorem applyAll_error {A : Ast T} : ∀ {cs : List (Chg T)} {s : S T} {b : Bool} {e : Err}, applyAll A s b cs = .error e → Plain e
  | [], _, _, _, h => by cases h
  | c :: cs, s, b, e, h => by
    simp only [applyAll] at h
    split at h
    · exact applyAll_error h
    · rename_i x hx
      cases h
      cases c with
      | ty c =>
        simp only [apply1] at hx
        split at hx
        · cases hx
        · rename_i y _
          cases hx
          cases y <;> simp [stopErr, Plain]
      | var => cases hx
      | lzy => cases hx
      | sealOp => cases hx
      | breakEdge => cases hx

theorem newVar_error {A : Ast T} {s : S T} {name : String} {t : T} {n : Nat} {e : Err} (h : newVar A s name t n = .error e) : e = .crash := by
  unfold newVar at h
  split at h <;> cases h; rfl

theorem newLazy_error {A : Ast T} {s : S T} {name : String} {t n : Nat} {e : Err} (h : newLazy A s name t n = .error e) : e = .crash := by
  unfold newLazy at h
  split at h <;> cases h; rfl

theorem callsiteParam_error {A : Ast T} {s : S T} {d : Nat} {name : String} {t : Option T} {n : Nat} {cs : List (Chg T)} {e : Err}
    (h : callsiteParam A s d name t n = (cs, .error e)) : Plain e := by
  unfold callsiteParam at h
  split at h
  · cases h
  · split at h
    · cases h; simp [Plain]
    · cases h
    · split at h
      · cases h
      · split at h
        · rename_i e' he
          cases h
          rw [newVar_error he]; simp [Plain]
        · cases h
        · cases h

theorem mapLoop_error {A : Ast T} {s : S T} {d : Nat} : ∀ (ps : List (String × Blk.PTy T)) (i : Nat) (as : List Nat)
    (acc : List (Option T × Nat)) (chg : Bool) (e : Err), (mapLoop A s d i ps as acc chg).2 = .fail e → Plain e := by
  intro ps
  induction ps with
  | nil =>
    intro i as acc chg e h
    cases as
    · simp only [mapLoop] at h; split at h <;> cases h
    · cases h; simp [Plain]
  | cons p ps ih =>
    intro i as acc chg e h
    obtain ⟨name, p⟩ := p
    cases as with
    | nil => cases p <;> (simp only [mapLoop] at h; cases h; simp [Plain])
    | cons a as =>
      by_cases hpe : p = .expr
      · subst hpe
        simp only [mapLoop] at h
        split at h
        · rename_i e' he
          cases h
          rw [newLazy_error he]; simp [Plain]
        · exact ih _ _ _ _ _ h
        · exact ih _ _ _ _ _ h
      · have e' : mapLoop A s d i ((name, p) :: ps) (a :: as) acc chg = match callsiteParam A s d name (ptyOf p) a with
            | (cs, .error e) => (cs, .fail e)
            | (cs, .ok none) => (cs, .later)
            | (cs, .ok (some true)) =>
              (cs ++ (mapLoop A s d (i + 1) ps as (acc ++ [(ptyOf p, i % 256)]) chg).1,
                (mapLoop A s d (i + 1) ps as (acc ++ [(ptyOf p, i % 256)]) chg).2)
            | (cs, .ok (some false)) =>
              (cs ++ (mapLoop A s d (i + 1) ps as acc true).1, (mapLoop A s d (i + 1) ps as acc true).2) := by
          cases p <;> first | rfl | exact absurd rfl hpe
        rw [e'] at h
        split at h
        · rename_i hx
          cases h; exact callsiteParam_error hx
        · cases h
        · exact ih _ _ _ _ _ h
        · exact ih _ _ _ _ _ h

theorem defsLoop_error {A : Ast T} : ∀ (ds : List Nat) {s : S T} {cs : List (Chg T)} {b : Bool} {e : Err},
    defsLoop A ds s cs b = .error e → Plain e
  | [], _, _, _, _, h => by cases h
  | d :: ds, s, cs, b, e, h => by
    unfold defsLoop at h
    split at h
    · rename_i e' he
      cases h
      unfold mapDef at he
      split at he
      · cases he; simp [Plain]
      · exact mapLoop_error _ _ _ _ _ _ (by rw [he])
    · exact defsLoop_error ds h
    · exact defsLoop_error ds h

theorem prep {A : Ast T} {I : Builtins T} {names : List String} (hw : A.Wf names) {s : S T} (hi : Inv A s) :
    ∃ x, Prep A names s x ∧ ∀ ord (inner : Inner T), round A I ord inner s = match x with
      | .error r => r
      | .ok s' => blocksStage A I ord inner s' := by
  cases h1 : resolveTg s with
  | error e =>
    refine ⟨.error (some (.error e)), .stop (resolveTg_plain h1), fun ord inner => ?_⟩
    simp only [round, h1]
  | ok s1 =>
    obtain ⟨g1, n1, f1⟩ := resolveTg_ok (names := names) hi h1
    have q1 := resolveTg_rest h1
    have k1 := resolveTg_still h1
    cases hc : (complete A s1).isEmpty with
    | false =>
      obtain ⟨g2, b2⟩ := complete_ok (names := names) hw g1.inv f1 hc
      refine ⟨.error (some (.ok { s1 with exprs := s1.exprs ++ complete A s1 })), .next (g1.trans g2) (Below.trans_left n1 b2) ⟨q1.steps, q1.depth⟩
        (.still (g1.trans g2) (k1.trans ⟨rfl, rfl, rfl, rfl, rfl, rfl⟩)), fun ord inner => ?_⟩
      simp only [round, h1, hc, Bool.false_eq_true, if_false]
    | true =>
      cases h2 : assignVariables A s1 with
      | error e =>
        refine ⟨.error (some (.error e)), .stop (applyAll_error h2), fun ord inner => ?_⟩
        simp only [round, h1, hc, if_true, h2]
      | ok x =>
        obtain ⟨s2, b⟩ := x
        obtain ⟨g2, b2, c2⟩ := assign_stage hw g1.inv h2
        have q2 := (applyAll_rest h2).1
        have k2 := k1.trans (assign_still h2)
        cases b with
        | true =>
          refine ⟨.error (some (.ok s2)), .next (g1.trans g2) (Below.trans_left n1 (b2 rfl)) ⟨q2.steps.trans q1.steps, q2.depth.trans q1.depth⟩
            (.still (g1.trans g2) k2), fun ord inner => ?_⟩
          simp only [round, h1, hc, if_true, h2]
        | false =>
          obtain ⟨n2, e2⟩ := c2 rfl
          have f2 := f1.congr e2
          cases h3 : defLocals A s2 with
          | error e =>
            refine ⟨.error (some (.error e)), .stop ?_, fun ord inner => ?_⟩
            · unfold defLocals at h3
              split at h3
              · rename_i he; cases h3; exact defsLoop_error _ he
              · exact applyAll_error h3
            · simp only [round, h1, hc, if_true, h2, h3]
          | ok x =>
            obtain ⟨s3, b⟩ := x
            obtain ⟨g3, b3, c3⟩ := defLocals_stage hw g2.inv f2 h3
            obtain ⟨q3, q4, q5⟩ := defLocals_rest h3
            have k3 : ∀ {s4}, Grows A s3 s4 → Still s3 s4 → Kin A s s4 := fun g4 k4 => ⟨s2, s3, g1.trans g2, k2, .inr ⟨f2, g3, _, h3⟩, g4, k4⟩
            cases b with
            | true =>
              refine ⟨.error (some (.ok s3)), .next ((g1.trans g2).trans g3) (Below.trans_left (n1.trans n2) (b3 rfl))
                ⟨q3.trans (q2.steps.trans q1.steps), q5.trans (q2.depth.trans q1.depth)⟩ (k3 ⟨g3.inv, Later.refl _⟩ (.refl _)),
                fun ord inner => ?_⟩
              simp only [round, h1, hc, if_true, h2, h3]
            | false =>
              obtain ⟨n3, e3⟩ := c3 rfl
              have f3 := f2.congr e3
              cases h4 : linkArgs A s3 with
              | mk s4 b =>
                obtain ⟨g4, b4, c4⟩ := linkArgs_stage hw g3.inv f3 h4
                cases b with
                | true =>
                  refine ⟨.error (some (.ok s4)), .next (((g1.trans g2).trans g3).trans g4)
                    (Below.trans_left ((n1.trans n2).trans n3) (b4 rfl)) ?_ (k3 g4 (linkArgs_still h4)), fun ord inner => ?_⟩
                  · have e4 : s4.steps = s3.steps ∧ s4.depth = s3.depth := by
                      unfold linkArgs at h4; dsimp only at h4; injection h4 with h4 _; rw [← h4]; exact ⟨rfl, rfl⟩
                    exact ⟨e4.1.trans (q3.trans (q2.steps.trans q1.steps)), e4.2.trans (q5.trans (q2.depth.trans q1.depth))⟩
                  · simp only [round, h1, hc, if_true, h2, h3, h4]
                | false =>
                  have e4 := c4 rfl
                  subst e4
                  refine ⟨.ok s4, .go ⟨(g1.trans g2).trans g3, (n1.trans n2).trans n3, f3, ?_, q4.trans (q2.exprs.trans q1.exprs),
                    q3.trans (q2.steps.trans q1.steps), q5.trans (q2.depth.trans q1.depth), k3 ⟨g3.inv, Later.refl _⟩ (.refl _)⟩, fun ord inner => ?_⟩
                  · rw [complete_congr (e3.trans e2) (q4.trans q2.exprs) (q3.trans q2.steps)]
                    exact List.isEmpty_iff.1 hc
                  · simp only [round, h1, hc, if_true, h2, h3, h4]

theorem round_ok {A : Ast T} {I : Builtins T} {names : List String} (hw : A.Wf names) (hn : I.Named names) {ord : List Nat → List Nat}
    (hord : OrderOk ord) {inner : Inner T} (hin : InnerOk A names inner) {s s' : S T} (hi : Inv A s)
    (h : round A I ord inner s = some (.ok s')) : Grows A s s' ∧ Below A names s' s := by
  obtain ⟨x, hx, e⟩ := prep (I := I) hw hi
  rw [e] at h
  cases hx with
  | stop => cases h
  | next h1 h2 => cases h; exact ⟨h1, h2⟩
  | go hp =>
    obtain ⟨h1, h2⟩ := blocksStage_ok hw hn hord hin hp.grows.inv hp.fresh h
    exact ⟨hp.grows.trans h1, Below.trans_left hp.notAbove h2⟩

theorem compile_ok {A : Ast T} {I : Builtins T} {names : List String} (hw : A.Wf names) (hn : I.Named names) {ord : List Nat → List Nat}
    (hord : OrderOk ord) : ∀ f, InnerOk A names (compile A I ord f)
  | 0 => fun _ _ _ h _ => by cases h
  | f + 1 => fun brk s c h hi => by
    have ih := compile_ok hw hn hord f
    unfold compile at h
    split at h
    · cases h; exact ⟨⟨hi, Later.refl _⟩, NotAbove.refl _ _ _⟩
    · split at h
      · cases h
      · cases h
      · rename_i s' hr
        obtain ⟨h1, h2⟩ := round_ok hw hn hord ih hi hr
        obtain ⟨h3, h4⟩ := ih brk s' c h h1.inv
        exact ⟨h1.trans h3, h2.notAbove.trans h4⟩

theorem compile_done {A : Ast T} {I : Builtins T} {ord : List Nat → List Nat} : ∀ (f : Nat) {brk : Nat} {s c : S T},
    compile A I ord f brk s = some (.ok c) → brk ∈ c.exprs
  | 0, _, _, _, h => by cases h
  | f + 1, brk, s, c, h => by
    unfold compile at h
    split at h
    · rename_i hb; cases h; exact hb
    · split at h
      · cases h
      · cases h
      · exact compile_done f h

/-! ### More fuel -/

def Inner.Le (a b : Inner T) : Prop := ∀ brk s r, a brk s = some r → b brk s = some r

theorem trial_mono {A : Ast T} {a b : Inner T} (hab : Inner.Le a b) {s : S T} {brk n : Nat} {sd : Ty.Side} {t : T}
    {r : Infer.Trial (S T) Err} (h : trial A a s brk n sd t = some r) : trial A b s brk n sd t = some r := by
  unfold trial at h ⊢
  cases h1 : trialState A s n sd t with
  | error e => rw [h1] at h; cases e <;> exact h
  | ok x =>
    obtain ⟨s1, c⟩ := x
    rw [h1] at h
    dsimp only at h ⊢
    cases h2 : a brk s1 with
    | none => rw [h2] at h; cases h
    | some x => rw [h2] at h; rw [hab _ _ _ h2]; exact h

theorem test_mono {A : Ast T} {a b : Inner T} (hab : Inner.Le a b) {s : S T} {brk : Nat → Nat} {n : Nat} {sd : Ty.Side}
    {r : Except (Infer.Err T Err) (S T)} (h : test A a s brk sd n = some r) : test A b s brk sd n = some r := by
  unfold test at h ⊢
  split at h
  · rename_i hall
    have key : ∀ t ∈ types (s.tg.kn n sd), trial A b s (brk n) n sd t = trial A a s (brk n) n sd t := by
      intro t ht
      obtain ⟨x, hx⟩ := Option.isSome_iff_exists.1 (List.all_eq_true.1 hall t ht)
      rw [hx, trial_mono hab hx]
    rw [if_pos (List.all_eq_true.2 fun t ht => by rw [key t ht]; exact List.all_eq_true.1 hall t ht), ← h]
    congr 1
    exact testLoop_congr fun t ht => by rw [key t ht]
  · cases h

theorem inferNodes_mono {A : Ast T} {a b : Inner T} (hab : Inner.Le a b) {s : S T} {brk : Nat → Nat} {sd : Ty.Side} {ns : List Nat}
    {r : Except Err (S T × Bool)} (h : inferNodes A a s brk sd ns = some r) : inferNodes A b s brk sd ns = some r := by
  unfold inferNodes at h ⊢
  split at h
  · rename_i hd
    rw [if_pos hd]
    split at h
    · rename_i hall
      have key : ∀ n ∈ ns, test A b s brk sd n = test A a s brk sd n := by
        intro n hn
        obtain ⟨x, hx⟩ := Option.isSome_iff_exists.1 (List.all_eq_true.1 hall n hn)
        rw [hx, test_mono hab hx]
      rw [if_pos (List.all_eq_true.2 fun n hn => by rw [key n hn]; exact List.all_eq_true.1 hall n hn), ← h]
      congr 2
      exact nodesLoop_congr fun n hn => by rw [key n hn]
    · cases h
  · rename_i hd
    rw [if_neg hd]; exact h

theorem inferExprs_mono {A : Ast T} {ord : List Nat → List Nat} {a b : Inner T} (hab : Inner.Le a b) {s : S T} {r : Except Err (S T)}
    (h : inferExprs A ord a s = some r) : inferExprs A ord b s = some r := by
  unfold inferExprs at h ⊢
  cases h1 : inferNodes A a s id .inp (ord (shallow A s)) with
  | none => rw [h1] at h; cases h
  | some x => rw [inferNodes_mono hab h1]; rw [h1] at h; exact h

theorem inferOutputs_mono {A : Ast T} {ord : List Nat → List Nat} {a b : Inner T} (hab : Inner.Le a b) {s : S T} {r : Except Err (S T)}
    (h : inferOutputs A ord a s = some r) : inferOutputs A ord b s = some r := by
  unfold inferOutputs at h ⊢
  cases h1 : inferNodes A a { s with outs := if s.depth < 5 then [] else s.outs } A.parent .out (flagged s) with
  | none => rw [h1] at h; cases h
  | some x =>
    rw [inferNodes_mono hab h1]
    rw [h1] at h
    cases x with
    | ok y =>
      obtain ⟨s1, c⟩ := y
      cases c with
      | true => exact h
      | false => exact inferExprs_mono hab h
    | error e =>
      cases e with
      | soft => exact inferExprs_mono hab h
      | hard => exact h
      | depth => exact h
      | crash => exact h
      | expect => exact h

theorem blocksStage_mono {A : Ast T} {I : Builtins T} {ord : List Nat → List Nat} {a b : Inner T} (hab : Inner.Le a b) {s : S T}
    {r : Except Err (S T)} (h : blocksStage A I ord a s = some r) : blocksStage A I ord b s = some r := by
  unfold blocksStage at h ⊢
  cases h1 : compileBlocks A I s with
  | stop => rw [h1] at h; exact h
  | again => rw [h1] at h; exact h
  | failed s1 e =>
    rw [h1] at h
    dsimp only at h ⊢
    cases h2 : narrow A I s1 with
    | error => rw [h2] at h; exact h
    | ok x =>
      rw [h2] at h
      obtain ⟨s2, c⟩ := x
      cases c with
      | true => exact h
      | false => exact inferOutputs_mono hab h

theorem round_mono {A : Ast T} {I : Builtins T} {ord : List Nat → List Nat} {a b : Inner T}
    (hab : Inner.Le a b) {s : S T} {r : Except Err (S T)} (h : round A I ord a s = some r) : round A I ord b s = some r := by
  unfold round at h ⊢
  cases h1 : resolveTg s with
  | error => rw [h1] at h; exact h
  | ok s1 =>
    rw [h1] at h
    dsimp only at h ⊢
    split at h
    · rename_i hc
      rw [if_pos hc]
      cases h2 : assignVariables A s1 with
      | error => rw [h2] at h; exact h
      | ok x =>
        rw [h2] at h
        obtain ⟨s2, c⟩ := x
        cases c with
        | true => exact h
        | false =>
          dsimp only at h ⊢
          cases h3 : defLocals A s2 with
          | error => rw [h3] at h; exact h
          | ok x =>
            rw [h3] at h
            obtain ⟨s3, c⟩ := x
            cases c with
            | true => exact h
            | false =>
              dsimp only at h ⊢
              cases h4 : linkArgs A s3 with
              | mk s4 c =>
                rw [h4] at h
                cases c with
                | true => exact h
                | false => exact blocksStage_mono hab h
    · rename_i hc
      rw [if_neg hc]; exact h

theorem compile_succ {A : Ast T} {I : Builtins T} {ord : List Nat → List Nat} : ∀ f, Inner.Le (compile A I ord f) (compile A I ord (f + 1))
  | 0 => fun _ _ _ h => by cases h
  | f + 1 => fun brk s r h => by
    have ih := compile_succ (A := A) (I := I) (ord := ord) f
    unfold compile at h ⊢
    split at h
    · rename_i hb; rw [if_pos hb]; exact h
    · rename_i hb
      rw [if_neg hb]
      cases h1 : round A I ord (compile A I ord f) s with
      | none => rw [h1] at h; cases h
      | some x =>
        rw [round_mono ih h1]
        rw [h1] at h
        cases x with
        | error => exact h
        | ok s' => exact ih _ _ _ h

theorem compile_mono {A : Ast T} {I : Builtins T} {ord : List Nat → List Nat} {f g : Nat} (h : f ≤ g) :
    Inner.Le (compile A I ord f) (compile A I ord g) := by
  induction h with
  | refl => exact fun _ _ _ h => h
  | step _ ih => exact fun brk s r h => compile_succ _ _ _ _ (ih brk s r h)

/-! ### Enough fuel -/

theorem list_max {α : Type} {P : Nat → α → Prop} (hm : ∀ f g x, f ≤ g → P f x → P g x) : ∀ (l : List α), (∀ x ∈ l, ∃ f, P f x) →
    ∃ f, ∀ x ∈ l, P f x
  | [], _ => ⟨0, fun _ h => by cases h⟩
  | x :: l, h => by
    obtain ⟨f, hf⟩ := h x (by simp)
    obtain ⟨g, hg⟩ := list_max hm l fun y hy => h y (List.mem_cons_of_mem _ hy)
    refine ⟨max f g, fun y hy => ?_⟩
    rcases List.mem_cons.1 hy with e | hy
    · rw [e]; exact hm _ _ _ (Nat.le_max_left _ _) hf
    · exact hm _ _ _ (Nat.le_max_right _ _) (hg y hy)

/-- Compiling ends from every state that is further on. -/
def EndsBelow (A : Ast T) (I : Builtins T) (names : List String) (ord : List Nat → List Nat) (s : S T) : Prop :=
  ∀ s', Inv A s' → Below A names s' s → ∀ brk, ∃ f, (compile A I ord f brk s').isSome = true

theorem isSome_of_le {α : Type} {a b : Option α} (h : ∀ r, a = some r → b = some r) (ha : a.isSome = true) : b.isSome = true := by
  obtain ⟨r, hr⟩ := Option.isSome_iff_exists.1 ha
  rw [h r hr]; rfl

section
variable {A : Ast T} {I : Builtins T} {names : List String} {ord : List Nat → List Nat} {s : S T}

theorem trial_ends (he : EndsBelow A I names ord s) {s1 : S T} (hi : Inv A s1) (hb : NotAbove A names s1 s) {n : Nat} (hn : n < A.count)
    {sd : Ty.Side} (hm : (s1.tg.kn n sd).isMultiple = true) (brk : Nat) (t : T) :
    ∃ f, (trial A (compile A I ord f) s1 brk n sd t).isSome = true := by
  unfold trial
  cases h1 : trialState A s1 n sd t with
  | error e => exact ⟨0, by cases e <;> rfl⟩
  | ok x =>
    obtain ⟨s2, c⟩ := x
    obtain ⟨g, b, _⟩ := trialState_ok (names := names) hi hn hm h1
    obtain ⟨f, hf⟩ := he s2 g.inv (Below.trans_left hb b) brk
    exact ⟨f, by simpa using hf⟩

theorem test_ends (he : EndsBelow A I names ord s) {s1 : S T} (hi : Inv A s1) (hb : NotAbove A names s1 s) {n : Nat} (hn : n < A.count)
    {sd : Ty.Side} (hm : (s1.tg.kn n sd).isMultiple = true) (brk : Nat → Nat) :
    ∃ f, (test A (compile A I ord f) s1 brk sd n).isSome = true := by
  obtain ⟨f, hf⟩ := list_max (P := fun f t => (trial A (compile A I ord f) s1 (brk n) n sd t).isSome = true)
    (fun f g x h => isSome_of_le fun r => trial_mono (compile_mono h)) (types (s1.tg.kn n sd)) fun t _ => trial_ends he hi hb hn hm _ t
  refine ⟨f, ?_⟩
  unfold test
  rw [if_pos (List.all_eq_true.2 hf)]; rfl

theorem inferNodes_ends (he : EndsBelow A I names ord s) {s1 : S T} (hi : Inv A s1) (hb : NotAbove A names s1 s)
    {sd : Ty.Side} (brk : Nat → Nat) {ns : List Nat} (hns : ∀ n ∈ ns, n < A.count ∧ (s1.tg.kn n sd).isMultiple = true) :
    ∃ f, (inferNodes A (compile A I ord f) s1 brk sd ns).isSome = true := by
  obtain ⟨f, hf⟩ := list_max (P := fun f n => (test A (compile A I ord f) s1 brk sd n).isSome = true)
    (fun f g x h => isSome_of_le fun r => test_mono (compile_mono h)) ns fun n hn => test_ends he hi hb (hns n hn).1 (hns n hn).2 _
  refine ⟨f, ?_⟩
  unfold inferNodes
  split
  · rw [if_pos (List.all_eq_true.2 hf)]; rfl
  · rfl

theorem inferExprs_ends (hw : A.Wf names) (hord : OrderOk ord) (he : EndsBelow A I names ord s) {s1 : S T} (hi : Inv A s1)
    (hb : NotAbove A names s1 s) : ∃ f, (inferExprs A ord (compile A I ord f) s1).isSome = true := by
  obtain ⟨f, hf⟩ := inferNodes_ends he hi hb (sd := .inp) id (ns := ord (shallow A s1)) fun n hn => shallow_spec hw (hord _ n hn)
  refine ⟨f, ?_⟩
  obtain ⟨x, hx⟩ := Option.isSome_iff_exists.1 hf
  unfold inferExprs
  rw [hx]
  cases x with
  | error => rfl
  | ok y => obtain ⟨_, c⟩ := y; cases c <;> rfl

theorem inferOutputs_ends (hw : A.Wf names) (hn : I.Named names) (hord : OrderOk ord) (he : EndsBelow A I names ord s) {s1 : S T} (hi : Inv A s1)
    (hb : NotAbove A names s1 s) : ∃ f, (inferOutputs A ord (compile A I ord f) s1).isSome = true := by
  have hg := noOuts_grows hi (if s1.depth < 5 then [] else s1.outs) (by split; exact .inr rfl; exact .inl rfl)
  have hna := noOuts_notAbove A names s1 (if s1.depth < 5 then [] else s1.outs)
  obtain ⟨f, hf⟩ := inferNodes_ends he hg.inv (hb.trans hna) (sd := .out) A.parent (ns := flagged s1) (flagged_spec hw hi)
  obtain ⟨x, hx⟩ := Option.isSome_iff_exists.1 hf
  have done : ∀ s2, Inv A s2 → NotAbove A names s2 s →
      (∀ g, f ≤ g → inferOutputs A ord (compile A I ord g) s1 = inferExprs A ord (compile A I ord g) s2) →
      ∃ f, (inferOutputs A ord (compile A I ord f) s1).isSome = true := by
    intro s2 h2 h3 h4
    obtain ⟨g, hg⟩ := inferExprs_ends hw hord he h2 h3
    exact ⟨max f g, by
      rw [h4 _ (Nat.le_max_left _ _)]
      exact isSome_of_le (fun r => inferExprs_mono (compile_mono (Nat.le_max_right _ _))) hg⟩
  have up : ∀ g, f ≤ g → inferNodes A (compile A I ord g) { s1 with outs := if s1.depth < 5 then [] else s1.outs } A.parent .out (flagged s1) = some x :=
    fun g h => inferNodes_mono (compile_mono h) hx
  cases x with
  | ok y =>
    obtain ⟨s2, c⟩ := y
    cases c with
    | true => exact ⟨f, by unfold inferOutputs; rw [hx]; rfl⟩
    | false =>
      have hfl := flagged_spec hw hi
      obtain ⟨r1, _, r2⟩ := inferNodes_stage (compile_ok hw hn hord f) hg.inv hfl hx
      exact done s2 r1.inv ((hb.trans hna).trans r2) fun g h => by unfold inferOutputs; rw [up g h]
  | error e =>
    cases e with
    | soft =>
      exact done _ (noOuts_grows hi [] (.inr rfl)).inv (hb.trans (noOuts_notAbove A names s1 [])) fun g h => by
        unfold inferOutputs; rw [up g h]
    | hard => exact ⟨f, by unfold inferOutputs; rw [hx]; rfl⟩
    | depth => exact ⟨f, by unfold inferOutputs; rw [hx]; rfl⟩
    | crash => exact ⟨f, by unfold inferOutputs; rw [hx]; rfl⟩
    | expect => exact ⟨f, by unfold inferOutputs; rw [hx]; rfl⟩

theorem blocksStage_ends (hw : A.Wf names) (hn : I.Named names) (hord : OrderOk ord) (he : EndsBelow A I names ord s) {s1 : S T} (hi : Inv A s1)
    (hf : Fresh s1) (hb : NotAbove A names s1 s) : ∃ f, (blocksStage A I ord (compile A I ord f) s1).isSome = true := by
  unfold blocksStage
  cases h1 : compileBlocks A I s1 with
  | stop => exact ⟨0, rfl⟩
  | again => exact ⟨0, rfl⟩
  | failed s2 e =>
    obtain ⟨r1, r2⟩ := (blocks_stage hw hn hi hf).2 _ _ h1
    dsimp only
    cases h2 : narrow A I s2 with
    | error => exact ⟨0, rfl⟩
    | ok x =>
      obtain ⟨s3, c⟩ := x
      cases c with
      | true => exact ⟨0, rfl⟩
      | false =>
        obtain ⟨r3, _, r4⟩ := narrow_stage (names := names) hw r1.inv h2
        exact inferOutputs_ends hw hn hord he r3.inv ((hb.trans r2).trans r4)

theorem round_ends (hw : A.Wf names) (hn : I.Named names) (hord : OrderOk ord) (he : EndsBelow A I names ord s) (hi : Inv A s) :
    ∃ f, (round A I ord (compile A I ord f) s).isSome = true := by
  obtain ⟨x, hx, e⟩ := prep (I := I) hw hi
  cases hx with
  | stop => exact ⟨0, by rw [e]; rfl⟩
  | next => exact ⟨0, by rw [e]; rfl⟩
  | go hp =>
    obtain ⟨f, hf⟩ := blocksStage_ends hw hn hord he hp.grows.inv hp.fresh hp.notAbove
    exact ⟨f, by rw [e]; exact hf⟩

theorem compile_ends (hw : A.Wf names) (hn : I.Named names) (hord : OrderOk ord) (s : S T) :
    Inv A s → ∀ brk, ∃ f, (compile A I ord f brk s).isSome = true := by
  induction s using (below_wf A names).induction with
  | _ s ih =>
    intro hi brk
    have he : EndsBelow A I names ord s := fun s' h1 h2 brk => ih s' h2 h1 brk
    obtain ⟨f, hf⟩ := round_ends hw hn hord he hi
    obtain ⟨x, hx⟩ := Option.isSome_iff_exists.1 hf
    by_cases hb : brk ∈ s.exprs
    · exact ⟨1, by unfold compile; rw [if_pos hb]; rfl⟩
    · cases x with
      | error e => exact ⟨f + 1, by unfold compile; rw [if_neg hb, hx]; rfl⟩
      | ok s' =>
        obtain ⟨h1, h2⟩ := round_ok hw hn hord (compile_ok hw hn hord f) hi hx
        obtain ⟨g, hg⟩ := he s' h1.inv h2 brk
        refine ⟨max f g + 1, ?_⟩
        unfold compile
        rw [if_neg hb, round_mono (compile_mono (Nat.le_max_left f g)) hx]
        exact isSome_of_le (fun r => compile_mono (Nat.le_max_right f g) _ _ r) hg

end

theorem start_inv {A : Ast T} {s : S T} (h : Start A s) : Inv A s := by
  refine ⟨⟨h.sets, ?_, h.any, ?_, h.ii⟩, ?_, fun p hp => absurd hp (h.ptrs p), h.flows, ?_, ?_,
    ⟨by rw [h.callsite]; exact fun _ h => (by cases h), by rw [h.seals]; exact fun _ _ h h' => absurd h h', fun d hd hs => by
      rw [h.bodies d hd] at hs; cases hs⟩⟩
  · intro i hi; rw [h.done] at hi; cases hi
  · intro i hi; rw [h.viaAny] at hi; cases hi
  · intro n hn; rw [h.outs] at hn; cases hn
  · intro x hx; rw [h.steps] at hx; cases hx
  · intro e he; rw [h.exprs] at he; cases he

end Verif.Comp
