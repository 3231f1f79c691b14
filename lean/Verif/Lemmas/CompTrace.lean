import Verif.Lemmas.CompArgs
/-! Where the results and the errors of compiling come from. -/
namespace Verif.Comp
open Verif
set_option linter.unusedSectionVars false
variable {T : Type} [DecidableEq T]

/-! ### Errors of commands -/

theorem concrete_plain {A : Ast T} {s : S T} {a : Arg T} {e : Err} (h : concrete A s a = some e) : Plain e := by
  unfold concrete fits at h
  unfold Plain
  repeat' split at h
  all_goals first | cases h; simp | cases h

theorem need_plain {r r' : Run T} {x : Except Err (Option (Chg T))} {e : Err} (hx : ∀ e, x = .error e → Plain e)
    (h : r.need x = (r', some e)) : Plain e := by
  unfold Run.need at h
  split at h
  · cases h; exact hx _ rfl
  · cases h
  · cases h; exact .inl rfl

theorem put_plain {r r' : Run T} {x : Except (List (Chg T)) (Arg T)} {e : Err} (h : r.put x = (r', some e)) : Plain e := by
  unfold Run.put at h
  split at h
  · cases h; exact .inl rfl
  · cases h

theorem newVar_plain {A : Ast T} {s : S T} {name : String} {t : T} {n : Nat} {e : Err} (h : newVar A s name t n = .error e) : Plain e :=
  .inr (.inr (newVar_error h))

theorem request_plain {A : Ast T} {s : S T} {op : Nat} {r r' : Run T} {q : Req T} {e : Err} (h : request A s op r q = (r', some e)) :
    Plain e := by
  have hard : Plain .hard := .inr (.inl rfl)
  cases q <;> unfold request at h <;> dsimp only at h
  case output => cases h
  case infer => cases h
  case obligeArgs => cases h
  case addsVars => cases h
  case varsAdded => cases h
  case next => split at h <;> cases h; exact hard
  case supplied => split at h; (· cases h; exact hard); exact put_plain h
  case returns => split at h; (· cases h; exact hard); exact put_plain h
  case concrete =>
    split at h
    · cases h; exact hard
    · injection h with _ h; exact concrete_plain h
  case decouple => split at h <;> cases h; exact hard
  case createVar =>
    split at h
    · cases h; exact hard
    · split at h
      · cases h; exact hard
      · split at h
        · cases h
        · exact need_plain (fun _ => newVar_plain) h
  case inject =>
    split at h
    · cases h; exact hard
    · exact need_plain (fun _ => newVar_plain) h

theorem requests_plain {A : Ast T} {s : S T} {op : Nat} : ∀ {qs : List (Req T)} {r r' : Run T} {e : Err},
    requests A s op r qs = (r', some e) → Plain e
  | [], _, _, _, h => by cases h
  | q :: qs, r, r', e, h => by
    unfold requests at h
    split at h
    · exact requests_plain h
    · rename_i hq; cases h; exact request_plain hq

theorem callsiteArgs_plain {A : Ast T} {s : S T} {t : T} {args : List Nat} : ∀ {ps : List (Option T × Nat)} {cs : List (Chg T)} {e : Err},
    callsiteArgs A s t args ps = (cs, some e) → Plain e
  | [], _, _, h => by cases h
  | p :: ps, cs, e, h => by
    unfold callsiteArgs at h
    split at h
    · rename_i hq
      cases h
      unfold callsiteArg at hq
      split at hq
      · cases hq; exact .inr (.inr rfl)
      · split at hq
        · cases hq; exact .inl rfl
        · split at hq
          · injection hq with _ hq; exact concrete_plain hq
          · split at hq
            · cases hq; exact .inl rfl
            · injection hq with _ hq; exact concrete_plain hq
    · injection h with _ h
      exact callsiteArgs_plain (cs := (callsiteArgs A s t args ps).1) (by rw [← h])

theorem compileBlock_plain {A : Ast T} {I : Builtins T} {s : S T} {op : Nat} {t : T} {e : Err} (h : (compileBlock A I s op t).res = .error e) :
    Plain e := by
  unfold compileBlock at h
  split at h
  · cases h; exact .inr (.inl rfl)
  · unfold runBuiltin at h
    dsimp only at h
    split at h
    · rename_i hq; cases h; exact requests_plain hq
    · unfold finish at h
      split at h
      · cases h; split <;> simp [Plain]
      · split at h
        · cases h; exact .inl rfl
        · cases h
  · unfold runDef at h
    split at h
    · split at h
      · rename_i hq; cases h; exact callsiteArgs_plain hq
      · split at h <;> cases h; exact .inr (.inr rfl)
    · cases h; exact .inl rfl

/-! ### Blocks -/

theorem worse_plain {o : Option Err} {e : Err} (ho : ∀ x, o = some x → Plain x) (he : Plain e) : Plain (worse o e) := by
  unfold worse
  split
  · exact .inr (.inr rfl)
  · exact .inr (.inr rfl)
  · exact .inr (.inl rfl)
  · exact .inr (.inl rfl)
  · exact he

/-- What the loop over the blocks collects: errors of commands, and steps that succeeded. -/
structure TriedFrom (A : Ast T) (I : Builtins T) (s : S T) (r : Tried T) : Prop where
  err : ∀ e, r.err = some e → Plain e
  steps : ∀ x ∈ r.steps, (x.1, x.2.1) ∈ candidates A s ∧ (compileBlock A I s x.1 x.2.1).res = .ok x.2.2

theorem tryBlock_from {A : Ast T} {I : Builtins T} {s : S T} {r : Tried T} (h : TriedFrom A I s r) {x : Nat × T} (hx : x ∈ candidates A s) :
    TriedFrom A I s (tryBlock A I s r x) ∧ ¬ ((tryBlock A I s r x).steps = [] ∧ (tryBlock A I s r x).err = none) := by
  unfold tryBlock
  dsimp only
  split
  · rename_i u hu
    refine ⟨⟨h.err, fun y hy => ?_⟩, fun h => by simp at h⟩
    rcases List.mem_append.1 hy with hy | hy
    · exact h.steps y hy
    · rw [List.mem_singleton.1 hy]; exact ⟨hx, hu⟩
  · rename_i e he
    refine ⟨⟨fun x hx => ?_, h.steps⟩, fun h => by simp at h⟩
    injection hx with hx
    rw [← hx]
    exact worse_plain h.err (compileBlock_plain he)

theorem tryAll_from (A : Ast T) (I : Builtins T) (s : S T) :
    TriedFrom A I s (tryAll A I s) ∧ ((tryAll A I s).steps = [] ∧ (tryAll A I s).err = none → candidates A s = []) := by
  have key : ∀ (xs : List (Nat × T)) {r : Tried T}, (∀ x ∈ xs, x ∈ candidates A s) → TriedFrom A I s r →
      TriedFrom A I s (xs.foldl (tryBlock A I s) r) ∧
      (¬ (r.steps = [] ∧ r.err = none) → ¬ ((xs.foldl (tryBlock A I s) r).steps = [] ∧ (xs.foldl (tryBlock A I s) r).err = none)) := by
    intro xs
    induction xs with
    | nil => intro r _ h; exact ⟨h, id⟩
    | cons x xs ih =>
      intro r hx h
      obtain ⟨h1, h2⟩ := tryBlock_from h (hx x (by simp))
      obtain ⟨h3, h4⟩ := ih (fun y hy => hx y (by simp [hy])) h1
      exact ⟨h3, fun _ => h4 h2⟩
  have h0 : TriedFrom A I s ⟨[], [], [], none⟩ := ⟨fun _ h => (by cases h), fun _ h => (by cases h)⟩
  refine ⟨(key _ (fun _ h => h) h0).1, fun h => ?_⟩
  unfold tryAll at h
  cases hc : candidates A s with
  | nil => rfl
  | cons x xs =>
    exfalso
    rw [hc] at h
    obtain ⟨h1, h2⟩ := tryBlock_from h0 (x := x) (by rw [hc]; simp)
    exact (key xs (fun y hy => by rw [hc]; simp [hy]) h1).2 h2 h

theorem blocks_stop {A : Ast T} {I : Builtins T} {s : S T} {e : Err} (h : compileBlocks A I s = .stop e) :
    Plain e ∨ (e = .expect ∧ candidates A s = []) := by
  obtain ⟨h1, h2⟩ := tryAll_from A I s
  unfold compileBlocks at h
  dsimp only at h
  split at h
  · cases h; exact .inl (.inr (.inr rfl))
  · split at h
    · rename_i hx; cases h; exact .inl (applyAll_error hx)
    · split at h
      · cases h
      · rename_i hc
        split at h
        · cases h
        · injection h with h
          cases he : (tryAll A I s).err with
          | some x => rw [he] at h; exact .inl (h1.err _ (by rw [he, ← h]; rfl))
          | none =>
            rw [he] at h
            refine .inr ⟨h.symm, h2 ⟨?_, he⟩⟩
            cases hs : (tryAll A I s).steps with
            | nil => rfl
            | cons x xs => rw [hs] at hc; simp at hc

theorem blocks_steps {A : Ast T} {I : Builtins T} {s s' : S T} (h : compileBlocks A I s = .again s' ∨ ∃ e, compileBlocks A I s = .failed s' e) :
    s'.exprs = s.exprs ∧ s'.depth = s.depth ∧ ∀ x ∈ s'.steps, x ∈ s.steps ∨
      ((x.1, x.2.1) ∈ candidates A s ∧ (compileBlock A I s x.1 x.2.1).res = .ok x.2.2) := by
  have h1 := (tryAll_from A I s).1
  unfold compileBlocks at h
  dsimp only at h
  split at h
  · rcases h with h | ⟨_, h⟩ <;> cases h
  · split at h
    · rcases h with h | ⟨_, h⟩ <;> cases h
    · rename_i s1 b hx
      have e : s' = s1 := by
        split at h
        · rcases h with h | ⟨_, h⟩ <;> cases h; rfl
        · split at h
          · rcases h with h | ⟨_, h⟩ <;> cases h; rfl
          · rcases h with h | ⟨_, h⟩ <;> cases h
      subst e
      have hre := (applyAll_rest hx).1
      refine ⟨hre.exprs, hre.depth, fun x hm => ?_⟩
      rw [hre.steps] at hm
      exact (List.mem_append.1 hm).imp_right fun h => h1.steps x h

/-- The panic in `compile_blocks`: there is no block to compile, so every expression with a known input is compiled. -/
theorem expect_done {A : Ast T} {I : Builtins T} {names : List String} (hw : A.Wf names) {s : S T} (hi : Inv A s) (hf : Fresh s)
    (hc : complete A s = []) (h : compileBlocks A I s = .stop .expect) {e : Nat} (he : e ∈ A.exprs) {t : T}
    (ht : Ty.Settled (s.tg.kn e .inp) t) : e ∈ s.exprs := by
  rcases blocks_stop h with h | ⟨_, h⟩
  · rcases h with h | h | h <;> cases h
  · by_cases hin : e ∈ s.exprs
    · exact hin
    · exfalso
      rcases expr_spec hw hi hf he ht with ⟨op, h1, h2, u, h3⟩ | ⟨h1, o, _, h2⟩
      · have : (op, u) ∈ candidates A s := mem_candidates.2 ⟨hw.block_op _ _ h1, h2, ty_of_settled h3⟩
        rw [h] at this; cases this
      · have : e ∈ complete A s := by
          unfold complete
          refine List.mem_filter.2 ⟨he, ?_⟩
          simp only [Bool.and_eq_true, decide_eq_true_eq, List.all_eq_true]
          exact ⟨⟨⟨hin, by rw [ty_of_settled ht]; rfl⟩, by rw [ty_of_settled h2]; rfl⟩, h1⟩
        rw [hc] at this; cases this

/-! ### The loop -/

/-- A move in which no block is compiled. -/
structure Quiet (A : Ast T) (s s' : S T) : Prop where
  grows : Grows A s s'
  steps : s'.steps = s.steps
  depth : s'.depth = s.depth ∨ (s.depth < 5 ∧ s'.depth = s.depth + 1)
  kin : Kin A s s'

/-- What is kept by every move. -/
structure Kept (A : Ast T) (I : Builtins T) (P : S T → Prop) : Prop where
  quiet : ∀ s s', Inv A s → P s → Quiet A s s' → P s'
  blocks : ∀ s s', Inv A s → Fresh s → P s → (compileBlocks A I s = .again s' ∨ ∃ e, compileBlocks A I s = .failed s' e) → P s'

/-- Where an error comes from. -/
def Source (A : Ast T) (I : Builtins T) (P X : S T → Prop) (s : S T) (e : Err) : Prop :=
  Plain e ∨
  (e = .expect ∧ ∃ s', P s' ∧ Grows A s s' ∧ Fresh s' ∧ complete A s' = [] ∧ compileBlocks A I s' = .stop .expect ∧ X s') ∨
  (e = .depth ∧ ∃ s', P s' ∧ Grows A s s' ∧ 5 ≤ s'.depth)

theorem Source.grows {A : Ast T} {I : Builtins T} {P X Y : S T → Prop} {s s1 : S T} {e : Err} (hg : Grows A s s1) (h : Source A I P X s1 e)
    (hx : ∀ s', Grows A s1 s' → X s' → Y s') : Source A I P Y s e := by
  rcases h with h | ⟨h, s', h1, h2, h3, h4, h5, h6⟩ | ⟨h, s', h1, h2, h3⟩
  · exact .inl h
  · exact .inr (.inl ⟨h, s', h1, hg.trans h2, h3, h4, h5, hx s' h2 h6⟩)
  · exact .inr (.inr ⟨h, s', h1, hg.trans h2, h3⟩)

/-- Not yet compiled, or further in. -/
def Open (s : S T) (brk : Nat) (s' : S T) : Prop := brk ∉ s'.exprs ∨ s.depth < s'.depth

def Traced (A : Ast T) (I : Builtins T) (P X : S T → Prop) (s : S T) : Except Err (S T) → Prop
  | .ok c => P c
  | .error e => Source A I P X s e

def InnerTraced (A : Ast T) (I : Builtins T) (P : S T → Prop) (inner : Inner T) : Prop :=
  ∀ brk s r, Inv A s → P s → inner brk s = some r → Traced A I P (Open s brk) s r

section
variable {A : Ast T} {I : Builtins T} {names : List String} {P : S T → Prop} {inner : Inner T} {s : S T}

theorem trial_traced (hk : Kept A I P) (hin : InnerTraced A I P inner) (hi : Inv A s) (hp : P s) (hd : s.depth < 5) {brk n : Nat}
    {sd : Ty.Side} {t : T} (hn : n < A.count) (hm : (s.tg.kn n sd).isMultiple = true) :
    (∀ c, trial A inner s brk n sd t = some (.compiled c) → P c) ∧
    (∀ e, trial A inner s brk n sd t = some (.depth e) → Source A I P (fun s' => s.depth < s'.depth) s e) := by
  unfold trial
  cases h1 : trialState A s n sd t with
  | error x =>
    cases x with
    | crash => exact ⟨fun _ h => (by cases h), fun e h => by cases h; exact .inl (.inr (.inr rfl))⟩
    | _ => exact ⟨fun _ h => (by cases h), fun _ h => (by cases h)⟩
  | ok x =>
    obtain ⟨s1, b⟩ := x
    obtain ⟨h2, _, h4⟩ := trialState_ok (names := []) hi hn hm h1
    have hst : s1.steps = s.steps := (applyAll_rest h1).1.steps
    have hp1 : P s1 := hk.quiet s s1 hi hp ⟨h2, hst, .inr ⟨hd, h4⟩, .still h2 (by
      have := applyAll_still (fun c hc => ⟨_, List.mem_singleton.1 hc⟩) h1
      exact ⟨this.lg, this.slots, this.callsite, this.binds, this.codes, this.steps⟩)⟩
    dsimp only
    cases h5 : inner brk s1 with
    | none => exact ⟨fun _ h => (by cases h), fun _ h => (by cases h)⟩
    | some r =>
      have h6 := hin brk s1 r h2.inv hp1 h5
      cases r with
      | ok c =>
        refine ⟨fun d h => ?_, fun e h => ?_⟩
        · simp only [Option.map_some, judge, Option.some.injEq, Infer.Trial.compiled.injEq] at h
          subst h; exact h6
        · cases h
      | error x =>
        have h7 : Source A I P (fun s' => s.depth < s'.depth) s x := Source.grows h2 h6 fun s' hs _ => by
          have := hs.later.depth; omega
        refine ⟨fun d h => ?_, fun e h => ?_⟩
        · cases x <;> cases h
        · cases x <;> cases h <;> exact h7

theorem test_traced (hk : Kept A I P) (hin : InnerTraced A I P inner) (hi : Inv A s) (hp : P s) (hd : s.depth < 5) {brk : Nat → Nat} {n : Nat}
    {sd : Ty.Side} (hn : n < A.count) (hm : (s.tg.kn n sd).isMultiple = true) :
    (∀ c, test A inner s brk sd n = some (.ok c) → P c) ∧
    (∀ e, test A inner s brk sd n = some (.error (.depthLimit e)) → Source A I P (fun s' => s.depth < s'.depth) s e) := by
  unfold test
  split
  · rename_i hall
    have get : ∀ t ∈ types (s.tg.kn n sd), ∀ r, (trial A inner s (brk n) n sd t).getD .rejected = r → trial A inner s (brk n) n sd t = some r := by
      intro t ht r h
      obtain ⟨x, hx⟩ := Option.isSome_iff_exists.1 (List.all_eq_true.1 hall t ht)
      rw [hx] at h ⊢
      simp only [Option.getD_some] at h
      rw [h]
    refine ⟨fun c h => ?_, fun e h => ?_⟩
    · injection h with h
      rcases testLoop_ok h with h | ⟨t, ht, h⟩
      · cases h
      · exact (trial_traced hk hin hi hp hd hn hm).1 c (get t ht _ h)
    · injection h with h
      obtain ⟨t, ht, h⟩ := testLoop_depth h
      exact (trial_traced hk hin hi hp hd hn hm).2 e (get t ht _ h)
  · exact ⟨fun _ h => (by cases h), fun _ h => (by cases h)⟩

theorem removes_quiet {cs : List (Chg T)} {s' : S T} {b : Bool} (hi : Inv A s)
    (hc : ∀ c ∈ cs, ∃ n sd t, c = .ty (.remove n sd t) ∧ n < A.count) (h : applyAll A s false cs = .ok (s', b)) : Quiet A s s' :=
  ⟨(removes_stage (names := []) hi hc h).1, (applyAll_rest h).1.steps, .inl (applyAll_rest h).1.depth,
    .still (removes_stage (names := []) hi hc h).1 (applyAll_still (fun c h => by obtain ⟨_, _, _, e, _⟩ := hc c h; exact ⟨_, e⟩) h)⟩

theorem inferNodes_traced (hk : Kept A I P) (hin : InnerTraced A I P inner) (hi : Inv A s) (hp : P s) {brk : Nat → Nat}
    {sd : Ty.Side} {ns : List Nat} (hns : ∀ n ∈ ns, n < A.count ∧ (s.tg.kn n sd).isMultiple = true) :
    (∀ c b, inferNodes A inner s brk sd ns = some (.ok (c, b)) → P c) ∧
    (∀ e, inferNodes A inner s brk sd ns = some (.error e) → Source A I P (fun s' => s.depth < s'.depth) s e) := by
  unfold inferNodes
  split
  · rename_i hd
    split
    · rename_i hall
      have get : ∀ n ∈ ns, ∀ r, (test A inner s brk sd n).getD (.error .noTypes) = r → test A inner s brk sd n = some r := by
        intro t ht r h
        obtain ⟨x, hx⟩ := Option.isSome_iff_exists.1 (List.all_eq_true.1 hall t ht)
        rw [hx] at h ⊢
        simp only [Option.getD_some] at h
        rw [h]
      rcases nodesLoop_spec (f := fun n => (test A inner s brk sd n).getD (.error .noTypes)) ns [] none (fun _ _ e => by cases e) with
        ⟨n, hn, c, hc, e⟩ | ⟨n, hn, x, hx, e⟩ | ⟨cs, e, hcs⟩ | ⟨n, x, e, hx⟩ | e <;> rw [e]
      · refine ⟨fun d b h => ?_, fun _ h => (by cases h)⟩
        cases h
        exact (test_traced hk hin hi hp hd (hns n hn).1 (hns n hn).2).1 _ (get n hn _ hc)
      · refine ⟨fun _ _ h => (by cases h), fun y h => ?_⟩
        cases h
        exact (test_traced hk hin hi hp hd (hns n hn).1 (hns n hn).2).2 _ (get n hn _ hx)
      · refine ⟨fun d b h => ?_, fun y h => ?_⟩
        · injection h with h
          refine hk.quiet s d hi hp (removes_quiet hi (fun c hc => ?_) h)
          obtain ⟨y, hy, rfl⟩ := List.mem_map.1 hc
          refine ⟨y.1, sd, y.2, rfl, ?_⟩
          rcases hcs y hy with h | h
          · cases h
          · exact (hns _ h).1
        · injection h with h
          exact .inl (applyAll_error h)
      · cases x with
        | depthLimit x => exact absurd rfl (hx x)
        | noTypes => exact ⟨fun _ _ h => (by cases h), fun _ h => by cases h; exact .inl (.inl rfl)⟩
        | ambiguous => exact ⟨fun _ _ h => (by cases h), fun _ h => by cases h; exact .inl (.inl rfl)⟩
        | reduce => exact ⟨fun _ _ h => (by cases h), fun _ h => by cases h; exact .inl (.inl rfl)⟩
      · refine ⟨fun _ _ h => ?_, fun _ h => (by cases h)⟩
        cases h; exact hp
    · exact ⟨fun _ _ h => (by cases h), fun _ h => (by cases h)⟩
  · rename_i hd
    refine ⟨fun _ _ h => (by cases h), fun e h => ?_⟩
    cases h
    exact .inr (.inr ⟨rfl, s, hp, ⟨hi, Later.refl _⟩, by omega⟩)

theorem inferExprs_traced (hw : A.Wf names) {ord : List Nat → List Nat} (hord : OrderOk ord) (hk : Kept A I P) (hin : InnerTraced A I P inner)
    (hi : Inv A s) (hp : P s) {r : Except Err (S T)} (h : inferExprs A ord inner s = some r) :
    Traced A I P (fun s' => s.depth < s'.depth) s r := by
  obtain ⟨h1, h2⟩ := inferNodes_traced hk hin hi hp (brk := id) (sd := .inp) (ns := ord (shallow A s)) fun n hn => shallow_spec hw (hord _ n hn)
  unfold inferExprs at h
  split at h
  · cases h
  · rename_i hx; cases h; exact h1 _ _ hx
  · cases h; exact .inl (.inl rfl)
  · rename_i hx; cases h; exact h2 _ hx

theorem noOuts_quiet (hi : Inv A s) (o : List Nat) (ho : o = s.outs ∨ o = []) : Quiet A s { s with outs := o } :=
  ⟨noOuts_grows hi o ho, rfl, .inl rfl, .still (noOuts_grows hi o ho) ⟨rfl, rfl, rfl, rfl, rfl, rfl⟩⟩

theorem inferOutputs_traced (hw : A.Wf names) {ord : List Nat → List Nat} (hord : OrderOk ord) (hk : Kept A I P) (hok : InnerOk A names inner)
    (hin : InnerTraced A I P inner) (hi : Inv A s) (hp : P s) {r : Except Err (S T)} (h : inferOutputs A ord inner s = some r) :
    Traced A I P (fun s' => s.depth < s'.depth) s r := by
  have hq := noOuts_quiet hi (if s.depth < 5 then [] else s.outs) (by split; exact .inr rfl; exact .inl rfl)
  have hp1 := hk.quiet _ _ hi hp hq
  have hfl := flagged_spec hw hi
  obtain ⟨h1, h2⟩ := inferNodes_traced hk hin hq.grows.inv hp1 (brk := A.parent) (sd := .out) hfl
  unfold inferOutputs at h
  split at h
  · cases h
  · rename_i hx; cases h; exact h1 _ _ hx
  · rename_i s1 hx
    obtain ⟨r1, _, _⟩ := inferNodes_stage hok hq.grows.inv hfl hx
    have r2 := hq.grows.trans r1
    have h3 := inferExprs_traced hw hord hk hin r1.inv (h1 _ _ hx) h
    cases r with
    | ok c => exact h3
    | error e => exact Source.grows r2 h3 fun s' _ hs => Nat.lt_of_le_of_lt r2.later.depth hs
  · have hq' := noOuts_quiet hi [] (.inr rfl)
    have h3 := inferExprs_traced hw hord hk hin hq'.grows.inv (hk.quiet _ _ hi hp hq') h
    cases r with
    | ok c => exact h3
    | error e => exact Source.grows hq'.grows h3 fun s' _ hs => hs
  · rename_i hx
    cases h
    exact Source.grows hq.grows (h2 _ hx) fun s' _ hs => hs

theorem blocksStage_traced (hw : A.Wf names) (hn : I.Named names) {ord : List Nat → List Nat} (hord : OrderOk ord) (hk : Kept A I P)
    (hok : InnerOk A names inner) (hin : InnerTraced A I P inner) (hi : Inv A s) (hf : Fresh s) (hc : complete A s = []) (hp : P s)
    {brk : Nat} (hb : brk ∉ s.exprs) {r : Except Err (S T)} (h : blocksStage A I ord inner s = some r) :
    Traced A I P (Open s brk) s r := by
  obtain ⟨b1, b2⟩ := blocks_stage hw hn hi hf
  unfold blocksStage at h
  split at h
  · rename_i e h1
    cases h
    rcases blocks_stop h1 with h | ⟨rfl, _⟩
    · exact .inl h
    · exact .inr (.inl ⟨rfl, s, hp, ⟨hi, Later.refl _⟩, hf, hc, h1, .inl hb⟩)
  · rename_i h1
    cases h
    exact hk.blocks _ _ hi hf hp (.inl h1)
  · rename_i s1 e h1
    obtain ⟨r1, _⟩ := b2 _ _ h1
    have hp1 : P s1 := hk.blocks _ _ hi hf hp (.inr ⟨_, h1⟩)
    have nq : ∀ {s2 b}, narrow A I s1 = .ok (s2, b) → Quiet A s1 s2 := by
      intro s2 b h2
      unfold narrow at h2
      split at h2
      · cases h2
      · refine removes_quiet r1.inv (fun c hc => ?_) h2
        obtain ⟨op, ho, hc⟩ := List.mem_flatMap.1 hc
        obtain ⟨t, _, rfl⟩ := List.mem_map.1 hc
        exact ⟨op, .inp, t, rfl, hw.ops_lt _ (narrowable_op ho)⟩
    split at h
    · rename_i h2
      cases h
      exact hk.quiet _ _ r1.inv hp1 (nq h2)
    · rename_i s2 h2
      have hq := nq h2
      have h3 := inferOutputs_traced hw hord hk hok hin hq.grows.inv (hk.quiet _ _ r1.inv hp1 hq) h
      cases r with
      | ok c => exact h3
      | error e =>
        have hg := r1.trans hq.grows
        exact Source.grows hg h3 fun s' _ hs => .inr (Nat.lt_of_le_of_lt hg.later.depth hs)
    · rename_i e h2
      cases h
      unfold narrow at h2
      split at h2
      · cases h2; exact .inl (.inr (.inr rfl))
      · exact .inl (applyAll_error h2)

end

theorem compile_traced {A : Ast T} {I : Builtins T} {names : List String} {P : S T → Prop} (hw : A.Wf names) (hn : I.Named names)
    {ord : List Nat → List Nat} (hord : OrderOk ord) (hk : Kept A I P) : ∀ f, InnerTraced A I P (compile A I ord f)
  | 0 => fun _ _ _ _ _ h => by cases h
  | f + 1 => fun brk s r hi hp h => by
    have ih := compile_traced hw hn hord hk f
    have hok := compile_ok hw hn hord f
    unfold compile at h
    split at h
    · cases h; exact hp
    · rename_i hb
      obtain ⟨x, hx, e⟩ := prep (I := I) hw hi
      rw [e] at h
      cases hx with
      | stop hpl => cases h; exact .inl hpl
      | next h1 h2 h3 h3k =>
        have hp1 := hk.quiet _ _ hi hp ⟨h1, h3.1, .inl h3.2, h3k⟩
        have h4 := ih brk _ r h1.inv hp1 h
        cases r with
        | ok c => exact h4
        | error e => exact Source.grows h1 h4 fun s' _ hs => hs.imp_right fun h => Nat.lt_of_le_of_lt h1.later.depth h
      | @go s1 hpr =>
        have hp1 := hk.quiet _ _ hi hp ⟨hpr.grows, hpr.steps, .inl hpr.depth, hpr.kin⟩
        have hg := hpr.grows
        dsimp only at h
        cases hbs : blocksStage A I ord (compile A I ord f) s1 with
        | none => rw [hbs] at h; cases h
        | some y =>
          have h4 := blocksStage_traced hw hn hord hk hok ih hg.inv hpr.fresh hpr.none hp1 (brk := brk) (by rw [hpr.exprs]; exact hb) hbs
          rw [hbs] at h
          cases y with
          | error e =>
            cases h
            exact Source.grows hg h4 fun s' _ hs => hs.imp_right fun h => Nat.lt_of_le_of_lt hg.later.depth h
          | ok s2 =>
            have h5 := (blocksStage_ok hw hn hord hok hg.inv hpr.fresh hbs).1
            have hg2 := hg.trans h5
            have h6 := ih brk s2 r hg2.inv h4 h
            cases r with
            | ok c => exact h6
            | error e => exact Source.grows hg2 h6 fun s' _ hs => hs.imp_right fun h => Nat.lt_of_le_of_lt hg2.later.depth h

/-! ### Depth -/

theorem depth_kept (A : Ast T) (I : Builtins T) : Kept A I (fun s => s.depth ≤ 5) where
  quiet s s' _ hp hq := by rcases hq.depth with h | ⟨h, h'⟩ <;> omega
  blocks s s' _ _ hp h := by have := (blocks_steps h).2.1; omega

/-! ### Steps -/

/-- Definitions stay connected. -/
structure Called (A : Ast T) (s : S T) : Prop where
  calls : ∀ op ∈ A.ops, ∀ k d, (k, Cmd.defn d) ∈ A.cmds op → ⟨d, A.body d, .ii⟩ ∈ s.tg.edges ∧ Entered s.tg op d k

theorem Called.later {A : Ast T} {s s' : S T} (h : Called A s) (hl : Later s s') : Called A s' := by
  refine ⟨fun op ho k d hd => ?_⟩
  obtain ⟨h1, h2⟩ := h.calls op ho k d hd
  refine ⟨hl.edges.mem h1, ?_⟩
  cases k with
  | none => exact hl.edges.mem h2
  | some t => exact hl.keeps _ _ _ h2

theorem Within.later {s c c' : S T} (hl : Later c c') (h : Within s c) : Within s c' :=
  ⟨fun x hx => hl.steps x (h.1 x hx), fun x hx => hl.exprs x (h.2.1 x hx), fun n sd v hv => hl.keeps n sd v (h.2.2 n sd v hv)⟩

theorem StepOk.later {A : Ast T} {I : Builtins T} {s s' : S T} (hl : Later s s') {op : Nat} {t u : T} (h : StepOk A I s op t u) :
    StepOk A I s' op t u := by
  rcases h with ⟨i, h1, s0, anon, h2, h3⟩ | ⟨d, h1, h2, h3⟩
  · exact .inl ⟨i, h1, s0, anon, h2.later hl, h3⟩
  · exact .inr ⟨d, h1, hl.exprs _ h2, h3.mono hl.steps⟩

theorem settled_eq {k : Ty.Kn T} {t u : T} (h : Ty.Settled k t) (h' : Ty.Settled k u) : t = u := by
  have h1 := ty_of_settled h
  rw [ty_of_settled h'] at h1
  injection h1 with h1; exact h1.symm

/-- A block that is compiled now is what its implementation does. -/
theorem compileBlock_step {A : Ast T} {I : Builtins T} {names : List String} (hw : A.Wf names) {s : S T} (hi : Inv A s) (hf : Fresh s)
    (hc : Called A s) {op : Nat} {t u : T} (ho : op ∈ A.ops) (ht : (s.tg.kn op .inp).ty = some t)
    (h : (compileBlock A I s op t).res = .ok u) : StepOk A I s op t u := by
  unfold compileBlock at h
  split at h
  · cases h
  · rename_i i hg
    exact .inl ⟨i, getImpl_chosen hg, runBuiltin_accepted hi.tg.any hf h⟩
  · rename_i d hg
    refine .inr ⟨d, getImpl_chosen hg, ?_⟩
    unfold runDef at h
    split at h
    · rename_i hb
      refine ⟨hb, ?_⟩
      split at h
      · cases h
      · split at h
        · cases h
        · rename_i v hv
          injection h with h
          subst h
          obtain ⟨_, a, o, h1, h2, h3⟩ := hi.exprs _ hb
          have e1 : o = v := settled_eq h2 (settled_of_ty hf hv)
          have hin : Ty.Settled (s.tg.kn d .inp) t := by
            rcases (getImpl_chosen hg).key with hm | hm
            · exact (hc.calls op ho _ d hm).2
            · exact fresh_edge hi hf (hc.calls op ho _ d hm).2 (fun hl => hw.lit_op _ hl ho) (settled_of_ty hf ht)
          obtain ⟨k, hm⟩ := getImpl_mem hg
          have hbody : Ty.Settled (s.tg.kn (A.body d) .inp) t :=
            fresh_edge hi hf (hc.calls op ho _ d hm).1 (hw.lit_def d (def_mem ho hm).1) hin
          have e2 : a = t := settled_eq h1 hbody
          rw [← e1, ← e2]; exact h3
    · cases h

theorem steps_kept {A : Ast T} {I : Builtins T} {names : List String} (hw : A.Wf names) (hn : I.Named names) :
    Kept A I (fun s => Called A s ∧ ∀ x ∈ s.steps, StepOk A I s x.1 x.2.1 x.2.2) where
  quiet s s' _ hp hq := ⟨hp.1.later hq.grows.later, fun x hx => by
    rw [hq.steps] at hx; exact (hp.2 x hx).later hq.grows.later⟩
  blocks s s' hi hf hp h := by
    have hg : Grows A s s' := by
      rcases h with h | ⟨e, h⟩
      · exact ((blocks_stage hw hn hi hf).1 _ h).1
      · exact ((blocks_stage hw hn hi hf).2 _ _ h).1
    refine ⟨hp.1.later hg.later, fun x hx => ?_⟩
    rcases (blocks_steps h).2.2 x hx with h | ⟨h1, h2⟩
    · exact (hp.2 x h).later hg.later
    · obtain ⟨h3, _, h4⟩ := mem_candidates.1 h1
      exact (compileBlock_step hw hi hf hp.1 h3 h4 h2).later hg.later

end Verif.Comp
