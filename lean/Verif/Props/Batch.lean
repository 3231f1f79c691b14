import Verif.Lemmas.BatchSeq
/-! C39, C40: batch processing over every schedule. -/
namespace Verif.Batch
variable {Item D E : Type}

/-- C39: without fail-fast, whatever the schedule and whatever is cancelled, a finished batch
reports for every item the outcome of actually processing it. -/
theorem no_fail_fast_processes_everything (c : Cfg Item D E) (d0 : D) (as : List Act) (s : St D E)
    (hff : c.failFast = false) (hr : run c (init d0) as = some s) (hfin : Finished s) :
    results c s = c.items.mapIdx (fun i it => trueOutcome c d0 i it) := by
  have I := inv_run as (inv_init c d0) hr
  obtain ⟨b, hb⟩ := Option.isSome_iff_exists.1 hfin
  obtain ⟨_, _, hdo, hex⟩ := I.fin b hb
  have hds : s.dstop = false := by
    cases h : s.dstop
    · rfl
    · have := (I.dstop h).1; simp [hff] at this
  rw [defsOver_iff] at hdo
  rw [exprsOver_iff] at hex
  apply List.ext_getElem?
  intro i
  simp only [results, List.getElem?_map, List.getElem?_mapIdx]
  by_cases hlt : i < c.items.length
  · rw [List.getElem?_range hlt, List.getElem?_eq_getElem hlt]
    simp only [Option.map_some, Option.some.injEq]
    have hi := List.getElem?_eq_getElem hlt
    have hph : s.phase i = .done (trueOutcome c d0 i c.items[i]) := by
      cases hd : c.isDef i
      · have he := not_def_expr c hi hd
        obtain ⟨o, ho⟩ := hex i he
        rcases (I.exprOut i _ hi he).2 o ho with h | h | h
        · rw [ho, h]
        · subst h; have := (I.canc i ho).1; simp [hff] at this
        · subst h; have := (I.outs i ho).1; simp [hff] at this
      · rcases hdo with h | h
        · simp [hds] at h
        · obtain ⟨o, ho⟩ := h i hd
          obtain ⟨k, _, _, hlo, hhi⟩ := I.defs
          rcases Nat.lt_or_ge i k with h | h
          · rcases hlo i _ hi hd h with h | h
            · rw [ho] at h; cases h
            · exact h
          · rcases hhi i hd h with h | h | h <;> rw [ho] at h <;> cases h
    have hp := trueOutcome_processed c d0 i c.items[i]
    simp only [resultAt, hph]
    rcases hp with h | ⟨e, h⟩ <;> rw [h] 
  · simp [Nat.le_of_not_lt hlt]

/-- C39: every reported outcome is either the true one or "not processed"; the latter happens only
with fail-fast, and `Outstanding` only if some item really failed, `Cancelled` only if the batch was
cancelled. -/
theorem outcomes_sound (c : Cfg Item D E) (d0 : D) (as : List Act) (s : St D E)
    (hr : run c (init d0) as = some s) (hfin : Finished s) (i : Nat) (it : Item)
    (hi : c.items[i]? = some it) :
    (results c s)[i]? = some (trueOutcome c d0 i it) ∨
    ((results c s)[i]? = some .outstanding ∧ c.failFast = true ∧
      ∃ j e jt, c.items[j]? = some jt ∧ trueOutcome c d0 j jt = .failed e ∧
        (results c s)[j]? = some (.failed e)) ∨
    ((results c s)[i]? = some .cancelled ∧ c.failFast = true ∧ s.cancelled = true) := by
  have I := inv_run as (inv_init c d0) hr
  obtain ⟨b, hb⟩ := Option.isSome_iff_exists.1 hfin
  obtain ⟨hbc, hbd, hdo, hex⟩ := I.fin b hb
  obtain ⟨hlt, hget⟩ := List.getElem?_eq_some_iff.1 hi
  have hres : ∀ j, j < c.items.length → (results c s)[j]? = some (resultAt s j) := by
    intro j hj
    simp [results, List.getElem?_map, List.getElem?_range hj]
  have htrue := I.doneTrue
  have hfail : s.failure = true → ∃ j e jt, c.items[j]? = some jt ∧ trueOutcome c d0 j jt = .failed e ∧
        (results c s)[j]? = some (.failed e) := by
    intro hf
    obtain ⟨j, e, hj, hje⟩ := I.failSrc hf
    have hjg := List.getElem?_eq_getElem hj
    refine ⟨j, e, _, hjg, (htrue j _ _ hjg hje (by simp) (by simp)).symm, ?_⟩
    rw [hres j hj]
    simp [resultAt, hje]
  rw [hres i hlt]
  have hcases := I.finalPhase hfin i it hi
  have hlast : c.failFast = true → (s.cancelled = true ∨ s.failure = true) → 
      (b = false → s.failure = true) → resultAt s i = (if b then .cancelled else .outstanding) →
      some (resultAt s i) = some (trueOutcome c d0 i it) ∨
      (some (resultAt s i) = some .outstanding ∧ c.failFast = true ∧
        ∃ j e jt, c.items[j]? = some jt ∧ trueOutcome c d0 j jt = .failed e ∧
          (results c s)[j]? = some (.failed e)) ∨
      (some (resultAt s i) = some .cancelled ∧ c.failFast = true ∧ s.cancelled = true) := by
    intro hff hcf hbf hra
    cases b
    · exact Or.inr (Or.inl ⟨by rw [hra]; rfl, hff, hfail (hbf rfl)⟩)
    · exact Or.inr (Or.inr ⟨by rw [hra]; rfl, hff, hbc rfl⟩)
  rcases hcases with ⟨o, ho⟩ | ⟨hidle, hds, hdef⟩
  · by_cases h1 : o = .cancelled
    · subst h1
      obtain ⟨hff, hc⟩ := I.canc i ho
      exact Or.inr (Or.inr ⟨by simp [resultAt, ho], hff, hc⟩)
    by_cases h2 : o = .outstanding
    · subst h2
      obtain ⟨hff, hc⟩ := I.outs i ho
      refine hlast hff (Or.inr hc) (fun _ => hc) ?_
      cases b <;> simp [resultAt, ho, hb]
    · have := htrue i it o hi ho h1 h2
      left
      rw [← this]
      cases o <;> simp_all [resultAt]
  · obtain ⟨hff, hcf⟩ := I.dstop hds
    refine hlast hff hcf (fun hbf => ?_) ?_
    · rcases hbd hds with h | h
      · rw [hbf] at h; cases h
      · exact h
    · cases b <;> simp [resultAt, hidle, hb]

/-- C39: at every moment of every schedule, an expression has been processed only after all the
definitions have been, and a definition only after those before it. -/
theorem definitions_first (c : Cfg Item D E) (d0 : D) (as : List Act) (s : St D E)
    (hr : run c (init d0) as = some s) (i j : Nat) (hi : Processed s i) (hj : c.isDef j = true)
    (hij : c.isExpr i = true ∨ c.isDef i = true ∧ j < i) : Processed s j := by
  have I := inv_run as (inv_init c d0) hr
  obtain ⟨o, hio, hpo⟩ := hi
  have hjdone : ∃ o, s.phase j = .done o := by
    rcases hij with he | ⟨hd, hlt⟩
    · have hov := I.exprStart i he (by rcases hio with h | h <;> simp [h])
      obtain ⟨hlt, hget⟩ := List.getElem?_eq_some_iff.1
        (List.getElem?_eq_getElem (isExpr_lt c he))
      have hnd := I.exprGo i _ (List.getElem?_eq_getElem hlt) he (by
        rcases hio with h | h
        · exact Or.inr (Or.inl ⟨o, h⟩)
        · refine Or.inr (Or.inr ⟨o, h, ?_⟩)
          rcases hpo with h | ⟨e, h⟩ <;> simp [h])
      rcases (defsOver_iff c s).1 hov with h | h
      · simp [hnd] at h
      · exact h j hj
    · exact I.defOrder i hd (by rcases hio with h | h <;> simp [h]) j hlt hj
  obtain ⟨o', ho'⟩ := hjdone
  have hjg := List.getElem?_eq_getElem (isDef_lt c hj)
  obtain ⟨k, _, _, hlo, hhi⟩ := I.defs
  rcases Nat.lt_or_ge j k with h | h
  · refine ⟨trueOutcome c d0 j _, hlo j _ hjg hj h, trueOutcome_processed c d0 j _⟩
  · rcases hhi j hj h with h | h | h <;> rw [ho'] at h <;> cases h

/-- C39/C40: with fail-fast, once a failure has been noted or the batch has been cancelled, no item
that has not been picked up yet is ever processed, in any continuation. -/
theorem fail_fast_starts_nothing_new (c : Cfg Item D E) (s s' : St D E) (as : List Act) (i : Nat)
    (hff : c.failFast = true) (hstop : s.cancelled = true ∨ s.failure = true)
    (hidle : s.phase i = .idle) (h : run c s as = some s') : ¬ Processed s' i := by
  have H : ∀ (as : List Act) (t : St D E), (t.cancelled = true ∨ t.failure = true) → Blocked t i →
      run c t as = some s' → Blocked s' i := by
    intro as
    induction as with
    | nil => intro t _ hb h; simp only [run, Option.some.injEq] at h; exact h ▸ hb
    | cons a as ih =>
      intro t hst hb h
      simp only [run, Option.bind_eq_some_iff] at h
      obtain ⟨u, hu, h⟩ := h
      obtain ⟨h1, h2⟩ := blocked_step c t u a i hff hst hb hu
      exact ih u h1 h2 h
  have hb := H as s hstop (Or.inl hidle) h
  rintro ⟨o, ho, hp⟩
  rcases hb with h | h | h | h | h <;> rcases ho with ho | ho <;> simp_all <;>
    rcases hp with hp | ⟨e, hp⟩ <;> simp_all

/-- C40, fail-fast batches: an item that had not been picked up when the batch was cancelled is
reported as cancelled. -/
theorem cancel_with_fail_fast_partial (c : Cfg Item D E) (bs : List Act)
    (s s' : St D E) (i : Nat) (hff : c.failFast = true)
    (hc : s.cancelled = true) (hnf : ¬ Finished s) (hi : i < c.items.length)
    (hidle : s.phase i = .idle)
    (h : run c s bs = some s') (hfin : Finished s') :
    ¬ Processed s' i ∧ (results c s')[i]? = some .cancelled := by
  have hnp := fail_fast_starts_nothing_new c s s' bs i hff (Or.inl hc) hidle h
  refine ⟨hnp, ?_⟩
  have hf := fin_read c bs s s' hc (Or.inl (by simpa [Finished] using hnf)) h
  have hf : s'.fin = some true := by
    rcases hf with hf | hf
    · simp [Finished, hf] at hfin
    · exact hf
  have H : ∀ o, s'.phase i = .done o → o = .cancelled ∨ o = .outstanding := by
    intro o ho
    cases o with
    | success => exact absurd ⟨_, Or.inr ho, Or.inl rfl⟩ hnp
    | failed e => exact absurd ⟨_, Or.inr ho, Or.inr ⟨e, rfl⟩⟩ hnp
    | cancelled => exact Or.inl rfl
    | outstanding => exact Or.inr rfl
  simp only [results, List.getElem?_map, List.getElem?_range hi, Option.map_some, resultAt, hf]
  cases hph : s'.phase i <;> simp
  rename_i o
  rcases H o hph with h | h <;> simp [h]

/-- C40 is false of the code: without fail-fast the cancel switch is not looked at. Whatever the
batch, cancelling it before the first item changes nothing: in every finished run every item has
been processed (and none is reported as cancelled). -/
theorem cancel_ignored_without_fail_fast (c : Cfg Item D E) (d0 : D) (as : List Act) (s : St D E)
    (hff : c.failFast = false)
    (hr : run c (init d0) (.cancel :: as) = some s) (hfin : Finished s) :
    s.cancelled = true ∧ results c s = c.items.mapIdx (fun i it => trueOutcome c d0 i it) := by
  refine ⟨?_, no_fail_fast_processes_everything c d0 _ s hff hr hfin⟩
  simp only [run, step, Option.bind_eq_some_iff] at hr
  obtain ⟨u, hu, h⟩ := hr
  refine cancelled_mono c as u s h ?_
  simp [init] at hu
  simp [← hu]

/-- C39: a sequential fail-fast batch that is not cancelled processes exactly the items up to and
including the first failure in processing order; the others are reported as outstanding. -/
theorem sequential_fail_fast (c : Cfg Item D E) (d0 : D) (as : List Act) (s : St D E)
    (hpar : c.parallelise = false) (hff : c.failFast = true)
    (hr : run c (init d0) as = some s) (hfin : Finished s) (hc : s.cancelled = false)
    (i : Nat) (it : Item) (hi : c.items[i]? = some it) :
    ((∃ j jt e, c.items[j]? = some jt ∧ Before c j i ∧ trueOutcome c d0 j jt = .failed e) →
      (results c s)[i]? = some .outstanding) ∧
    ((¬ ∃ j jt e, c.items[j]? = some jt ∧ Before c j i ∧ trueOutcome c d0 j jt = .failed e) →
      (results c s)[i]? = some (trueOutcome c d0 i it)) := by
  have I := inv_run as (inv_init c d0) hr
  have S := sinv_run c d0 hpar hff as (init d0) s (inv_init c d0)
    ⟨by simp [init], by simp [init], by simp [init], by simp [init]⟩ hr hc
  obtain ⟨b, hb⟩ := Option.isSome_iff_exists.1 hfin
  obtain ⟨hbc, _, _, _⟩ := I.fin b hb
  have hbf : s.fin = some false := by
    cases b
    · exact hb
    · simp [hbc rfl] at hc
  obtain ⟨hlt, _⟩ := List.getElem?_eq_some_iff.1 hi
  have hres : (results c s)[i]? = some (resultAt s i) := by
    simp [results, List.getElem?_map, List.getElem?_range hlt]
  have hncan : ∀ j, s.phase j ≠ .done .cancelled := by
    intro j h
    simp [(I.canc j h).2] at hc
  have hitem : ∀ j e, s.phase j = .done (.failed e) →
      ∃ jt, c.items[j]? = some jt ∧ trueOutcome c d0 j jt = .failed e := by
    intro j e hj
    have hjl : j < c.items.length := by
      apply Nat.lt_of_not_le
      intro hle
      rw [I.range j hle] at hj; cases hj
    exact ⟨_, List.getElem?_eq_getElem hjl,
      (I.doneTrue j _ _ (List.getElem?_eq_getElem hjl) hj (by simp) (by simp)).symm⟩
  rw [hres]
  rcases I.finalPhase hfin i it hi with ⟨o, ho⟩ | ⟨hidle, hds, hdef⟩
  · by_cases h2 : o = .outstanding
    · subst h2
      refine ⟨fun _ => by simp [resultAt, ho, hbf], fun hno => ?_⟩
      exfalso
      cases hd : c.isDef i
      · obtain ⟨j, e, hbj, hje⟩ := S.stp i (not_def_expr c hi hd) (Or.inr ho)
        obtain ⟨jt, h1, h2⟩ := hitem j e hje
        exact hno ⟨j, jt, e, h1, hbj, h2⟩
      · obtain ⟨k, _, _, hlo, hhi⟩ := I.defs
        rcases Nat.lt_or_ge i k with h | h
        · rcases hlo i _ hi hd h with h | h
          · rw [ho] at h; cases h
          · rcases trueOutcome_processed c d0 i it with h' | ⟨e, h'⟩ <;>
              rw [ho, h'] at h <;> cases h
        · rcases hhi i hd h with h | h | h <;> rw [ho] at h <;> cases h
    · have h1 : o ≠ .cancelled := fun h => hncan i (h ▸ ho)
      have ht := I.doneTrue i it o hi ho h1 h2
      refine ⟨?_, fun _ => ?_⟩
      · rintro ⟨j, jt, e, hj, hbj, hje⟩
        have hjs := S.go i (Or.inr (Or.inr ⟨o, ho, h1, h2⟩)) j hbj
        have := I.doneTrue j jt _ hj hjs (by simp) (by simp)
        rw [hje] at this; cases this
      · rw [← ht]; cases o <;> simp_all [resultAt]
  · refine ⟨fun _ => by simp [resultAt, hidle, hbf], fun hno => ?_⟩
    obtain ⟨j, e, hbj, hje⟩ := S.dst hds i hdef hidle
    obtain ⟨jt, h1, h2⟩ := hitem j e hje
    exact absurd ⟨j, jt, e, h1, hbj, h2⟩ hno

/-- C39: no schedule is longer than four steps per item plus two. -/
theorem schedules_bounded (c : Cfg Item D E) (d0 : D) (as : List Act) (s : St D E)
    (hr : run c (init d0) as = some s) : as.length ≤ 4 * c.items.length + 2 := by
  have H : ∀ (as : List Act) (s s' : St D E), Inv c d0 s → run c s as = some s' →
      as.length + measureSt c s' ≤ measureSt c s := by
    intro as
    induction as with
    | nil => intro s s' _ h; simp only [run, Option.some.injEq] at h; simp [h]
    | cons a as ih =>
      intro s s' I h
      simp only [run, Option.bind_eq_some_iff] at h
      obtain ⟨u, hu, h⟩ := h
      have h1 := ih u s' (inv_step I hu) h
      have h2 : measureSt c u < measureSt c s := by
        cases a with
        | cancel =>
          simp only [step] at hu
          split at hu
          · cases hu
          · rename_i hc
            simp only [Option.some.injEq] at hu; subst hu
            simp only [measureSt, hc]
            have : weight c { s with cancelled := true } = weight c s := by
              funext j; simp [weight]
            rw [this]; simp
        | finish =>
          simp only [step] at hu
          split at hu
          · rename_i hg
            simp only [Bool.and_eq_true] at hg
            simp only [Option.some.injEq] at hu; subst hu
            simp only [measureSt, hg.1.1]
            have : weight c { s with fin := some s.cancelled } = weight c s := by
              funext j; simp [weight]
            rw [this]; simp
          · cases hu
        | work i =>
          simp only [step] at hu
          split at hu
          · cases hu
          · exact work_decreases c d0 s u I i hu
      simp only [List.length_cons]; omega
  have := H as (init d0) s (inv_init c d0) hr
  have h0 : measureSt c (init d0) = 4 * c.items.length + 2 := by
    have : (List.range c.items.length).map (weight c (init d0 : St D E)) =
        List.replicate c.items.length 4 := by
      apply List.ext_getElem <;> simp [weight, init, rank]
    simp only [measureSt, this]; simp [init]; omega
  omega

/-- C39: a batch that has not returned can always make progress without being cancelled. -/
theorem never_stuck (c : Cfg Item D E) (d0 : D) (as : List Act) (s : St D E)
    (hr : run c (init d0) as = some s) (hnf : ¬ Finished s) :
    ∃ a s', a ≠ .cancel ∧ step c s a = some s' := by
  have I := inv_run as (inv_init c d0) hr
  have hfin : s.fin = none := by simpa [Finished] using hnf
  -- any item in flight can move
  have hmove : ∀ i, i < c.items.length → s.phase i ≠ .idle → (∀ o, s.phase i ≠ .done o) →
      ∃ s', work c s i = some s' := by
    intro i hi h1 h2
    have hg := List.getElem?_eq_getElem hi
    cases hph : s.phase i with
    | idle => exact absurd hph h1
    | done o => exact absurd hph (h2 o)
    | chk => simp only [work, hg, hph]; split <;> exact ⟨_, rfl⟩
    | running => simp only [work, hg, hph]; split <;> exact ⟨_, rfl⟩
    | stopping => simp only [work, hg, hph]; exact ⟨_, rfl⟩
    | ran o => simp only [work, hg, hph]; exact ⟨_, rfl⟩
  have hstart : ∀ i, i < c.items.length → s.phase i = .idle → canStart c s i = true →
      ∃ s', work c s i = some s' := by
    intro i hi h1 h2
    have hg := List.getElem?_eq_getElem hi
    simp only [work, hg, h1, h2, if_true]
    split
    · split <;> exact ⟨_, rfl⟩
    · exact ⟨_, rfl⟩
  have hwork : ∀ i s', work c s i = some s' → ∃ a s', a ≠ Act.cancel ∧ step c s a = some s' := by
    intro i s' h
    exact ⟨.work i, s', by simp, by simp [step, hfin, h]⟩
  -- the least item of a kind that is not done
  have least : ∀ (p : Nat → Bool) (n : Nat), (¬ ∀ j, j < n → p j = true → ∃ o, s.phase j = .done o) →
      ∃ i, i < n ∧ p i = true ∧ (∀ o, s.phase i ≠ .done o) ∧
        ∀ j, j < i → p j = true → ∃ o, s.phase j = .done o := by
    intro p n
    induction n with
    | zero => intro h; exact absurd (fun j hj => absurd hj (Nat.not_lt_zero j)) h
    | succ n ih =>
      intro h
      by_cases hn : ∀ j, j < n → p j = true → ∃ o, s.phase j = .done o
      · refine ⟨n, by omega, ?_, ?_, hn⟩
        · cases hp : p n
          · exact absurd (fun j hj hpj => by
              by_cases hjn : j = n
              · subst hjn; simp [hp] at hpj
              · exact hn j (by omega) hpj) h
          · rfl
        · intro o ho
          refine h (fun j hj hpj => ?_)
          by_cases hjn : j = n
          · subst hjn; exact ⟨o, ho⟩
          · exact hn j (by omega) hpj
      · obtain ⟨i, hi, h1, h2, h3⟩ := ih hn
        exact ⟨i, by omega, h1, h2, h3⟩
  by_cases hover : defsOver c s = true
  · by_cases hex : allDone s c.isExpr c.items.length = true
    · exact ⟨.finish, { s with fin := some s.cancelled }, by simp, by simp [step, hfin, hover, hex]⟩
    · rw [allDone_iff] at hex
      obtain ⟨i, hi, hp, hnd, hprev⟩ := least c.isExpr c.items.length hex
      by_cases hid : s.phase i = .idle
      · obtain ⟨s', h⟩ := hstart i hi hid (by
          simp only [canStart, expr_not_def c hp, Bool.false_eq_true, if_false, hover, Bool.true_and,
            Bool.or_eq_true, allDone_iff]
          exact Or.inr hprev)
        exact hwork i s' h
      · obtain ⟨s', h⟩ := hmove i hi hid hnd
        exact hwork i s' h
  · have hover' := hover
    simp only [defsOver, Bool.or_eq_true, not_or, allDone_iff] at hover
    obtain ⟨i, hi, hp, hnd, hprev⟩ := least c.isDef c.items.length hover.2
    by_cases hid : s.phase i = .idle
    · obtain ⟨s', h⟩ := hstart i hi hid (by
        simp only [canStart, hp, if_true, Bool.and_eq_true, Bool.not_eq_true', allDone_iff]
        exact ⟨by simpa using hover.1, hprev⟩)
      exact hwork i s' h
    · obtain ⟨s', h⟩ := hmove i hi hid hnd
      exact hwork i s' h

/-! Non-vacuity: a batch of one definition and two expressions, the first failing. -/

/-- A toy language: a definition adds its number to the definitions, an expression fails iff its
number is not defined. -/
def demo (par ff : Bool) : Cfg Nat (List Nat) String where
  items := [107, 1, 7]
  kind := fun n => if n ≥ 100 then .impl else .expr
  parallelise := par
  failFast := ff
  procDef := fun d n => ((n - 100) :: d, none)
  procExpr := fun d n => if n ∈ d then none else some "undefined"

example : (run (demo true false) (init []) [.cancel, .work 0, .work 0, .work 0, .work 2, .work 1,
    .work 1, .work 1, .work 2, .work 2, .finish]).map (results (demo true false)) =
    some [.success, .failed "undefined", .success] := by decide

example : (run (demo true true) (init []) [.work 0, .work 0, .work 0, .work 0, .work 1, .work 1,
    .work 1, .work 1, .work 2, .work 2, .work 2, .finish]).map (results (demo true true)) =
    some [.success, .failed "undefined", .outstanding] := by decide

example : (run (demo false true) (init []) [.work 0, .work 0, .work 0, .work 0, .cancel, .work 1,
    .work 1, .work 2, .work 2, .finish]).map (results (demo false true)) =
    some [.success, .cancelled, .cancelled] := by decide

end Verif.Batch
