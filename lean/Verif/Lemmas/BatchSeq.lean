import Verif.Lemmas.Batch
namespace Verif.Batch
variable {Item D E : Type}

theorem Inv.doneTrue {c : Cfg Item D E} {d0 : D} {s : St D E} (I : Inv c d0 s) (j : Nat) (jt : Item)
    (o : Outcome E) (hj : c.items[j]? = some jt) (ho : s.phase j = .done o) (h1 : o ≠ .cancelled)
    (h2 : o ≠ .outstanding) : o = trueOutcome c d0 j jt := by
  cases hd : c.isDef j
  · have he := not_def_expr c hj hd
    rcases (I.exprOut j _ hj he).2 o ho with h | h | h
    · exact h
    · exact absurd h h1
    · exact absurd h h2
  · obtain ⟨k, _, _, hlo, hhi⟩ := I.defs
    rcases Nat.lt_or_ge j k with h | h
    · rcases hlo j _ hj hd h with h | h
      · rw [ho] at h; cases h
      · rw [ho] at h; cases h; rfl
    · rcases hhi j hd h with h | h | h <;> rw [ho] at h <;> cases h

theorem Inv.finalPhase {c : Cfg Item D E} {d0 : D} {s : St D E} (I : Inv c d0 s) (hfin : Finished s)
    (i : Nat) (it : Item) (hi : c.items[i]? = some it) :
    (∃ o, s.phase i = .done o) ∨ (s.phase i = .idle ∧ s.dstop = true ∧ c.isDef i = true) := by
  obtain ⟨b, hb⟩ := Option.isSome_iff_exists.1 hfin
  obtain ⟨_, _, hdo, hex⟩ := I.fin b hb
  cases hd : c.isDef i
  · exact Or.inl ((exprsOver_iff c s).1 hex i (not_def_expr c hi hd))
  · rcases (defsOver_iff c s).1 hdo with h | h
    · rcases I.defFlight h i hd with h' | h'
      · exact Or.inr ⟨h', h, rfl⟩
      · exact Or.inl h'
    · exact Or.inl (h i hd)

/-- An item the batch will not process any more (with fail-fast). -/
def Blocked (s : St D E) (i : Nat) : Prop :=
  s.phase i = .idle ∨ s.phase i = .stopping ∨ s.phase i = .done .cancelled ∨
    s.phase i = .done .outstanding ∨ (s.phase i = .chk ∧ s.failure = true)

theorem blocked_step (c : Cfg Item D E) (s s' : St D E) (a : Act) (i : Nat)
    (hff : c.failFast = true) (hstop : s.cancelled = true ∨ s.failure = true)
    (hb : Blocked s i) (h : step c s a = some s') :
    (s'.cancelled = true ∨ s'.failure = true) ∧ Blocked s' i := by
  cases a with
  | cancel =>
    simp only [step] at h
    split at h
    · cases h
    · simp only [Option.some.injEq] at h; subst h
      exact ⟨Or.inl rfl, hb⟩
  | finish =>
    simp only [step] at h
    split at h
    · simp only [Option.some.injEq] at h; subst h
      exact ⟨hstop, hb⟩
    · cases h
  | work j =>
    simp only [step] at h
    split at h
    · cases h
    unfold work at h
    split at h
    · cases h
    have key : ∀ t : St D E, t.cancelled = s.cancelled → (s.failure = true → t.failure = true) →
        (t.phase i = s.phase i ∨ Blocked t i) →
        (t.cancelled = true ∨ t.failure = true) ∧ Blocked t i := by
      intro t h1 h2 h3
      refine ⟨?_, ?_⟩
      · rcases hstop with h | h
        · exact Or.inl (h1 ▸ h)
        · exact Or.inr (h2 h)
      · rcases h3 with h3 | h3
        · rcases hb with h | h | h | h | h
          · exact Or.inl (by rw [h3, h])
          · exact Or.inr (Or.inl (by rw [h3, h]))
          · exact Or.inr (Or.inr (Or.inl (by rw [h3, h])))
          · exact Or.inr (Or.inr (Or.inr (Or.inl (by rw [h3, h]))))
          · exact Or.inr (Or.inr (Or.inr (Or.inr ⟨by rw [h3, h.1], h2 h.2⟩)))
        · exact h3
    have hne : ∀ p, j ≠ i → upd s.phase j p i = s.phase i := fun p h => upd_other _ _ (Ne.symm h)
    by_cases hji : j = i
    · subst hji
      split at h <;> rename_i hph
      · split at h
        · split at h
          · simp only [Option.some.injEq] at h; subst h
            unfold onStop
            split
            · exact key _ rfl id (Or.inr (Or.inl (by simp)))
            · exact key _ rfl id (Or.inr (Or.inr (Or.inl (by simp))))
          · rename_i hc
            simp only [Option.some.injEq] at h; subst h
            exact key _ rfl id (Or.inr (Or.inr (Or.inr (Or.inr (Or.inr ⟨by simp, by
              rcases hstop with h | h
              · simp [h] at hc
              · exact h⟩)))))
        · cases h
      · split at h
        · simp only [Option.some.injEq] at h; subst h
          unfold onStop
          split
          · exact key _ rfl id (Or.inr (Or.inl (by simp)))
          · exact key _ rfl id (Or.inr (Or.inr (Or.inl (by simp))))
        · rename_i hf
          rcases hb with h | h | h | h | h <;> simp_all
      · simp only [Option.some.injEq] at h; subst h
        refine key _ rfl id (Or.inr ?_)
        cases hc : s.cancelled
        · exact Or.inr (Or.inr (Or.inr (Or.inl (by simp))))
        · exact Or.inr (Or.inr (Or.inl (by simp)))
      · rcases hb with h | h | h | h | h <;> simp_all
      · rcases hb with h | h | h | h | h <;> simp_all
      · cases h
    · have hst : ∀ t, t = onStop c s j → (t.cancelled = true ∨ t.failure = true) ∧ Blocked t i := by
        rintro t rfl
        unfold onStop
        split
        · exact key _ rfl id (Or.inl (hne _ hji))
        · exact key _ rfl id (Or.inl (hne _ hji))
      split at h
      · split at h
        · split at h <;> simp only [Option.some.injEq] at h
          · exact hst _ h.symm
          · subst h; exact key _ rfl id (Or.inl (hne _ hji))
        · cases h
      · split at h <;> simp only [Option.some.injEq] at h
        · exact hst _ h.symm
        · subst h; exact key _ rfl id (Or.inl (hne _ hji))
      · simp only [Option.some.injEq] at h; subst h
        exact key _ rfl id (Or.inl (hne _ hji))
      · split at h <;> simp only [Option.some.injEq] at h <;> subst h
        · exact key _ rfl id (Or.inl (hne _ hji))
        · exact key _ rfl id (Or.inl (hne _ hji))
      · simp only [Option.some.injEq] at h; subst h
        exact key _ rfl (fun h => by simp [h]) (Or.inl (hne _ hji))
      · cases h

/-- Cancellation, once requested, is never withdrawn. -/
theorem cancelled_mono (c : Cfg Item D E) (as : List Act) :
    ∀ s s' : St D E, run c s as = some s' → s.cancelled = true → s'.cancelled = true := by
  induction as with
  | nil => intro s s' h hc; simp only [run, Option.some.injEq] at h; exact h ▸ hc
  | cons a as ih =>
    intro s s' h hc
    simp only [run, Option.bind_eq_some_iff] at h
    obtain ⟨u, hu, h⟩ := h
    refine ih u s' h ?_
    cases a with
    | cancel => simp [step, hc] at hu
    | finish => grind [step]
    | work j => grind [step, work, onStop]

theorem fin_read (c : Cfg Item D E) (as : List Act) :
    ∀ s s' : St D E, s.cancelled = true → (s.fin = none ∨ s.fin = some true) →
      run c s as = some s' → (s'.fin = none ∨ s'.fin = some true) := by
  induction as with
  | nil => intro s s' hc hf h; simp only [run, Option.some.injEq] at h; exact h ▸ hf
  | cons a as ih =>
    intro s s' hc hf h
    simp only [run, Option.bind_eq_some_iff] at h
    obtain ⟨u, hu, h⟩ := h
    refine ih u s' (cancelled_mono c [a] s u (by simp [run, hu]) hc) ?_ h
    cases a with
    | cancel => simp [step, hc] at hu
    | finish => grind [step]
    | work j => grind [step, work, onStop]

theorem work_cases (c : Cfg Item D E) (s s' : St D E) (i : Nat) (h : work c s i = some s') :
    ∃ it, c.items[i]? = some it ∧
    ((s.phase i = .idle ∧ canStart c s i = true ∧ c.failFast = true ∧ s.cancelled = true ∧
        s' = onStop c s i) ∨
     (s.phase i = .idle ∧ canStart c s i = true ∧ c.failFast = true ∧ s.cancelled = false ∧
        s' = { s with phase := upd s.phase i .chk }) ∨
     (s.phase i = .idle ∧ canStart c s i = true ∧ c.failFast = false ∧
        s' = { s with phase := upd s.phase i .running }) ∨
     (s.phase i = .chk ∧ s.failure = true ∧ s' = onStop c s i) ∨
     (s.phase i = .chk ∧ s.failure = false ∧ s' = { s with phase := upd s.phase i .running }) ∨
     (s.phase i = .stopping ∧ s' = { s with
        phase := upd s.phase i (.done (if s.cancelled then .cancelled else .outstanding)) }) ∨
     (s.phase i = .running ∧ c.isDef i = true ∧ s' = { s with
        defs := (c.procDef s.defs it).1
        phase := upd s.phase i (.ran (.ofResult (c.procDef s.defs it).2)) }) ∨
     (s.phase i = .running ∧ c.isDef i = false ∧ s' = { s with
        phase := upd s.phase i (.ran (.ofResult (c.procExpr s.defs it))) }) ∨
     (∃ o, s.phase i = .ran o ∧ s' = { s with
        failure := s.failure || o.isFailed, phase := upd s.phase i (.done o) })) := by
  unfold work at h
  split at h
  · cases h
  · rename_i it hi
    refine ⟨it, hi, ?_⟩
    split at h <;> rename_i hph
    · split at h
      · split at h
        · split at h <;> simp_all
        · simp_all
      · cases h
    · split at h <;> simp_all
    · simp_all
    · split at h <;> simp_all
    · simp_all
    · cases h

/-- Extra facts that hold when expressions are processed one at a time, with fail-fast and no
cancellation. -/
structure SInv (c : Cfg Item D E) (s : St D E) : Prop where
  q : ∀ i, c.isExpr i = true → s.phase i ≠ .idle → ∀ j, j < i → c.isExpr j = true →
    ∃ o, s.phase j = .done o
  go : ∀ i, (s.phase i = .running ∨ (∃ o, s.phase i = .ran o) ∨
      ∃ o, s.phase i = .done o ∧ o ≠ .cancelled ∧ o ≠ .outstanding) →
    ∀ j, Before c j i → s.phase j = .done .success
  stp : ∀ i, c.isExpr i = true → (s.phase i = .stopping ∨ s.phase i = .done .outstanding) →
    ∃ j e, Before c j i ∧ s.phase j = .done (.failed e)
  dst : s.dstop = true → ∀ i, c.isDef i = true → s.phase i = .idle →
    ∃ j e, Before c j i ∧ s.phase j = .done (.failed e)

theorem sinv_work (c : Cfg Item D E) (d0 : D) (s s' : St D E) (i : Nat)
    (hpar : c.parallelise = false) (hff : c.failFast = true) (hcan : s.cancelled = false)
    (hfin : s.fin = none)
    (I : Inv c d0 s) (S : SInv c s) (h : work c s i = some s') : SInv c s' := by
  obtain ⟨it, hi, hc⟩ := work_cases c s s' i h
  have hdone : ∀ j o, s.phase j = .done o → s.failure = false → o = .success := by
    intro j o hj hf
    cases o with
    | success => rfl
    | failed e => simp [I.failOn j e hj] at hf
    | cancelled => simp [(I.canc j hj).2] at hcan
    | outstanding => simp [(I.outs j hj).2] at hf
  have hexpr : c.isDef i = false → c.isExpr i = true := not_def_expr c hi
  have hne : ∀ j, c.isExpr j = true → c.isDef j = false := fun j => expr_not_def c
  have F1 : s.phase i = .chk → s.failure = false → ∀ j, Before c j i → s.phase j = .done .success := by
    intro hp hf j hb
    have : ∃ o, s.phase j = .done o := by
      rcases hb with ⟨h1, h2, h3⟩ | ⟨h1, h2⟩ | ⟨h1, h2, h3⟩
      · exact I.defOrder i h2 (by simp [hp]) j h3 h1
      · rcases (defsOver_iff c s).1 (I.exprStart i h2 (by simp [hp])) with h | h
        · have := I.exprChk i h2 hp h
          simp [hf] at this
        · exact h j h1
      · exact S.q i h2 (by simp [hp]) j h3 h1
    obtain ⟨o, ho⟩ := this
    rw [ho, hdone j o ho hf]
  have F2 : s.phase i = .chk → s.failure = true → c.isExpr i = true →
      ∃ j e, Before c j i ∧ s.phase j = .done (.failed e) := by
    intro hp hf he
    obtain ⟨j, e, hj, hje⟩ := I.failSrc hf
    refine ⟨j, e, ?_, hje⟩
    cases hd : c.isDef j
    · have hx := not_def_expr c (List.getElem?_eq_getElem hj) hd
      refine Or.inr (Or.inr ⟨hx, he, ?_⟩)
      rcases Nat.lt_trichotomy j i with h | h | h
      · exact h
      · rw [h, hp] at hje; cases hje
      · obtain ⟨o, ho⟩ := S.q j hx (by simp [hje]) i h he
        rw [hp] at ho; cases ho
    · exact Or.inr (Or.inl ⟨hd, he⟩)
  have F3 : s.phase i = .chk → s.failure = true → c.isDef i = true →
      ∀ l, c.isDef l = true → (l = i ∨ s.phase l = .idle) →
      ∃ j e, Before c j l ∧ s.phase j = .done (.failed e) := by
    intro hp hf he l hl hli
    obtain ⟨j, e, hj, hje⟩ := I.failSrc hf
    refine ⟨j, e, ?_, hje⟩
    have hil : i ≤ l := by
      rcases hli with h | h
      · omega
      · apply Nat.le_of_not_lt
        intro hlt
        obtain ⟨o, ho⟩ := I.defOrder i he (by simp [hp]) l hlt hl
        rw [h] at ho; cases ho
    have hdj : c.isDef j = true := by
      cases hd : c.isDef j
      · exfalso
        have hx := not_def_expr c (List.getElem?_eq_getElem hj) hd
        rcases (defsOver_iff c s).1 (I.exprStart j hx (by simp [hje])) with h | h
        · rcases I.defFlight h i he with h | ⟨o, h⟩ <;> rw [hp] at h <;> cases h
        · obtain ⟨o, ho⟩ := h i he
          rw [hp] at ho; cases ho
      · rfl
    refine Or.inl ⟨hdj, hl, ?_⟩
    rcases Nat.lt_trichotomy j i with h | h | h
    · omega
    · rw [h, hp] at hje; cases hje
    · obtain ⟨o, ho⟩ := I.defOrder j hdj (by simp [hje]) i h he
      rw [hp] at ho; cases ho
  have hstart : s.phase i = .idle → canStart c s i = true → c.isExpr i = true →
      ∀ j, j < i → c.isExpr j = true → ∃ o, s.phase j = .done o := by
    intro _ hcs he
    simp only [canStart, expr_not_def c he, Bool.false_eq_true, if_false, hpar, Bool.false_or,
      Bool.and_eq_true, allDone_iff] at hcs
    exact hcs.2
  have hstartd : s.phase i = .idle → canStart c s i = true → c.isDef i = true → s.dstop = false := by
    intro _ hcs he
    simp only [canStart, he, if_true, Bool.and_eq_true, Bool.not_eq_true'] at hcs
    exact hcs.1
  have hds : c.isDef i = true → s.dstop = true → s.phase i = .idle ∨ ∃ o, s.phase i = .done o :=
    fun h1 h2 => I.defFlight h2 i h1
  obtain ⟨sq, sg, ss, sd⟩ := S
  -- a generic step that only moves item `i`, which was not done, to phase `p`
  have G : ∀ (p : Phase E) (t : St D E), t.phase = upd s.phase i p → t.dstop = s.dstop →
      (∀ o, s.phase i ≠ .done o) →
      (s.dstop = true → c.isDef i = false) → p ≠ .idle →
      (s.phase i ≠ .idle ∨ (c.isExpr i = true →
        ∀ j, j < i → c.isExpr j = true → ∃ o, s.phase j = .done o)) →
      ((p = .running ∨ (∃ o, p = .ran o) ∨ ∃ o, p = .done o ∧ o ≠ .cancelled ∧ o ≠ .outstanding) →
        ∀ j, Before c j i → s.phase j = .done .success) →
      (c.isExpr i = true → (p = .stopping ∨ p = .done .outstanding) →
        ∃ j e, Before c j i ∧ s.phase j = .done (.failed e)) → SInv c t := by
    intro p t hp htd hnd hnd2 hidle h1 h2 h3
    refine ⟨?_, ?_, ?_, ?_⟩
    · rw [hp]
      intro l hl hne j hjl hj
      by_cases hji : j = i
      · subst hji
        have : l ≠ j := by omega
        rw [upd_other _ _ this] at hne
        obtain ⟨o, ho⟩ := sq l hl hne j hjl hj
        exact absurd ho (hnd o)
      · rw [upd_other _ _ hji]
        by_cases hli : l = i
        · subst hli
          rcases h1 with h1 | h1
          · exact sq l hl h1 j hjl hj
          · exact h1 hl j hjl hj
        · rw [upd_other _ _ hli] at hne
          exact sq l hl hne j hjl hj
    · rw [hp]
      intro l hl j hb
      by_cases hli : l = i
      · subst hli
        rw [upd_same] at hl
        have := h2 hl j hb
        have hjl : j ≠ l := by rintro rfl; exact hnd _ this
        rw [upd_other _ _ hjl]; exact this
      · rw [upd_other _ _ hli] at hl
        have := sg l hl j hb
        have hjl : j ≠ i := by rintro rfl; exact hnd _ this
        rw [upd_other _ _ hjl]; exact this
    · rw [hp]
      intro l hl hs
      by_cases hli : l = i
      · subst hli
        rw [upd_same] at hs
        obtain ⟨j, e, hb, hje⟩ := h3 hl hs
        have hjl : j ≠ l := by rintro rfl; exact hnd _ hje
        exact ⟨j, e, hb, by rw [upd_other _ _ hjl]; exact hje⟩
      · rw [upd_other _ _ hli] at hs
        obtain ⟨j, e, hb, hje⟩ := ss l hl hs
        have hjl : j ≠ i := by rintro rfl; exact hnd _ hje
        exact ⟨j, e, hb, by rw [upd_other _ _ hjl]; exact hje⟩
    · rw [hp, htd]
      intro hd l hl hs
      by_cases hli : l = i
      · subst hli; simp [hnd2 hd] at hl
      · rw [upd_other _ _ hli] at hs
        obtain ⟨j, e, hb, hje⟩ := sd hd l hl hs
        have hjl : j ≠ i := by rintro rfl; exact hnd _ hje
        exact ⟨j, e, hb, by rw [upd_other _ _ hjl]; exact hje⟩
  have hds' : (∀ o, s.phase i ≠ .done o) → s.phase i ≠ .idle → s.dstop = true → c.isDef i = false := by
    intro h1 h2 h3
    cases hd : c.isDef i
    · rfl
    · rcases hds hd h3 with h | ⟨o, h⟩
      · exact absurd h h2
      · exact absurd h (h1 o)
  have hds'' : s.phase i = .idle → canStart c s i = true → s.dstop = true → c.isDef i = false := by
    intro h1 h2 h3
    cases hd : c.isDef i
    · rfl
    · have := hstartd h1 h2 hd
      simp [h3] at this
  rcases hc with h | h | h | h | h | h | h | h | ⟨o, h⟩
  · simp [hcan] at h
  · obtain ⟨h1, h2, _, _, rfl⟩ := h
    exact G .chk _ rfl rfl (by simp [h1]) (hds'' h1 h2) (by simp) (Or.inr (hstart h1 h2))
      (by simp) (by simp)
  · simp [hff] at h
  · obtain ⟨h1, h2, rfl⟩ := h
    unfold onStop
    split
    · rename_i hd
      have hnd : s.dstop = false := by
        cases hds0 : s.dstop
        · rfl
        · rcases hds hd hds0 with h | ⟨o, h⟩ <;> rw [h1] at h <;> cases h
      have F3 := F3 h1 h2 hd
      refine ⟨?_, ?_, ?_, ?_⟩
      · intro l hl hne' j hjl hj
        have hdi := hne j hj
        have hli : l ≠ i := by rintro rfl; simp [hne _ hl] at hd
        have hji : j ≠ i := by rintro rfl; simp [hne _ hj] at hd
        simp only [upd_other _ _ hli, upd_other _ _ hji] at hne' ⊢
        exact sq l hl hne' j hjl hj
      · intro l hl j hb
        by_cases hli : l = i
        · subst hli; simp at hl
        · simp only [upd_other _ _ hli] at hl
          have := sg l hl j hb
          have hjl : j ≠ i := by rintro rfl; rw [h1] at this; cases this
          simp only [upd_other _ _ hjl]; exact this
      · intro l hl hs
        have hli : l ≠ i := by rintro rfl; simp [hne _ hl] at hd
        simp only [upd_other _ _ hli] at hs
        obtain ⟨j, e, hb, hje⟩ := ss l hl hs
        have hjl : j ≠ i := by rintro rfl; rw [h1] at hje; cases hje
        exact ⟨j, e, hb, by simp only [upd_other _ _ hjl]; exact hje⟩
      · intro _ l hl hs
        have hor : l = i ∨ s.phase l = .idle := by
          by_cases hli : l = i
          · exact Or.inl hli
          · simp only [upd_other _ _ hli] at hs
            exact Or.inr hs
        obtain ⟨j, e, hb, hje⟩ := F3 l hl hor
        have hjl : j ≠ i := by rintro rfl; rw [h1] at hje; cases hje
        exact ⟨j, e, hb, by simp only [upd_other _ _ hjl]; exact hje⟩
    · rename_i hd
      exact G .stopping _ rfl rfl (by simp [h1]) (hds' (by simp [h1]) (by simp [h1])) (by simp)
        (Or.inl (by simp [h1])) (by simp) (fun he _ => F2 h1 h2 he)
  · obtain ⟨h1, h2, rfl⟩ := h
    exact G .running _ rfl rfl (by simp [h1]) (hds' (by simp [h1]) (by simp [h1])) (by simp)
      (Or.inl (by simp [h1])) (fun _ => F1 h1 h2) (by simp)
  · obtain ⟨h1, rfl⟩ := h
    refine G (.done .outstanding) _ (by simp [hcan]) rfl (by simp [h1])
      (hds' (by simp [h1]) (by simp [h1])) (by simp)
      (Or.inl (by simp [h1])) (by simp) (fun he _ => ss i he (Or.inl h1))
  · obtain ⟨h1, h2, rfl⟩ := h
    exact G _ _ rfl rfl (by simp [h1]) (hds' (by simp [h1]) (by simp [h1])) (by simp)
      (Or.inl (by simp [h1])) (fun _ => sg i (Or.inl h1)) (by simp)
  · obtain ⟨h1, h2, rfl⟩ := h
    exact G _ _ rfl rfl (by simp [h1]) (hds' (by simp [h1]) (by simp [h1])) (by simp)
      (Or.inl (by simp [h1])) (fun _ => sg i (Or.inl h1)) (by simp)
  · obtain ⟨h1, rfl⟩ := h
    refine G (.done o) _ rfl rfl (by simp [h1]) (hds' (by simp [h1]) (by simp [h1])) (by simp)
      (Or.inl (by simp [h1])) (fun _ => sg i (Or.inr (Or.inl ⟨o, h1⟩))) ?_
    intro he hp
    rcases hp with hp | hp
    · cases hp
    · cases hp
      have := (I.exprOut i it hi he).1 _ h1
      rcases trueOutcome_processed c d0 i it with h | ⟨e, h⟩ <;> rw [h] at this <;> cases this

theorem cancelled_back (c : Cfg Item D E) (as : List Act) (s s' : St D E)
    (h : run c s as = some s') (hc : s'.cancelled = false) : s.cancelled = false := by
  cases hs : s.cancelled
  · rfl
  · simp [cancelled_mono c as s s' h hs] at hc

theorem sinv_run (c : Cfg Item D E) (d0 : D) (hpar : c.parallelise = false)
    (hff : c.failFast = true) (as : List Act) :
    ∀ s s' : St D E, Inv c d0 s → SInv c s → run c s as = some s' → s'.cancelled = false →
      SInv c s' := by
  induction as with
  | nil => intro s s' _ S h _; simp only [run, Option.some.injEq] at h; exact h ▸ S
  | cons a as ih =>
    intro s s' I S h hc
    have hcs := cancelled_back c _ s s' h hc
    simp only [run, Option.bind_eq_some_iff] at h
    obtain ⟨u, hu, h⟩ := h
    have hcu := cancelled_back c _ u s' h hc
    refine ih u s' (inv_step I hu) ?_ h hc
    cases a with
    | cancel => simp only [step, hcs] at hu; simp at hu; rw [← hu] at hcu; simp at hcu
    | finish =>
      simp only [step] at hu
      split at hu
      · simp only [Option.some.injEq] at hu; subst hu
        exact ⟨S.q, S.go, S.stp, S.dst⟩
      · cases hu
    | work i =>
      simp only [step] at hu
      split at hu
      · cases hu
      · rename_i hf
        exact sinv_work c d0 s u i hpar hff hcs (by simpa using hf) I S hu

/-! Termination: every schedule is finite and never gets stuck. -/

def rank : Phase E → Nat
  | .idle => 4
  | .chk => 3
  | .running => 2
  | .stopping => 1
  | .ran _ => 1
  | .done _ => 0

def weight (c : Cfg Item D E) (s : St D E) (i : Nat) : Nat :=
  if c.isDef i && s.dstop then 0 else rank (s.phase i)

def measureSt (c : Cfg Item D E) (s : St D E) : Nat :=
  ((List.range c.items.length).map (weight c s)).sum + (if s.fin.isNone then 1 else 0) +
    (if s.cancelled then 0 else 1)

theorem sum_lt (f g : Nat → Nat) (n i : Nat) (hi : i < n) (hlt : f i < g i)
    (hle : ∀ j, j < n → f j ≤ g j) :
    ((List.range n).map f).sum < ((List.range n).map g).sum := by
  induction n with
  | zero => omega
  | succ n ih =>
    simp only [List.range_succ, List.map_append, List.map_cons, List.map_nil, List.sum_append,
      List.sum_cons, List.sum_nil]
    have hn := hle n (by omega)
    by_cases h : i = n
    · subst h
      have : ((List.range i).map f).sum ≤ ((List.range i).map g).sum := by
        clear ih hi hlt hn
        induction i with
        | zero => simp
        | succ i ih2 =>
          simp only [List.range_succ, List.map_append, List.map_cons, List.map_nil,
            List.sum_append, List.sum_cons, List.sum_nil]
          have := hle i (by omega)
          have := ih2 (fun j hj => hle j (by omega))
          omega
      omega
    · have := ih (by omega) (fun j hj => hle j (by omega))
      omega

theorem work_decreases (c : Cfg Item D E) (d0 : D) (s s' : St D E) (I : Inv c d0 s) (i : Nat)
    (h : work c s i = some s') : measureSt c s' < measureSt c s := by
  obtain ⟨it, hi, hc⟩ := work_cases c s s' i h
  obtain ⟨hlt, _⟩ := List.getElem?_eq_some_iff.1 hi
  have hcs : s.phase i = .idle → canStart c s i = true → c.isDef i = true → s.dstop = false := by
    intro _ h2 h3
    simp only [canStart, h3, if_true, Bool.and_eq_true, Bool.not_eq_true'] at h2
    exact h2.1
  have hfl := I.defFlight
  have key : s'.fin = s.fin → s'.cancelled = s.cancelled → weight c s' i < weight c s i →
      (∀ j, j ≠ i → weight c s' j ≤ weight c s j) → measureSt c s' < measureSt c s := by
    intro h1 h2 h3 h4
    have := sum_lt (weight c s') (weight c s) c.items.length i hlt h3 (fun j _ => by
      by_cases hj : j = i
      · subst hj; omega
      · exact h4 j hj)
    simp only [measureSt, h1, h2]; omega
  have hfl' : s.phase i ≠ .idle → (∀ o, s.phase i ≠ .done o) → c.isDef i = true → s.dstop = false := by
    intro h1 h2 h3
    cases hd : s.dstop
    · rfl
    · rcases hfl hd i h3 with h | ⟨o, h⟩
      · exact absurd h h1
      · exact absurd h (h2 o)
  have hw : ∀ (t : St D E) p, t.phase = upd s.phase i p → t.dstop = s.dstop →
      ∀ j, j ≠ i → weight c t j ≤ weight c s j := by
    intro t p h1 h2 j hj
    simp [weight, h1, h2, upd_other _ _ hj]
  have hst : s' = onStop c s i → (c.isDef i = true → s.dstop = false) →
      (s.phase i = .idle ∨ s.phase i = .chk) → measureSt c s' < measureSt c s := by
    rintro rfl hnd hp
    refine key (by unfold onStop; split <;> rfl) (by unfold onStop; split <;> rfl) ?_ ?_
    · unfold onStop
      split
      · rename_i hd
        rcases hp with hp | hp <;> simp [weight, hd, hnd hd, hp, rank]
      · rename_i hd
        rcases hp with hp | hp <;> simp [weight, hd, hp, rank]
    · intro j hj
      unfold onStop
      split
      · simp only [weight, upd_other _ _ hj]
        split <;> split <;> simp_all
      · simp [weight, upd_other _ _ hj]
  rcases hc with h | h | h | h | h | h | h | h | ⟨o, h⟩
  · exact hst h.2.2.2.2 (hcs h.1 h.2.1) (Or.inl h.1)
  · obtain ⟨h1, h2, _, _, rfl⟩ := h
    refine key rfl rfl ?_ (hw _ _ rfl rfl)
    cases hd : c.isDef i <;> simp [weight, hd, h1, rank]
    simp [hcs h1 h2 hd]
  · obtain ⟨h1, h2, _, rfl⟩ := h
    refine key rfl rfl ?_ (hw _ _ rfl rfl)
    cases hd : c.isDef i <;> simp [weight, hd, h1, rank]
    simp [hcs h1 h2 hd]
  · exact hst h.2.2 (hfl' (by simp [h.1]) (by simp [h.1])) (Or.inr h.1)
  · obtain ⟨h1, h2, rfl⟩ := h
    refine key rfl rfl ?_ (hw _ _ rfl rfl)
    cases hd : c.isDef i <;> simp [weight, hd, h1, rank]
    simp [hfl' (by simp [h1]) (by simp [h1]) hd]
  · obtain ⟨h1, rfl⟩ := h
    refine key rfl rfl ?_ (hw _ _ rfl rfl)
    cases hd : c.isDef i <;> simp [weight, hd, h1, rank]
    simp [hfl' (by simp [h1]) (by simp [h1]) hd]
  · obtain ⟨h1, h2, rfl⟩ := h
    refine key rfl rfl ?_ (hw _ _ rfl rfl)
    simp [weight, h2, h1, rank]
    simp [hfl' (by simp [h1]) (by simp [h1]) h2]
  · obtain ⟨h1, h2, rfl⟩ := h
    refine key rfl rfl ?_ (hw _ _ rfl rfl)
    simp [weight, h2, h1, rank]
  · obtain ⟨h1, rfl⟩ := h
    refine key rfl rfl ?_ (hw _ _ rfl rfl)
    cases hd : c.isDef i <;> simp [weight, hd, h1, rank]
    simp [hfl' (by simp [h1]) (by simp [h1]) hd]

end Verif.Batch
