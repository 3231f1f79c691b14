import Verif.Spec.Batch
namespace Verif.Batch
variable {Item D E : Type}

@[simp] theorem upd_same (f : Nat → Phase E) (i : Nat) (p : Phase E) : upd f i p i = p := by
  simp [upd]
theorem upd_other (f : Nat → Phase E) {i j : Nat} (p : Phase E) (h : j ≠ i) :
    upd f i p j = f j := by simp [upd, h]

theorem allDone_iff (s : St D E) (p : Nat → Bool) (k : Nat) :
    allDone s p k = true ↔ ∀ j, j < k → p j = true → ∃ o, s.phase j = .done o := by
  simp only [allDone, List.all_eq_true, List.mem_range, Bool.or_eq_true, Bool.not_eq_true']
  constructor
  · intro h j hj hp
    rcases h j hj with h | h
    · simp [h] at hp
    · cases hph : s.phase j <;> simp [hph, Phase.isDone] at h ⊢
  · intro h j hj
    cases hp : p j
    · exact Or.inl rfl
    · right
      obtain ⟨o, ho⟩ := h j hj hp
      simp [ho, Phase.isDone]

theorem isDef_of (c : Cfg Item D E) {i : Nat} {it : Item} (h : c.items[i]? = some it) :
    c.isDef i = true ↔ c.kind it ≠ .expr := by
  simp [Cfg.isDef, h]

theorem isExpr_of (c : Cfg Item D E) {i : Nat} {it : Item} (h : c.items[i]? = some it) :
    c.isExpr i = true ↔ c.kind it = .expr := by
  simp [Cfg.isExpr, h]

theorem isDef_lt (c : Cfg Item D E) {i : Nat} (h : c.isDef i = true) : i < c.items.length := by
  apply Nat.lt_of_not_le
  intro hle
  simp [Cfg.isDef, List.getElem?_eq_none hle] at h

theorem isExpr_lt (c : Cfg Item D E) {i : Nat} (h : c.isExpr i = true) : i < c.items.length := by
  apply Nat.lt_of_not_le
  intro hle
  simp [Cfg.isExpr, List.getElem?_eq_none hle] at h

theorem isExpr_eq_not_isDef (c : Cfg Item D E) {i : Nat} (h : i < c.items.length) :
    c.isExpr i = !c.isDef i := by
  simp only [Cfg.isExpr, Cfg.isDef, List.getElem?_eq_getElem h, bne, Bool.not_not]

theorem defsAt_succ (c : Cfg Item D E) (d0 : D) {i : Nat} {it : Item} (h : c.items[i]? = some it) :
    defsAt c d0 (i + 1) =
      if c.kind it = .expr then defsAt c d0 i else (c.procDef (defsAt c d0 i) it).1 := by
  obtain ⟨hlt, hget⟩ := List.getElem?_eq_some_iff.1 h
  simp only [defsAt]
  rw [List.take_succ_eq_append_getElem hlt, List.foldl_append, hget]
  rfl

/-- No definition items between `k` and `i`: the definitions are the same. -/
theorem defsAt_eq (c : Cfg Item D E) (d0 : D) (k i : Nat) (hk : k ≤ i) (hi : i ≤ c.items.length)
    (h : ∀ j, k ≤ j → j < i → c.isDef j = false) : defsAt c d0 i = defsAt c d0 k := by
  induction i with
  | zero => simp [Nat.le_zero.1 hk]
  | succ i ih =>
    rcases Nat.lt_or_ge i k with hlt | hge
    · have : k = i + 1 := by omega
      rw [this]
    · have hlt : i < c.items.length := by omega
      have hg := List.getElem?_eq_getElem hlt
      rw [defsAt_succ c d0 hg]
      have hd := h i hge (by omega)
      have : c.kind c.items[i] = .expr := by
        have := isDef_of c hg
        simp [hd] at this; exact this
      rw [if_pos this]
      exact ih hge (by omega) (fun j h1 h2 => h j h1 (by omega))

structure Inv (c : Cfg Item D E) (d0 : D) (s : St D E) : Prop where
  range : ∀ i, c.items.length ≤ i → s.phase i = .idle
  dstop : s.dstop = true → c.failFast = true ∧ (s.cancelled = true ∨ s.failure = true)
  defs : ∃ k, k ≤ c.items.length ∧ s.defs = defsAt c d0 k ∧
    (∀ i it, c.items[i]? = some it → c.isDef i = true → i < k →
      s.phase i = .ran (trueOutcome c d0 i it) ∨ s.phase i = .done (trueOutcome c d0 i it)) ∧
    (∀ i, c.isDef i = true → k ≤ i → s.phase i = .idle ∨ s.phase i = .chk ∨ s.phase i = .running)
  defOrder : ∀ i, c.isDef i = true → s.phase i ≠ .idle → ∀ j, j < i → c.isDef j = true →
    ∃ o, s.phase j = .done o
  defFlight : s.dstop = true → ∀ i, c.isDef i = true → s.phase i = .idle ∨ ∃ o, s.phase i = .done o
  exprStart : ∀ i, c.isExpr i = true → s.phase i ≠ .idle → defsOver c s = true
  exprChk : ∀ i, c.isExpr i = true → s.phase i = .chk → s.dstop = true → s.failure = true
  exprGo : ∀ i it, c.items[i]? = some it → c.isExpr i = true →
    (s.phase i = .running ∨ (∃ o, s.phase i = .ran o) ∨
      ∃ o, s.phase i = .done o ∧ o ≠ .cancelled ∧ o ≠ .outstanding) → s.dstop = false
  exprOut : ∀ i it, c.items[i]? = some it → c.isExpr i = true →
    (∀ o, s.phase i = .ran o → o = trueOutcome c d0 i it) ∧
    (∀ o, s.phase i = .done o → o = trueOutcome c d0 i it ∨ o = .cancelled ∨ o = .outstanding)
  failOn : ∀ i e, s.phase i = .done (.failed e) → s.failure = true
  failSrc : s.failure = true → ∃ i e, i < c.items.length ∧ s.phase i = .done (.failed e)
  chk : ∀ i, s.phase i = .chk → c.failFast = true
  stopping : ∀ i, s.phase i = .stopping → c.failFast = true ∧ (s.cancelled = true ∨ s.failure = true)
  canc : ∀ i, s.phase i = .done .cancelled → c.failFast = true ∧ s.cancelled = true
  outs : ∀ i, s.phase i = .done .outstanding → c.failFast = true ∧ s.failure = true
  fin : ∀ b, s.fin = some b → (b = true → s.cancelled = true) ∧
    (s.dstop = true → b = true ∨ s.failure = true) ∧ defsOver c s = true ∧
    allDone s c.isExpr c.items.length = true

theorem ofResult_processed (r : Option E) :
    (Outcome.ofResult r = .success ∨ ∃ e, Outcome.ofResult r = .failed e) := by
  cases r
  · exact Or.inl rfl
  · exact Or.inr ⟨_, rfl⟩

theorem trueOutcome_processed (c : Cfg Item D E) (d0 : D) (i : Nat) (it : Item) :
    (trueOutcome c d0 i it = .success ∨ ∃ e, trueOutcome c d0 i it = .failed e) := by
  unfold trueOutcome
  split <;> exact ofResult_processed _

theorem inv_init (c : Cfg Item D E) (d0 : D) : Inv c d0 (init d0) := by
  constructor <;> simp [init]
  exact ⟨0, by simp, by simp [defsAt], by simp⟩

theorem defsOver_iff (c : Cfg Item D E) (s : St D E) :
    defsOver c s = true ↔ s.dstop = true ∨ ∀ j, c.isDef j = true → ∃ o, s.phase j = .done o := by
  simp only [defsOver, Bool.or_eq_true, allDone_iff]
  constructor
  · rintro (h | h)
    · exact Or.inl h
    · exact Or.inr fun j hj => h j (isDef_lt c hj) hj
  · rintro (h | h)
    · exact Or.inl h
    · exact Or.inr fun j _ hj => h j hj

theorem exprsOver_iff (c : Cfg Item D E) (s : St D E) :
    allDone s c.isExpr c.items.length = true ↔
      ∀ j, c.isExpr j = true → ∃ o, s.phase j = .done o := by
  simp only [allDone_iff]
  exact ⟨fun h j hj => h j (isExpr_lt c hj) hj, fun h j _ hj => h j hj⟩

theorem def_not_expr (c : Cfg Item D E) {i : Nat} (h : c.isDef i = true) : c.isExpr i = false := by
  rw [isExpr_eq_not_isDef c (isDef_lt c h), h]; rfl

theorem expr_not_def (c : Cfg Item D E) {i : Nat} (h : c.isExpr i = true) : c.isDef i = false := by
  have := isExpr_eq_not_isDef c (isExpr_lt c h)
  rw [h] at this
  simpa using this.symm

theorem not_def_expr (c : Cfg Item D E) {i : Nat} {it : Item} (hi : c.items[i]? = some it)
    (h : c.isDef i = false) : c.isExpr i = true := by
  obtain ⟨hlt, _⟩ := List.getElem?_eq_some_iff.1 hi
  rw [isExpr_eq_not_isDef c hlt, h]; rfl

/-- Once every definition is done the definitions in force are those of the whole batch. -/
theorem Inv.defsFinal {c : Cfg Item D E} {d0 : D} {s : St D E} (I : Inv c d0 s)
    (h : ∀ j, c.isDef j = true → ∃ o, s.phase j = .done o) : s.defs = defsAt c d0 c.items.length := by
  obtain ⟨k, hk, hd, _, h3⟩ := I.defs
  rw [hd]
  refine (defsAt_eq c d0 k c.items.length hk (Nat.le_refl _) ?_).symm
  intro j hkj _
  cases hj : c.isDef j
  · rfl
  · exfalso
    obtain ⟨o, ho⟩ := h j hj
    rcases h3 j hj hkj with h | h | h <;> rw [ho] at h <;> cases h

theorem inv_cancel {c : Cfg Item D E} {d0 : D} {s : St D E} (I : Inv c d0 s) :
    Inv c d0 { s with cancelled := true } := by
  obtain ⟨h1, h2, h3, h4, h5, h6, h7, h8, h9, h10, h11, h12, h13, h14, h15, h16⟩ := I
  constructor <;> try assumption
  · intro h; exact ⟨(h2 h).1, Or.inl rfl⟩
  · intro i h; exact ⟨(h13 i h).1, Or.inl rfl⟩
  · intro i h; exact ⟨(h14 i h).1, rfl⟩
  · intro b h; exact ⟨fun _ => rfl, (h16 b h).2⟩

theorem inv_finish {c : Cfg Item D E} {d0 : D} {s : St D E} (I : Inv c d0 s)
    (hd : defsOver c s = true) (he : allDone s c.isExpr c.items.length = true) :
    Inv c d0 { s with fin := some s.cancelled } := by
  obtain ⟨h1, h2, h3, h4, h5, h6, h7, h8, h9, h10, h11, h12, h13, h14, h15, h16⟩ := I
  constructor <;> try assumption
  intro b h
  simp only [Option.some.injEq] at h
  exact ⟨fun hb => by simp [h, hb], fun hds => h ▸ (h2 hds).2, hd, he⟩

/-- a def moves forward: idle -> chk/running, chk -> running -/
theorem inv_def_adv {c : Cfg Item D E} {d0 : D} {s : St D E} (I : Inv c d0 s) (hf : s.fin = none)
    {i : Nat} (hdef : c.isDef i = true) (p : Phase E)
    (hp : p = .chk ∧ c.failFast = true ∨ p = .running)
    (hph : s.phase i = .idle ∧ s.dstop = false ∧ allDone s c.isDef i = true ∨ s.phase i = .chk) :
    Inv c d0 { s with phase := upd s.phase i p } := by
  have hnd : s.dstop = false := by
    rcases hph with h | h
    · exact h.2.1
    · cases hd : s.dstop
      · rfl
      · rcases I.defFlight hd i hdef with h' | ⟨o, h'⟩ <;> rw [h] at h' <;> cases h'
  have hexp := def_not_expr c hdef
  have hlt := isDef_lt c hdef
  have hnotdone : ∀ o, s.phase i ≠ .done o := by rcases hph with h | h <;> simp [h]
  have hno : defsOver c s = false := by
    cases h : defsOver c s
    · rfl
    · rw [defsOver_iff] at h
      rcases h with h | h
      · simp [hnd] at h
      · obtain ⟨o, ho⟩ := h i hdef
        exact absurd ho (hnotdone o)
  have hidle : ∀ j, c.isExpr j = true → s.phase j = .idle := by
    intro j hj
    apply Classical.byContradiction
    intro h
    simp [I.exprStart j hj h] at hno
  have hearly : ∀ j, j < i → c.isDef j = true → ∃ o, s.phase j = .done o := by
    rcases hph with h | h
    · exact (allDone_iff s _ i).1 h.2.2
    · exact I.defOrder i hdef (by simp [h])
  obtain ⟨h1, h2, ⟨k, hk, hd, hlo, hhi⟩, h4, h5, h6, h7, h8, h9, h10, h11, h12, h13, h14, h15, h16⟩ := I
  refine ⟨?_, h2, ⟨k, hk, hd, ?_, ?_⟩, ?_, ?_, ?_, ?_, ?_, ?_, ?_, ?_, ?_, ?_, ?_, ?_, ?_⟩
  all_goals simp only [hf]
  all_goals grind [upd]

/-- a definition sees `stop()` and leaves the loop -/
theorem inv_def_stop {c : Cfg Item D E} {d0 : D} {s : St D E} (I : Inv c d0 s) (hf : s.fin = none)
    {i : Nat} (hdef : c.isDef i = true) (hff : c.failFast = true)
    (hph : s.phase i = .idle ∧ s.dstop = false ∧ allDone s c.isDef i = true ∧ s.cancelled = true ∨
      s.phase i = .chk ∧ s.failure = true) :
    Inv c d0 { s with dstop := true, phase := upd s.phase i .idle } := by
  have hnd : s.dstop = false := by
    rcases hph with h | h
    · exact h.2.1
    · cases hd : s.dstop
      · rfl
      · rcases I.defFlight hd i hdef with h' | ⟨o, h'⟩ <;> rw [h.1] at h' <;> cases h'
  have hexp := def_not_expr c hdef
  have hlt := isDef_lt c hdef
  have hnotdone : ∀ o, s.phase i ≠ .done o := by rcases hph with h | h <;> simp [h]
  have hno : defsOver c s = false := by
    cases h : defsOver c s
    · rfl
    · rw [defsOver_iff] at h
      rcases h with h | h
      · simp [hnd] at h
      · obtain ⟨o, ho⟩ := h i hdef
        exact absurd ho (hnotdone o)
  have hidle : ∀ j, c.isExpr j = true → s.phase j = .idle := by
    intro j hj
    apply Classical.byContradiction
    intro h
    simp [I.exprStart j hj h] at hno
  have hearly : ∀ j, j < i → c.isDef j = true → ∃ o, s.phase j = .done o := by
    rcases hph with h | h
    · exact (allDone_iff s _ i).1 h.2.2.1
    · exact I.defOrder i hdef (by simp [h])
  have hlate : ∀ j, i < j → c.isDef j = true → s.phase j = .idle := by
    intro j hij hj
    apply Classical.byContradiction
    intro h
    obtain ⟨o, ho⟩ := I.defOrder j hj h i hij hdef
    exact hnotdone o ho
  obtain ⟨h1, h2, ⟨k, hk, hd, hlo, hhi⟩, h4, h5, h6, h7, h8, h9, h10, h11, h12, h13, h14, h15, h16⟩ := I
  refine ⟨?_, ?_, ⟨k, hk, hd, ?_, ?_⟩, ?_, ?_, ?_, ?_, ?_, ?_, ?_, ?_, ?_, ?_, ?_, ?_, ?_⟩
  all_goals simp only [hf]
  all_goals grind [upd]

/-- a definition is processed -/
theorem inv_def_run {c : Cfg Item D E} {d0 : D} {s : St D E} (I : Inv c d0 s) (hf : s.fin = none)
    {i : Nat} {it : Item} (hi : c.items[i]? = some it) (hdef : c.isDef i = true)
    (hph : s.phase i = .running) :
    Inv c d0 { s with
      defs := (c.procDef s.defs it).1
      phase := upd s.phase i (.ran (.ofResult (c.procDef s.defs it).2)) } := by
  have hnd : s.dstop = false := by
    cases hd : s.dstop
    · rfl
    · rcases I.defFlight hd i hdef with h' | ⟨o, h'⟩ <;> rw [hph] at h' <;> cases h'
  have hexp := def_not_expr c hdef
  have hlt := isDef_lt c hdef
  have hnotdone : ∀ o, s.phase i ≠ .done o := by simp [hph]
  have hno : defsOver c s = false := by
    cases h : defsOver c s
    · rfl
    · rw [defsOver_iff] at h
      rcases h with h | h
      · simp [hnd] at h
      · obtain ⟨o, ho⟩ := h i hdef
        exact absurd ho (hnotdone o)
  have hidle : ∀ j, c.isExpr j = true → s.phase j = .idle := by
    intro j hj
    apply Classical.byContradiction
    intro h
    simp [I.exprStart j hj h] at hno
  have hearly : ∀ j, j < i → c.isDef j = true → ∃ o, s.phase j = .done o :=
    I.defOrder i hdef (by simp [hph])
  have hlate : ∀ j, i < j → c.isDef j = true → s.phase j = .idle := by
    intro j hij hj
    apply Classical.byContradiction
    intro h
    obtain ⟨o, ho⟩ := I.defOrder j hj h i hij hdef
    exact hnotdone o ho
  have hke : c.kind it ≠ .expr := (isDef_of c hi).1 hdef
  obtain ⟨h1, h2, ⟨k, hk, hd, hlo, hhi⟩, h4, h5, h6, h7, h8, h9, h10, h11, h12, h13, h14, h15, h16⟩ := I
  have hki : k ≤ i := by
    apply Nat.le_of_not_lt
    intro h
    rcases hlo i it hi hdef h with h | h <;> rw [hph] at h <;> cases h
  have hdi : s.defs = defsAt c d0 i := by
    rw [hd]
    refine (defsAt_eq c d0 k i hki (by omega) ?_).symm
    intro j hkj hji
    cases hj : c.isDef j
    · rfl
    · obtain ⟨o, ho⟩ := hearly j hji hj
      rcases hhi j hj hkj with h | h | h <;> rw [ho] at h <;> cases h
  have hto : Outcome.ofResult (c.procDef s.defs it).2 = trueOutcome c d0 i it := by
    rw [trueOutcome, if_neg hke, hdi]
  have hdn : (c.procDef s.defs it).1 = defsAt c d0 (i + 1) := by
    rw [defsAt_succ c d0 hi, if_neg hke, hdi]
  rw [hto, hdn]
  have hlo' : ∀ j jt, c.items[j]? = some jt → c.isDef j = true → j < i →
      s.phase j = .done (trueOutcome c d0 j jt) := by
    intro j jt hj hjd hji
    obtain ⟨o, ho⟩ := hearly j hji hjd
    rcases Nat.lt_or_ge j k with hjk | hjk
    · rcases hlo j jt hj hjd hjk with h | h
      · rw [ho] at h; cases h
      · exact h
    · rcases hhi j hjd hjk with h | h | h <;> rw [ho] at h <;> cases h
  have hord : ∀ l, c.isDef l = true → upd s.phase i (.ran (trueOutcome c d0 i it)) l ≠ .idle →
      ∀ j, j < l → c.isDef j = true →
      ∃ o, upd s.phase i (.ran (trueOutcome c d0 i it)) j = .done o := by
    intro l hl hne j hjl hj
    rcases Nat.lt_trichotomy l i with h | h | h
    · rw [upd_other _ _ (by omega)] at hne ⊢
      exact h4 l hl hne j hjl hj
    · rw [upd_other _ _ (by omega)]
      exact hearly j (by omega) hj
    · rw [upd_other _ _ (by omega)] at hne
      exact absurd (hlate l h hl) hne
  refine ⟨?_, ?_, ⟨i + 1, by omega, rfl, ?_, ?_⟩, hord, ?_, ?_, ?_, ?_, ?_, ?_, ?_, ?_, ?_, ?_, ?_, ?_⟩
  all_goals simp only [hf]
  all_goals clear hord
  all_goals grind [upd]

/-- a definition's outcome is recorded -/
theorem inv_def_done {c : Cfg Item D E} {d0 : D} {s : St D E} (I : Inv c d0 s) (hf : s.fin = none)
    {i : Nat} {it : Item} (hi : c.items[i]? = some it) (hdef : c.isDef i = true) {o : Outcome E}
    (hph : s.phase i = .ran o) :
    Inv c d0 { s with failure := s.failure || o.isFailed, phase := upd s.phase i (.done o) } := by
  have hnd : s.dstop = false := by
    cases hd : s.dstop
    · rfl
    · rcases I.defFlight hd i hdef with h' | ⟨o, h'⟩ <;> rw [hph] at h' <;> cases h'
  have hexp := def_not_expr c hdef
  have hlt := isDef_lt c hdef
  have hnotdone : ∀ o, s.phase i ≠ .done o := by simp [hph]
  have hno : defsOver c s = false := by
    cases h : defsOver c s
    · rfl
    · rw [defsOver_iff] at h
      rcases h with h | h
      · simp [hnd] at h
      · obtain ⟨o, ho⟩ := h i hdef
        exact absurd ho (hnotdone o)
  have hidle : ∀ j, c.isExpr j = true → s.phase j = .idle := by
    intro j hj
    apply Classical.byContradiction
    intro h
    simp [I.exprStart j hj h] at hno
  have hto : o = trueOutcome c d0 i it ∧ ∀ k, (∀ i it, c.items[i]? = some it → c.isDef i = true → i < k →
      s.phase i = .ran (trueOutcome c d0 i it) ∨ s.phase i = .done (trueOutcome c d0 i it)) →
      (∀ i, c.isDef i = true → k ≤ i → s.phase i = .idle ∨ s.phase i = .chk ∨ s.phase i = .running) → i < k := by
    obtain ⟨k, hk, hd, hlo, hhi⟩ := I.defs
    constructor
    · rcases Nat.lt_or_ge i k with h | h
      · rcases hlo i it hi hdef h with h | h <;> rw [hph] at h <;> grind
      · rcases hhi i hdef h with h | h | h <;> rw [hph] at h <;> cases h
    · intro k _ hhi
      apply Nat.lt_of_not_le
      intro h
      rcases hhi i hdef h with h | h | h <;> rw [hph] at h <;> cases h
  have hpr := trueOutcome_processed c d0 i it
  rw [← hto.1] at hpr
  have hfail : o.isFailed = true ↔ ∃ e, o = .failed e := by
    cases o <;> simp [Outcome.isFailed]
  obtain ⟨h1, h2, ⟨k, hk, hd, hlo, hhi⟩, h4, h5, h6, h7, h8, h9, h10, h11, h12, h13, h14, h15, h16⟩ := I
  have hik := hto.2 k hlo hhi
  have hto := hto.1
  refine ⟨?_, ?_, ⟨k, by omega, hd, ?_, ?_⟩, ?_, ?_, ?_, ?_, ?_, ?_, ?_, ?_, ?_, ?_, ?_, ?_, ?_⟩
  all_goals simp only [hf]
  all_goals grind [upd]

/-- any step of an expression -/
theorem inv_expr {c : Cfg Item D E} {d0 : D} {s : St D E} (I : Inv c d0 s) (hf : s.fin = none)
    {i : Nat} {it : Item} (hi : c.items[i]? = some it) (hexp : c.isExpr i = true) (p : Phase E)
    (hcase :
      (s.phase i = .idle ∧ defsOver c s = true ∧
        ((c.failFast = true ∧ s.cancelled = true ∧ p = .stopping) ∨
         (c.failFast = true ∧ s.cancelled = false ∧ p = .chk) ∨
         (c.failFast = false ∧ p = .running))) ∨
      (s.phase i = .chk ∧ ((s.failure = true ∧ p = .stopping) ∨ (s.failure = false ∧ p = .running))) ∨
      (s.phase i = .stopping ∧ ((s.cancelled = true ∧ p = .done .cancelled) ∨
         (s.cancelled = false ∧ p = .done .outstanding))) ∨
      (s.phase i = .running ∧ p = .ran (.ofResult (c.procExpr s.defs it)))) :
    Inv c d0 { s with phase := upd s.phase i p } := by
  have hdef := expr_not_def c hexp
  have hlt := isExpr_lt c hexp
  have hover : ∀ q, defsOver c { s with phase := upd s.phase i q } = defsOver c s := by
    intro q
    have : (defsOver c { s with phase := upd s.phase i q } = true) ↔ (defsOver c s = true) := by
      rw [defsOver_iff, defsOver_iff]
      simp only
      constructor
      · rintro (h | h)
        · exact Or.inl h
        · right; intro j hj
          obtain ⟨o, ho⟩ := h j hj
          rw [upd_other _ _ (by rintro rfl; simp [hdef] at hj)] at ho
          exact ⟨o, ho⟩
      · rintro (h | h)
        · exact Or.inl h
        · right; intro j hj
          rw [upd_other _ _ (by rintro rfl; simp [hdef] at hj)]
          exact h j hj
    exact Bool.eq_iff_iff.2 this
  have hke : c.kind it = .expr := (isExpr_of c hi).1 hexp
  have hrun : s.phase i = .running → Outcome.ofResult (c.procExpr s.defs it) = trueOutcome c d0 i it := by
    intro h
    have hnd := I.exprGo i it hi hexp (Or.inl h)
    have hov := I.exprStart i hexp (by simp [h])
    rw [defsOver_iff] at hov
    rcases hov with h' | h'
    · simp [hnd] at h'
    · rw [trueOutcome, if_pos hke, I.defsFinal h']
  have hov : defsOver c s = true := by
    rcases hcase with h | h | h | h
    · exact h.2.1
    all_goals exact I.exprStart i hexp (by simp [h.1])
  have hds := I.dstop
  have hck := I.exprChk i hexp
  have hgo := I.exprGo i it hi hexp
  have hkc := I.chk i
  have hst := I.stopping i
  have hold : ∀ o, s.phase i ≠ .done o := by
    rcases hcase with h | h | h | h <;> simp [h.1]
  have p0 : p ≠ .idle := by grind
  have p1 : p = .chk → c.failFast = true ∧ (s.dstop = true → s.failure = true) := by grind
  have p2 : p = .running → s.dstop = false := by grind
  have p3 : ∀ o, p = .ran o → s.dstop = false ∧ o = trueOutcome c d0 i it := by grind
  have p4 : ∀ o, p = .done o → (o = .cancelled ∧ c.failFast = true ∧ s.cancelled = true) ∨
      (o = .outstanding ∧ c.failFast = true ∧ s.failure = true) := by grind
  have p5 : p = .stopping → c.failFast = true ∧ (s.cancelled = true ∨ s.failure = true) := by grind
  clear hcase hrun hds hck hgo hkc hst
  obtain ⟨h1, h2, ⟨k, hk, hd, hlo, hhi⟩, h4, h5, h6, h7, h8, h9, h10, h11, h12, h13, h14, h15, h16⟩ := I
  refine ⟨?_, ?_, ⟨k, by omega, hd, ?_, ?_⟩, ?_, ?_, ?_, ?_, ?_, ?_, ?_, ?_, ?_, ?_, ?_, ?_, ?_⟩
  all_goals simp only [hf, hover]
  · grind [upd]
  · grind
  · grind [upd]
  · grind [upd]
  · clear h6 h7 h8 h9 h10 h11 h12 h13 h14 h15 h16; grind [upd]
  · grind [upd]
  · grind [upd]
  · grind [upd]
  · clear h4 h5 h6 h9 h10 h11 h12 h13 h14 h15 h16; grind [upd]
  · clear h4 h5 h6 h8 h10 h11 h12 h13 h14 h15 h16; grind [upd]
  · grind [upd]
  · grind [upd]
  · grind [upd]
  · grind [upd]
  · grind [upd]
  · grind [upd]
  · grind [upd]

/-- an expression's outcome is recorded -/
theorem inv_expr_done {c : Cfg Item D E} {d0 : D} {s : St D E} (I : Inv c d0 s) (hf : s.fin = none)
    {i : Nat} {it : Item} (hi : c.items[i]? = some it) (hexp : c.isExpr i = true) {o : Outcome E}
    (hph : s.phase i = .ran o) :
    Inv c d0 { s with failure := s.failure || o.isFailed, phase := upd s.phase i (.done o) } := by
  have hdef := expr_not_def c hexp
  have hlt := isExpr_lt c hexp
  have hover : ∀ q f, defsOver c { s with failure := f, phase := upd s.phase i q } = defsOver c s := by
    intro q f
    have : (defsOver c { s with failure := f, phase := upd s.phase i q } = true) ↔ (defsOver c s = true) := by
      rw [defsOver_iff, defsOver_iff]
      simp only
      constructor
      · rintro (h | h)
        · exact Or.inl h
        · right; intro j hj
          obtain ⟨o, ho⟩ := h j hj
          rw [upd_other _ _ (by rintro rfl; simp [hdef] at hj)] at ho
          exact ⟨o, ho⟩
      · rintro (h | h)
        · exact Or.inl h
        · right; intro j hj
          rw [upd_other _ _ (by rintro rfl; simp [hdef] at hj)]
          exact h j hj
    exact Bool.eq_iff_iff.2 this
  have hto := (I.exprOut i it hi hexp).1 o hph
  have hpr := trueOutcome_processed c d0 i it
  rw [← hto] at hpr
  have hfail : o.isFailed = true ↔ ∃ e, o = .failed e := by
    cases o <;> simp [Outcome.isFailed]
  have hov := I.exprStart i hexp (by simp [hph])
  have hgo := I.exprGo i it hi hexp (Or.inr (Or.inl ⟨o, hph⟩))
  obtain ⟨h1, h2, ⟨k, hk, hd, hlo, hhi⟩, h4, h5, h6, h7, h8, h9, h10, h11, h12, h13, h14, h15, h16⟩ := I
  refine ⟨?_, ?_, ⟨k, by omega, hd, ?_, ?_⟩, ?_, ?_, ?_, ?_, ?_, ?_, ?_, ?_, ?_, ?_, ?_, ?_, ?_⟩
  all_goals simp only [hf, hover]
  all_goals grind [upd]

theorem inv_work {c : Cfg Item D E} {d0 : D} {s s' : St D E} (I : Inv c d0 s) (hf : s.fin = none)
    {i : Nat} (h : work c s i = some s') : Inv c d0 s' := by
  unfold work at h
  split at h
  · cases h
  rename_i it hi
  cases hdef : c.isDef i
  · have hexp := not_def_expr c hi hdef
    split at h <;> rename_i hph
    · split at h
      · rename_i hcs
        simp only [canStart, hdef, Bool.false_eq_true, if_false, Bool.and_eq_true] at hcs
        split at h <;> rename_i hff
        · split at h <;> rename_i hc
          · simp only [onStop, hdef, Bool.false_eq_true, if_false, Option.some.injEq] at h
            subst h
            exact inv_expr I hf hi hexp _ (Or.inl ⟨hph, hcs.1, Or.inl ⟨hff, hc, rfl⟩⟩)
          · simp only [Option.some.injEq] at h
            subst h
            exact inv_expr I hf hi hexp _ (Or.inl ⟨hph, hcs.1, Or.inr (Or.inl ⟨hff, by simpa using hc, rfl⟩)⟩)
        · simp only [Option.some.injEq] at h
          subst h
          exact inv_expr I hf hi hexp _ (Or.inl ⟨hph, hcs.1, Or.inr (Or.inr ⟨by simpa using hff, rfl⟩)⟩)
      · cases h
    · split at h <;> rename_i hfl
      · simp only [onStop, hdef, Bool.false_eq_true, if_false, Option.some.injEq] at h
        subst h
        exact inv_expr I hf hi hexp _ (Or.inr (Or.inl ⟨hph, Or.inl ⟨hfl, rfl⟩⟩))
      · simp only [Option.some.injEq] at h
        subst h
        exact inv_expr I hf hi hexp _ (Or.inr (Or.inl ⟨hph, Or.inr ⟨by simpa using hfl, rfl⟩⟩))
    · simp only [Option.some.injEq] at h
      subst h
      refine inv_expr I hf hi hexp _ (Or.inr (Or.inr (Or.inl ⟨hph, ?_⟩)))
      cases s.cancelled <;> simp
    · simp only [hdef, Bool.false_eq_true, if_false, Option.some.injEq] at h
      subst h
      exact inv_expr I hf hi hexp _ (Or.inr (Or.inr (Or.inr ⟨hph, rfl⟩)))
    · simp only [Option.some.injEq] at h
      subst h
      exact inv_expr_done I hf hi hexp hph
    · cases h
  · split at h <;> rename_i hph
    · split at h
      · rename_i hcs
        simp only [canStart, hdef, if_true, Bool.and_eq_true, Bool.not_eq_true'] at hcs
        split at h <;> rename_i hff
        · split at h <;> rename_i hc
          · simp only [onStop, hdef, if_true, Option.some.injEq] at h
            subst h
            exact inv_def_stop I hf hdef hff (Or.inl ⟨hph, hcs.1, hcs.2, hc⟩)
          · simp only [Option.some.injEq] at h
            subst h
            exact inv_def_adv I hf hdef _ (Or.inl ⟨rfl, hff⟩) (Or.inl ⟨hph, hcs⟩)
        · simp only [Option.some.injEq] at h
          subst h
          exact inv_def_adv I hf hdef _ (Or.inr rfl) (Or.inl ⟨hph, hcs⟩)
      · cases h
    · split at h <;> rename_i hfl
      · simp only [onStop, hdef, if_true, Option.some.injEq] at h
        subst h
        exact inv_def_stop I hf hdef (I.chk i hph) (Or.inr ⟨hph, hfl⟩)
      · simp only [Option.some.injEq] at h
        subst h
        exact inv_def_adv I hf hdef _ (Or.inr rfl) (Or.inr hph)
    · exfalso
      obtain ⟨k, hk, hd, hlo, hhi⟩ := I.defs
      rcases Nat.lt_or_ge i k with h | h
      · rcases hlo i it hi hdef h with h | h <;> rw [hph] at h <;> cases h
      · rcases hhi i hdef h with h | h | h <;> rw [hph] at h <;> cases h
    · simp only [hdef, if_true, Option.some.injEq] at h
      subst h
      exact inv_def_run I hf hi hdef hph
    · simp only [Option.some.injEq] at h
      subst h
      exact inv_def_done I hf hi hdef hph
    · cases h

theorem inv_step {c : Cfg Item D E} {d0 : D} {s s' : St D E} (I : Inv c d0 s) {a : Act}
    (h : step c s a = some s') : Inv c d0 s' := by
  cases a with
  | cancel =>
    simp only [step] at h
    split at h
    · cases h
    · simp only [Option.some.injEq] at h; subst h; exact inv_cancel I
  | work i =>
    simp only [step] at h
    split at h
    · cases h
    · rename_i hf
      exact inv_work I (by simpa using hf) h
  | finish =>
    simp only [step] at h
    split at h
    · rename_i hg
      simp only [Bool.and_eq_true] at hg
      simp only [Option.some.injEq] at h; subst h; exact inv_finish I hg.1.2 hg.2
    · cases h

theorem inv_run {c : Cfg Item D E} {d0 : D} (as : List Act) :
    ∀ {s s' : St D E}, Inv c d0 s → run c s as = some s' → Inv c d0 s' := by
  induction as with
  | nil => intro s s' I h; simp only [run, Option.some.injEq] at h; subst h; exact I
  | cons a as ih =>
    intro s s' I h
    simp only [run, Option.bind_eq_some_iff] at h
    obtain ⟨t, ht, h⟩ := h
    exact ih (inv_step I ht) h

end Verif.Batch
