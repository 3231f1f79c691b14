import Verif.Spec.Progress
import Verif.Props.Batch
/-! The progress reports of a batch (C79). -/
namespace Verif.Batch
variable {Item D E : Type}

/-- How the phase of an item changes in one step. -/
theorem phase_moves {c : Cfg Item D E} {s s' : St D E} {a : Act} (h : step c s a = some s') (i : Nat) :
    s'.phase i = s.phase i ∨
    (∃ o, a = .work i ∧ s.phase i = .ran o ∧ s'.phase i = .done o) ∨
    (a = .work i ∧ (∀ o, s.phase i ≠ .ran o) ∧ (∀ o, s.phase i ≠ .done o) ∧ (∀ o, s'.phase i = .ran o → wasProcessed o = true) ∧
      ∀ o, s'.phase i = .done o → wasProcessed o = false) := by
  cases a with
  | cancel =>
    simp only [step] at h
    split at h
    · cases h
    · cases h; exact Or.inl rfl
  | finish =>
    simp only [step] at h
    split at h
    · cases h; exact Or.inl rfl
    · cases h
  | work j =>
    simp only [step] at h
    split at h
    · cases h
    · by_cases hij : i = j
      · subst hij
        unfold work at h
        split at h
        · cases h
        · rename_i it _
          have hproc : ∀ (r : Option E) o, Phase.ran (.ofResult r) = .ran o → wasProcessed o = true := by
            intro r o h
            cases h
            cases r <;> rfl
          cases hp : s.phase i with
          | idle =>
            rw [hp] at h
            dsimp only at h
            unfold onStop at h
            split at h
            · split at h
              · split at h
                · split at h <;> cases h <;> simp
                · cases h; simp
              · cases h; simp
            · cases h
          | chk =>
            rw [hp] at h
            dsimp only at h
            unfold onStop at h
            split at h
            · split at h <;> cases h <;> simp
            · cases h; simp
          | stopping =>
            rw [hp] at h
            cases h
            right; right
            simp only [upd_same]
            refine ⟨trivial, by simp, by simp, by simp, ?_⟩
            intro o ho
            injection ho with ho
            rw [← ho]
            split <;> rfl
          | running =>
            rw [hp] at h
            dsimp only at h
            right; right
            split at h <;> cases h <;> simp only [upd_same]
            · exact ⟨trivial, by simp, by simp, fun o ho => hproc _ o ho, by simp⟩
            · exact ⟨trivial, by simp, by simp, fun o ho => hproc _ o ho, by simp⟩
          | ran o =>
            rw [hp] at h
            cases h
            right; left
            exact ⟨o, rfl, rfl, by simp⟩
          | done o =>
            rw [hp] at h
            cases h
      · left
        unfold work onStop at h
        split at h
        · cases h
        · split at h <;> (try split at h) <;> (try split at h) <;> (try split at h) <;> (try split at h) <;> cases h <;> simp [upd, hij]

/-- The messages, for the order in which items have been reported. -/
def sent (n : Nat) (status : Nat → Status) (is : List Nat) : List (List Status) :=
  (List.range is.length).map fun k => (List.range n).map fun j => if j ∈ is.take (k + 1) then status j else .outstanding

structure PInv (c : Cfg Item D E) (s : PSt D E) (is : List Nat) : Prop where
  nodup : is.Nodup
  mem : ∀ i, i ∈ is ↔ s.reported i = true
  told : ∀ i, i ∈ is → ∃ o, (s.base.phase i = .ran o ∨ s.base.phase i = .done o) ∧ wasProcessed o = true ∧ s.status i = Status.of o
  rest : ∀ i, i ∉ is → s.status i = .outstanding ∧ ∀ o, s.base.phase i = .done o → wasProcessed o = false
  ran : ∀ i o, s.base.phase i = .ran o → wasProcessed o = true
  msgs : s.msgs = sent c.items.length s.status is

theorem pinv_init (c : Cfg Item D E) (d : D) : PInv c (pinit d) [] :=
  ⟨.nil, by simp [pinit], by simp, by simp [pinit, init], by simp [pinit, init], by simp [pinit, sent]⟩

theorem pinv_base {c : Cfg Item D E} {s : PSt D E} {b : St D E} {a : Act} {is : List Nat} (I : PInv c s is)
    (h : step c s.base a = some b) (hu : ∀ i, a = .work i → unreported s i = false) : PInv c { s with base := b } is := by
  have hm := phase_moves h
  refine ⟨I.nodup, I.mem, ?_, ?_, ?_, I.msgs⟩
  · intro i hi
    obtain ⟨o, h1, h2, h3⟩ := I.told i hi
    rcases hm i with hk | ⟨o', _, k2, k3⟩ | ⟨_, k2, k3, _⟩
    · exact ⟨o, by rw [hk]; exact h1, h2, h3⟩
    · have : o' = o := by
        rcases h1 with h1 | h1 <;> rw [h1] at k2 <;> cases k2
        rfl
      subst this
      exact ⟨o', Or.inr k3, h2, h3⟩
    · rcases h1 with h1 | h1
      · exact absurd h1 (k2 o)
      · exact absurd h1 (k3 o)
  · intro i hi
    refine ⟨(I.rest i hi).1, ?_⟩
    intro o ho
    rcases hm i with hk | ⟨o', k1, k2, k3⟩ | ⟨_, _, _, _, k4⟩
    · exact (I.rest i hi).2 o (by rw [← hk]; exact ho)
    · exfalso
      have := hu i k1
      unfold unreported at this
      rw [k2] at this
      exact hi ((I.mem i).2 (by simpa using this))
    · exact k4 o ho
  · intro i o ho
    rcases hm i with hk | ⟨o', _, k2, k3⟩ | ⟨_, _, _, k4, _⟩
    · exact I.ran i o (by rw [← hk]; exact ho)
    · exact absurd (k3.symm.trans ho) (by simp)
    · exact k4 o ho

theorem pinv_report {c : Cfg Item D E} {s : PSt D E} {i : Nat} {o : Outcome E} {is : List Nat} (I : PInv c s is)
    (hp : s.base.phase i = .ran o) (hr : s.reported i = false) : PInv c (report c s i o) (is ++ [i]) := by
  have hi : i ∉ is := by
    intro h
    rw [(I.mem i).1 h] at hr
    cases hr
  have ho := I.ran i o hp
  refine ⟨?_, ?_, ?_, ?_, I.ran, ?_⟩
  · refine List.nodup_append.2 ⟨I.nodup, by simp, ?_⟩
    intro x hx y hy e
    rw [List.mem_singleton.1 hy] at e
    exact hi (e ▸ hx)
  · intro j
    simp only [report, List.mem_append, List.mem_singleton]
    by_cases hj : j = i
    · simp [hj]
    · simp [hj, I.mem j]
  · intro j hj
    simp only [report]
    by_cases hji : j = i
    · subst hji
      exact ⟨o, Or.inl hp, ho, by simp⟩
    · rcases List.mem_append.1 hj with hj | hj
      · obtain ⟨o', h1, h2, h3⟩ := I.told j hj
        exact ⟨o', h1, h2, by simp [hji, h3]⟩
      · exact absurd (List.mem_singleton.1 hj) hji
  · intro j hj
    simp only [List.mem_append, List.mem_singleton, not_or] at hj
    have := I.rest j hj.1
    simp only [report]
    exact ⟨by simp [hj.2, this.1], this.2⟩
  · show s.msgs ++ [_] = _
    rw [I.msgs]
    unfold sent
    rw [List.length_append, List.length_singleton, List.range_succ, List.map_append]
    congr 1
    · apply List.map_congr_left
      intro k hk
      rw [List.mem_range] at hk
      apply List.map_congr_left
      intro j _
      rw [List.take_append_of_le_length (by omega)]
      by_cases hj : j ∈ is.take (k + 1)
      · have : j ≠ i := by
          rintro rfl
          exact hi (List.mem_of_mem_take hj)
        simp [hj, report, this]
      · simp [hj]
    · simp only [List.map_cons, List.map_nil]
      congr 1
      apply List.map_congr_left
      intro j _
      rw [List.take_of_length_le (by simp)]
      simp only [report]
      by_cases hj : j = i
      · simp [hj]
      · by_cases hj2 : j ∈ is
        · simp [hj, hj2]
        · simp [hj, hj2, (I.rest j hj2).1]

/-- Without the reports it is a run of the batch. -/
def bases : List PAct → List Act
  | [] => []
  | .base a :: as => a :: bases as
  | .report _ :: as => bases as

theorem prun_inv {c : Cfg Item D E} : ∀ (as : List PAct) {s s' : PSt D E} {is : List Nat}, prun c s as = some s' → PInv c s is →
    run c s.base (bases as) = some s'.base ∧ ∃ js, PInv c s' (is ++ js)
  | [], s, s', is, h, I => by
    cases h
    exact ⟨rfl, [], by rw [List.append_nil]; exact I⟩
  | .report i :: as, s, s', is, h, I => by
    simp only [prun, pstep] at h
    split at h
    · rename_i o hp
      split at h
      · cases h
      · rename_i hr
        have := pinv_report I hp (by simpa using hr)
        obtain ⟨h1, js, h2⟩ := prun_inv as (s := report c s i o) h this
        exact ⟨h1, i :: js, by rw [List.append_assoc] at h2; exact h2⟩
    · cases h
  | .base a :: as, s, s', is, h, I => by
    have key : ∃ b, step c s.base a = some b ∧ (∀ i, a = .work i → unreported s i = false) ∧ prun c { s with base := b } as = some s' := by
      simp only [prun] at h
      cases a with
      | work i =>
        simp only [pstep] at h
        split at h
        · cases h
        · rename_i hu
          cases hs : step c s.base (.work i) with
          | none => rw [hs] at h; cases h
          | some b =>
            rw [hs] at h
            exact ⟨b, rfl, fun j e => by cases e; simpa using hu, h⟩
      | cancel =>
        simp only [pstep] at h
        cases hs : step c s.base .cancel with
        | none => rw [hs] at h; cases h
        | some b => rw [hs] at h; exact ⟨b, rfl, fun j e => (by cases e), h⟩
      | finish =>
        simp only [pstep] at h
        cases hs : step c s.base .finish with
        | none => rw [hs] at h; cases h
        | some b => rw [hs] at h; exact ⟨b, rfl, fun j e => (by cases e), h⟩
    obtain ⟨b, h1, h2, h3⟩ := key
    obtain ⟨h4, js, h5⟩ := prun_inv as h3 (pinv_base I h1 h2)
    refine ⟨?_, js, h5⟩
    rw [bases, run, h1]
    exact h4

theorem tells_eq (o : Outcome E) : tells o = Status.of o := by cases o <;> rfl

/-- **C79**: under every schedule, with or without cancelling, the messages of a batch fit its results: each message has a status for
every item; it tells about one item more than the one before; what it says of an item is how that item ended; and when
the batch ends all items that were processed have been told about, just once. -/
theorem progress_is_told (c : Cfg Item D E) (d0 : D) (as : List PAct) (s : PSt D E) (hr : prun c (pinit d0) as = some s)
    (hfin : Finished s.base) : Told (results c s.base) s.msgs := by
  obtain ⟨h1, js, I⟩ := prun_inv as hr (pinv_init c d0)
  rw [List.nil_append] at I
  have J : Inv c d0 s.base := inv_run _ (inv_init c d0) h1
  obtain ⟨b, hb⟩ := Option.isSome_iff_exists.1 hfin
  obtain ⟨_, _, hdo, hex⟩ := J.fin b hb
  have hnr : ∀ i o, s.base.phase i ≠ .ran o := by
    intro i o ho
    have hlt : i < c.items.length := by
      apply Nat.lt_of_not_le
      intro hle
      rw [J.range i hle] at ho
      cases ho
    cases hd : c.isDef i with
    | true =>
      rcases (defsOver_iff c _).1 hdo with h | h
      · rcases J.defFlight h i hd with h | ⟨o', h⟩ <;> rw [h] at ho <;> cases ho
      · obtain ⟨o', h⟩ := h i hd
        rw [h] at ho; cases ho
    | false =>
      obtain ⟨o', h⟩ := (exprsOver_iff c _).1 hex i (by rw [isExpr_eq_not_isDef c hlt, hd]; rfl)
      rw [h] at ho; cases ho
  have hres : ∀ i o, s.base.phase i = .done o → wasProcessed o = true → resultAt s.base i = o := by
    intro i o ho hw
    unfold resultAt
    rw [ho]
    dsimp only
    cases o with
    | outstanding => cases hw
    | _ => rfl
  have hget : ∀ i, (results c s.base)[i]? = if i < c.items.length then some (resultAt s.base i) else none := by
    intro i
    unfold results
    rw [List.getElem?_map]
    by_cases hi : i < c.items.length
    · rw [List.getElem?_range hi, if_pos hi]; rfl
    · rw [List.getElem?_eq_none (by simp; omega), if_neg hi]; rfl
  have hin : ∀ i ∈ js, ∃ o, s.base.phase i = .done o ∧ wasProcessed o = true ∧ s.status i = Status.of o ∧ i < c.items.length := by
    intro i hi
    obtain ⟨o, h2, h3, h4⟩ := I.told i hi
    rcases h2 with h2 | h2
    · exact absurd h2 (hnr i o)
    · refine ⟨o, h2, h3, h4, ?_⟩
      apply Nat.lt_of_not_le
      intro hle
      rw [J.range i hle] at h2
      cases h2
  have hstat : ∀ i ∈ js, s.status i = Status.of (resultAt s.base i) := by
    intro i hi
    obtain ⟨o, h2, h3, h4, _⟩ := hin i hi
    rw [h4, hres i o h2 h3]
  refine ⟨js, I.nodup, ?_, ?_⟩
  · intro i
    constructor
    · intro hi
      obtain ⟨o, h2, h3, _, h5⟩ := hin i hi
      exact ⟨o, by rw [hget, if_pos h5, hres i o h2 h3], h3⟩
    · rintro ⟨o, h2, h3⟩
      rw [hget] at h2
      split at h2
      · injection h2 with h2
        unfold resultAt at h2
        cases hp : s.base.phase i with
        | done o' =>
          rw [hp] at h2
          dsimp only at h2
          have : o' = o := by
            split at h2
            · rw [← h2] at h3; cases h3
            · exact h2
          subst this
          refine Classical.byContradiction fun hn => ?_
          rw [(I.rest i hn).2 o' hp] at h3
          cases h3
        | _ =>
          rw [hp] at h2
          dsimp only at h2
          split at h2
          · rw [← h2] at h3; cases h3
          · rw [← h2] at h3; cases h3
      · cases h2
  · rw [I.msgs]
    unfold sent
    apply List.map_congr_left
    intro k _
    unfold snapshot results
    apply List.ext_getElem?
    intro j
    rw [List.getElem?_mapIdx, List.getElem?_map, List.getElem?_map]
    by_cases hj : j < c.items.length
    · rw [List.getElem?_range hj]
      simp only [Option.map_some]
      by_cases hm : j ∈ js.take (k + 1)
      · simp only [hm, if_true]
        rw [hstat j (List.mem_of_mem_take hm), tells_eq]
      · simp only [hm, if_false]
    · rw [List.getElem?_eq_none (by simp; omega)]; rfl

/-- Without the reports, what happens is what C39 and C40 are about. -/
theorem progress_is_a_run (c : Cfg Item D E) (d0 : D) (as : List PAct) (s : PSt D E) (hr : prun c (pinit d0) as = some s) :
    run c (init d0) (bases as) = some s.base := (prun_inv as hr (pinv_init c d0)).1

/-- Reporting never holds a batch up: each schedule of the batch is possible with the reports. -/
theorem progress_never_blocks {c : Cfg Item D E} : ∀ (as : List Act) (s : PSt D E) (b : St D E), run c s.base as = some b →
    ∃ ps s', bases ps = as ∧ prun c s ps = some s' ∧ s'.base = b
  | [], s, b, h => ⟨[], s, rfl, rfl, by cases h; rfl⟩
  | a :: as, s, b, h => by
    rw [run] at h
    cases hs : step c s.base a with
    | none => rw [hs] at h; cases h
    | some b1 =>
      rw [hs] at h
      have free : ∀ s0 : PSt D E, s0.base = s.base → (∀ i, a = .work i → unreported s0 i = false) →
          ∃ ps s', bases ps = a :: as ∧ prun c s0 ps = some s' ∧ s'.base = b := by
        intro s0 h0 hu
        obtain ⟨ps, s', h1, h2, h3⟩ := progress_never_blocks as { s0 with base := b1 } b h
        have hb : step c s0.base a = some b1 := by rw [h0]; exact hs
        refine ⟨.base a :: ps, s', by rw [bases, h1], ?_, h3⟩
        have : pstep c s0 (.base a) = some { s0 with base := b1 } := by
          cases a with
          | work i => rw [pstep, hu i rfl, hb]; rfl
          | cancel => rw [pstep, hb]; rfl; intro _ e; cases e
          | finish => rw [pstep, hb]; rfl; intro _ e; cases e
        rw [prun, this]
        exact h2
      by_cases hu : ∃ i, a = .work i ∧ unreported s i = true
      · obtain ⟨i, ha, hu⟩ := hu
        cases hp : s.base.phase i with
        | ran o =>
          have hr : s.reported i = false := by
            unfold unreported at hu
            rw [hp] at hu
            simpa using hu
          obtain ⟨ps, s', h1, h2, h3⟩ := free (report c s i o) rfl (by
            intro j e
            rw [ha] at e
            cases e
            unfold unreported
            rw [show (report c s i o).base = s.base from rfl, hp]
            simp [report])
          refine ⟨.report i :: ps, s', h1, ?_, h3⟩
          have : pstep c s (.report i) = some (report c s i o) := by
            rw [pstep, hp]
            simp [hr]
          rw [prun, this]
          exact h2
        | _ =>
          unfold unreported at hu
          rw [hp] at hu
          cases hu
      · refine free s rfl ?_
        intro i e
        cases hx : unreported s i with
        | false => rfl
        | true => exact absurd ⟨i, e, hx⟩ hu

/-- The batch of three items, with the reports in the order in which its threads get to them. -/
example : (prun (demo true false) (pinit []) [.base (.work 0), .base (.work 0), .report 0, .base (.work 0), .base (.work 2),
    .base (.work 1), .base (.work 1), .base (.work 2), .report 2, .report 1, .base (.work 1), .base (.work 2), .base .finish]).map
      (fun s => (s.msgs, results (demo true false) s.base)) =
    some ([[.success, .outstanding, .outstanding], [.success, .outstanding, .success], [.success, .failed, .success]],
      [.success, .failed "undefined", .success]) := by decide

/-- With fail fast, the item after the failing one is never told about. -/
example : (prun (demo false true) (pinit []) [.base (.work 0), .base (.work 0), .base (.work 0), .report 0, .base (.work 0),
    .base (.work 1), .base (.work 1), .base (.work 1), .report 1, .base (.work 1), .base (.work 2), .base (.work 2),
    .base (.work 2), .base .finish]).map (fun s => (s.msgs, results (demo false true) s.base)) =
    some ([[.success, .outstanding, .outstanding], [.success, .failed, .outstanding]],
      [.success, .failed "undefined", .outstanding]) := by decide

end Verif.Batch
