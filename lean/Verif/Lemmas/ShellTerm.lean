import Verif.Lemmas.ShellCmpl
namespace Verif.Shell

/-- Every line's cursor is within the line, and a tab is selected as long as there is one. -/
structure TermOk (t : Term) : Prop where
  inputs : ∀ x ∈ t.tabs, x.input.Ok
  sel : t.tabs ≠ [] → t.selected < t.tabs.length

theorem TermOk.tab {t : Term} (h : TermOk t) (hne : t.tabs ≠ []) :
    ∃ x, t.tab = some x ∧ x.input.Ok ∧ x ∈ t.tabs := by
  have hl := h.sel hne
  exact ⟨t.tabs[t.selected], List.getElem?_eq_getElem hl, h.inputs _ (List.getElem_mem hl),
    List.getElem_mem hl⟩

theorem termOk_setTab {t : Term} (h : TermOk t) {y : Tab} (hy : y.input.Ok) : TermOk (t.setTab y) := by
  refine ⟨?_, ?_⟩
  · intro x hx
    rcases List.mem_or_eq_of_mem_set hx with hx | rfl
    · exact h.inputs x hx
    · exact hy
  · intro hne
    have : t.tabs ≠ [] := by
      intro h0; apply hne; simp [Term.setTab, h0]
    simpa [Term.setTab] using h.sel this

theorem setTab_ne {t : Term} (y : Tab) (hne : t.tabs ≠ []) : (t.setTab y).tabs ≠ [] := by
  simpa [Term.setTab] using hne

theorem termOk_switch {t : Term} (h : ∀ x ∈ t.tabs, x.input.Ok) : TermOk t.switchTab := by
  refine ⟨h, fun hne => ?_⟩
  have : 0 < t.tabs.length := List.length_pos_iff.2 hne
  simp only [Term.switchTab]; split <;> omega

theorem termOk_quit {t : Term} (h : TermOk t) : TermOk t.quitTab := by
  unfold Term.quitTab
  apply termOk_switch
  split
  · intro x hx; exact h.inputs x (List.mem_of_mem_eraseIdx hx)
  · exact h.inputs

theorem new_ok : Tab.new.input.Ok := by simp [Tab.new, Input.new, Input.Ok]

theorem termOk_newTab {t : Term} (h : TermOk t) : TermOk t.newTab := by
  refine ⟨?_, ?_⟩
  · intro x hx
    rcases List.mem_append.1 hx with hx | hx
    · exact h.inputs x hx
    · rw [List.mem_singleton.1 hx]; exact new_ok
  · intro _; simp [Term.newTab]

theorem mvCursor_ok (w : Char → Bool) (x : Tab) (h : x.input.Ok) (a b : Bool) :
    ∃ y, x.mvCursor w a b = some (y, .redraw) ∧ y.input.Ok := by
  unfold Tab.mvCursor
  cases b
  · obtain ⟨j, h1, h2, _⟩ := op_spec w x.input h (.moveRight (if a then .word else .ch 1))
    simp only [Input.op] at h1
    exact ⟨⟨j, x.outputs, x.cmpl.reset, x.history⟩, by simp [h1], h2⟩
  · obtain ⟨j, h1, h2, _⟩ := op_spec w x.input h (.moveLeft (if a then .word else .ch 1))
    simp only [Input.op] at h1
    exact ⟨⟨j, x.outputs, x.cmpl.reset, x.history⟩, by simp [h1], h2⟩

theorem mvHistory_spec (x : Tab) (b : Bool) :
    ∃ y, x.mvHistory b = some (y, .redraw) ∧ y.input.Ok ∧
      y.input.abs = ⟨((if b then x.history.back else x.history.fwd).current).getD [], []⟩ := by
  obtain ⟨j, h1, h2, h3⟩ := insertStr_spec
    (((if b then x.history.back else x.history.fwd).current).getD []) x.input.clear
    (by simp [Input.clear, Input.Ok])
  refine ⟨⟨j, x.outputs, x.cmpl.reset, if b then x.history.back else x.history.fwd⟩, ?_, h2, ?_⟩
  · simp [Tab.mvHistory, h1]
  · rw [h3]; simp [Input.abs, Input.clear]

theorem mvCmpl_ok (w : Char → Bool) (x : Tab) (n : Bool) :
    ∃ y, x.mvCmpl w n = some (y, .redraw) ∧ y.input.Ok := by
  obtain ⟨j, h1, h2, _⟩ := op_spec w x.input.moveStart (by simp [Input.moveStart, Input.Ok])
    (.moveRight (.ch x.cmpl.startPos))
  simp only [Input.op] at h1
  obtain ⟨k, h4, h5, _⟩ := deleteN_spec (if n then x.cmpl.next else x.cmpl.prev).insLen j h2
  obtain ⟨m, h7, h8, _⟩ := insertStr_spec (if n then x.cmpl.next else x.cmpl.prev).with_ k h5
  refine ⟨⟨m, x.outputs, { (if n then x.cmpl.next else x.cmpl.prev) with
    insLen := (if n then x.cmpl.next else x.cmpl.prev).with_.length }, x.history⟩, ?_, h8⟩
  unfold Tab.mvCmpl
  simp only [Cmpl.replaceWith, h1, Option.bind_some, h4, h7, Option.map_some]

theorem onTab_ok {t : Term} (h : TermOk t) (hne : t.tabs ≠ []) (f : Tab → Option (Tab × EvRes))
    (hf : ∀ x, x.input.Ok → ∃ y r, f x = some (y, r) ∧ y.input.Ok) :
    ∃ t' r, t.onTab f = some (t', r) ∧ TermOk t' ∧ t'.tabs ≠ [] := by
  obtain ⟨x, hx, hok, _⟩ := h.tab hne
  obtain ⟨y, r, hy, hyok⟩ := hf x hok
  exact ⟨t.setTab y, r, by simp [Term.onTab, hx, hy], termOk_setTab h hyok, setTab_ne y hne⟩

/-- The event that closes a tab (`mod.rs:313-316`). -/
def altQ : Event := .key (.char 'q') .alt

/-- An event never crashes as long as a tab is open; it leaves no tab open only if it is Alt+q, and
then the loop is told to stop. -/
theorem processEvent_ok (w : Char → Bool) {t : Term} (h : TermOk t) (hne : t.tabs ≠ []) (e : Event) :
    ∃ t' r, processEvent w t e = some (t', r) ∧ TermOk t' ∧
      (t'.tabs = [] → e = altQ ∧ r = .brk) ∧ (r = .brk → t'.tabs = []) := by
  obtain ⟨x, hx, hok, _⟩ := h.tab hne
  have hop : ∀ (o : EditOp), ∃ j, x.input.op w o = some j ∧ j.Ok := fun o => by
    obtain ⟨j, h1, h2, _⟩ := op_spec w x.input hok o; exact ⟨j, h1, h2⟩
  have hset : ∀ (y : Tab) (r : EvRes), y.input.Ok → r ≠ .brk →
      ∃ t' r', some (t.setTab y, r) = some (t', r') ∧ TermOk t' ∧
      (t'.tabs = [] → e = altQ ∧ r' = .brk) ∧ (r' = .brk → t'.tabs = []) := by
    intro y r hy hr
    exact ⟨_, _, rfl, termOk_setTab h hy, fun h0 => absurd h0 (setTab_ne y hne), fun h0 => absurd h0 hr⟩
  have hself : ∀ (r : EvRes), r ≠ .brk →
      ∃ t' r', some (t, r) = some (t', r') ∧ TermOk t' ∧
      (t'.tabs = [] → e = altQ ∧ r' = .brk) ∧ (r' = .brk → t'.tabs = []) := by
    intro r hr
    exact ⟨_, _, rfl, h, fun h0 => absurd h0 hne, fun h0 => absurd h0 hr⟩
  have hcur : ∀ a b, ∃ y, x.mvCursor w a b = some (y, .redraw) ∧ y.input.Ok :=
    fun a b => mvCursor_ok w x hok a b
  have hhis : ∀ b, ∃ y, x.mvHistory b = some (y, .redraw) ∧ y.input.Ok := fun b => by
    obtain ⟨y, h1, h2, _⟩ := mvHistory_spec x b; exact ⟨y, h1, h2⟩
  have hcm := mvCmpl_ok w x
  unfold processEvent
  simp only [hx, Option.bind_some, Term.onTab]
  split
  · exact hself _ (by simp)
  · refine ⟨_, _, rfl, termOk_quit h, fun h0 => ⟨rfl, by simp [h0]⟩, fun h0 => ?_⟩
    split at h0
    · rename_i h1; exact List.length_eq_zero_iff.1 h1
    · cases h0
  · exact ⟨_, _, rfl, termOk_newTab h, fun h0 => by simp [Term.newTab] at h0, by simp⟩
  · exact ⟨_, _, rfl, termOk_switch h.inputs, fun h0 => absurd h0 hne, by simp⟩
  · exact hself _ (by simp)
  · exact hself _ (by simp)
  · exact hset _ _ hok (by simp)
  · exact hset _ _ hok (by simp)
  · exact hset _ _ hok (by simp)
  · exact hset _ _ hok (by simp)
  · split
    · obtain ⟨y, hy, hyok⟩ := hcm true; rw [hy]; exact hset _ _ hyok (by simp)
    · obtain ⟨y, hy, hyok⟩ := hhis false; rw [hy]; exact hset _ _ hyok (by simp)
  · split
    · obtain ⟨y, hy, hyok⟩ := hcm false; rw [hy]; exact hset _ _ hyok (by simp)
    · obtain ⟨y, hy, hyok⟩ := hhis true; rw [hy]; exact hset _ _ hyok (by simp)
  · split
    · exact hset _ _ hok (by simp)
    · exact hself _ (by simp)
  · obtain ⟨y, hy, hyok⟩ := hcur false true; rw [hy]; exact hset _ _ hyok (by simp)
  · obtain ⟨y, hy, hyok⟩ := hcur false false; rw [hy]; exact hset _ _ hyok (by simp)
  · obtain ⟨y, hy, hyok⟩ := hcur true true; rw [hy]; exact hset _ _ hyok (by simp)
  · obtain ⟨y, hy, hyok⟩ := hcur true false; rw [hy]; exact hset _ _ hyok (by simp)
  · obtain ⟨j, hj, hjok⟩ := hop .backspace; simp only [Input.op] at hj
    rw [hj]; exact hset _ _ hjok (by simp)
  · obtain ⟨j, hj, hjok⟩ := hop .backspace; simp only [Input.op] at hj
    rw [hj]; exact hset _ _ hjok (by simp)
  · obtain ⟨j, hj, hjok⟩ := hop .delete; simp only [Input.op] at hj
    rw [hj]; exact hset _ _ hjok (by simp)
  · obtain ⟨j, hj, hjok⟩ := hop (.insert '\n'); simp only [Input.op] at hj
    rw [hj]; exact hset _ _ hjok (by simp)
  · obtain ⟨j, hj, hjok⟩ := hop (.insert '\n'); simp only [Input.op] at hj
    rw [hj]; exact hset _ _ hjok (by simp)
  · rename_i c; obtain ⟨j, hj, hjok⟩ := hop (.insert c); simp only [Input.op] at hj
    rw [hj]; exact hset _ _ hjok (by simp)
  · rename_i c; obtain ⟨j, hj, hjok⟩ := hop (.insert c); simp only [Input.op] at hj
    rw [hj]; exact hset _ _ hjok (by simp)
  · exact hself _ (by simp)
  · exact hself _ (by simp)

theorem EvRes.max_brk (a b : EvRes) : a.max b = .brk ↔ a = .brk ∨ b = .brk := by
  cases a <;> cases b <;> decide

/-- Without tabs every event crashes. -/
theorem processEvent_none (w : Char → Bool) {t : Term} (h : t.tabs = []) (e : Event) :
    processEvent w t e = none := by
  simp [processEvent, Term.tab, h]

theorem processEvents_ok (w : Char → Bool) (es : List Event) : ∀ (t : Term), TermOk t →
    t.tabs ≠ [] → (∀ e ∈ es.dropLast, e ≠ altQ) →
    ∃ t' r, processEvents w t es = some (t', r) ∧ TermOk t' ∧ (t'.tabs = [] ↔ r = .brk) := by
  induction es with
  | nil => intro t h hne _; exact ⟨t, .none, rfl, h, by simp [hne]⟩
  | cons e es ih =>
    intro t h hne hq
    obtain ⟨t1, r1, h1, h2, h3, h4⟩ := processEvent_ok w h hne e
    cases es with
    | nil =>
      refine ⟨t1, r1, ?_, h2, fun h0 => (h3 h0).2, h4⟩
      simp only [processEvents, h1, Option.bind_some, Option.map_some]
      cases r1 <;> rfl
    | cons e2 es =>
      have hne1 : t1.tabs ≠ [] := fun h0 => hq e (by simp) (h3 h0).1
      obtain ⟨t2, r2, h5, h6, h7⟩ := ih t1 h2 hne1 (fun e' he' => hq e' (by simp [he']))
      refine ⟨t2, r1.max r2, ?_, h6, ?_⟩
      · rw [processEvents, h1, Option.bind_some]; simp [h5]
      · rw [h7, EvRes.max_brk]
        constructor
        · exact Or.inr
        · rintro (h0 | h0)
          · exact absurd (h4 h0) hne1
          · exact h0

theorem cycle_ok (w : Char → Bool) (out : List Char → Option (List Char × Nat) × Bool) (t : Term)
    (es : List Event) (h : TermOk t) (hne : t.tabs ≠ []) (hq : ∀ e ∈ es.dropLast, e ≠ altQ) :
    ∃ t' c, cycle w out t es = some (t', c) ∧ TermOk t' ∧ (c ≠ .quit → t'.tabs ≠ []) := by
  obtain ⟨t1, r, h1, h2, h3⟩ := processEvents_ok w es t h hne hq
  by_cases hr : r = .brk
  · subst hr
    exact ⟨t1, .quit, by simp [cycle, h1], h2, by simp⟩
  · have hne1 : t1.tabs ≠ [] := fun h0 => hr (h3.1 h0)
    obtain ⟨x, hx, hok, _⟩ := h2.tab hne1
    cases r with
    | brk => exact absurd rfl hr
    | none =>
      by_cases hc : (x.cmpl.has && !t1.cmplsDrawn) = true
      · refine ⟨{ t1 with cmplsDrawn := true }, .nothing, ?_, ⟨h2.inputs, h2.sel⟩, fun _ => hne1⟩
        simp only [cycle, h1, Option.bind_some, hx, Option.map_some, hc, if_true]
      · refine ⟨t1.setTab { x with cmpl := x.cmpl.recv }, .nothing, ?_, termOk_setTab h2 hok,
          fun _ => setTab_ne _ hne1⟩
        simp only [cycle, h1, Option.bind_some, hx, Option.map_some, hc, Bool.false_eq_true, if_false]
    | redraw => exact ⟨t1, .nothing, by simp [cycle, h1, hx], h2, fun _ => hne1⟩
    | inputChanged =>
      obtain ⟨c, hc⟩ : ∃ c, x.cmpl.request x.input = some c := ⟨_, request_spec _ _ hok⟩
      refine ⟨({ t1 with cmplsDrawn := false } : Term).setTab { x with cmpl := c }, .nothing,
        by simp only [cycle, h1, Option.bind_some, hx, hc, Option.map_some], ?_, fun _ => ?_⟩
      · exact termOk_setTab (t := { t1 with cmplsDrawn := false }) ⟨h2.inputs, h2.sel⟩ hok
      · exact setTab_ne (t := { t1 with cmplsDrawn := false }) _ hne1
    | eval =>
      refine ⟨t1.setTab (x.afterEval out), .evaluated x.input.buf, by
        simp only [cycle, h1, Option.bind_some, Term.eval, hx, Option.map_some], ?_, fun _ => ?_⟩
      · exact termOk_setTab h2 (by simp [Tab.afterEval, Input.clear, Input.Ok])
      · exact setTab_ne _ hne1

theorem reply_ok {t : Term} (h : TermOk t) (k r : Nat) (vs : List (List Char)) :
    TermOk (t.reply k r vs) ∧ ((t.reply k r vs).tabs = [] ↔ t.tabs = []) := by
  unfold Term.reply
  split
  · rename_i x hx
    split
    · refine ⟨⟨?_, ?_⟩, ?_⟩
      · intro y hy
        rcases List.mem_or_eq_of_mem_set hy with hy | rfl
        · exact h.inputs y hy
        · exact h.inputs x (List.mem_of_getElem? hx)
      · intro hne
        simp only [List.length_set]
        apply h.sel
        intro h0; apply hne; simp [h0]
      · simp
    · exact ⟨h, Iff.rfl⟩
  · exact ⟨h, Iff.rfl⟩

end Verif.Shell
