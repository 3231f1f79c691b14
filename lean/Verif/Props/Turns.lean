import Verif.Spec.Turns
/-! C86: the shell comes back, and what it shows is what the line gives. -/
namespace Verif.Turns
variable {D L O : Type} {P : Prog D L O} {d0 : D} {s t : State D L O} {as : List (Act L)}

/-! ### One line after the other -/

/-- A job that evaluates this line with these definitions. -/
inductive For (P : Prog D L O) (l : L) (d : D) : Job D L O → Prop
  | start : For P l d (.start l)
  | read : For P l d (.read l)
  | wait {o} : P.eval l d = some o → For P l d (.wait l o)
  | own : For P l d (.own l d)
  | done {o} : P.eval l d = some o → For P l d (.done o)
  | dead : For P l d .dead

/-- The line has come to the point where it is evaluated. -/
inductive Mid (P : Prog D L O) (d : D) (l : L) : D → Prop
  | expr : P.kind l = .expr ∨ P.kind l = .batch → Mid P d l d
  | define {d' o} : P.kind l = .define → P.define l d = some (d', o) → P.follows l d = true → Mid P d l d'

theorem Mid.does {d d' : D} {l : L} {r : Option O} (h : Mid P d l d') (hg : Gives P l d' r) : Does P d l r d' := by
  cases h with
  | expr h => exact .expr h hg
  | define h1 h2 h3 => exact .defineOn h1 h2 h3 hg

/-- What holds of the compute thread. -/
inductive Phase (P : Prog D L O) (d0 : D) (s : State D L O) (l : L) : Comp L O → Prop
  | begun : Lines P d0 s.log s.defs → Phase P d0 s l (.begun l)
  | claimed : Lines P d0 s.log s.defs → P.kind l = .define → Phase P d0 s l (.claimed l)
  | poll {i d j} : Lines P d0 s.log d → Mid P d l s.defs → s.jobs[i]? = some j → For P l s.defs j → Phase P d0 s l (.poll i)
  | ended {d r} : Lines P d0 s.log d → Does P d l r s.defs → Phase P d0 s l (.ended r)
  | dead : Phase P d0 s l .dead

structure Inv (P : Prog D L O) (d0 : D) (s : State D L O) : Prop where
  idle : s.ui = .idle → s.comp = .none ∧ Lines P d0 s.log s.defs
  busy : ∀ l x, s.ui = .busy l x → Phase P d0 s l s.comp

theorem phase_idle (hi : Inv P d0 s) (h : s.comp ≠ .none) : ∃ l x, s.ui = .busy l x ∧ Phase P d0 s l s.comp := by
  cases hu : s.ui with
  | idle => exact absurd (hi.idle hu).1 h
  | busy l x => exact ⟨l, x, rfl, hi.busy l x hu⟩

/-- If only the jobs change. -/
theorem inv_job (hi : Inv P d0 s) {i : Nat} {j j' : Job D L O} (hj : s.jobs[i]? = some j) (hf : ∀ l, For P l s.defs j → For P l s.defs j') :
    Inv P d0 { s with jobs := s.jobs.set i j' } := by
  refine ⟨hi.idle, fun l x hu => ?_⟩
  have hp := hi.busy l x hu
  show Phase P d0 _ l s.comp
  generalize s.comp = c at hp
  cases hp with
  | begun h => exact .begun h
  | claimed h h' => exact .claimed h h'
  | ended h h' => exact .ended h h'
  | dead => exact .dead
  | @poll k d w h1 h2 h3 h4 =>
    by_cases e : i = k
    · subst e
      rw [hj] at h3
      cases h3
      refine .poll h1 h2 (j := j') ?_ (hf l h4)
      show (s.jobs.set i j')[i]? = _
      rw [List.getElem?_set_self (by have := List.getElem?_eq_some_iff.1 hj; exact this.1)]
    · refine .poll h1 h2 (j := w) ?_ h4
      show (s.jobs.set i j')[k]? = _
      rw [List.getElem?_set_ne e]
      exact h3

theorem phase_ui {l : L} {c : Comp L O} (h : Phase P d0 s l c) {t : State D L O} (h1 : t.defs = s.defs) (h2 : t.jobs = s.jobs) (h3 : t.log = s.log) : Phase P d0 t l c := by
  cases h with
  | begun h => exact .begun (by rw [h3, h1]; exact h)
  | claimed h h' => exact .claimed (by rw [h3, h1]; exact h) h'
  | poll h4 h5 h6 h7 => exact .poll (by rw [h3]; exact h4) (by rw [h1]; exact h5) (by rw [h2]; exact h6) (by rw [h1]; exact h7)
  | ended h h' => exact .ended (by rw [h3]; exact h) (by rw [h1]; exact h')
  | dead => exact .dead

theorem step_inv {a : Act L} (hi : Inv P d0 s) (h : Step P a s t) : Inv P d0 t := by
  cases h with
  | enter hu =>
    refine ⟨fun e => (by cases e), fun l x e => ?_⟩
    cases e
    exact .begun (hi.idle hu).2
  | draw hu hr =>
    refine ⟨fun e => (by cases e), fun l x e => ?_⟩
    cases e
    exact phase_ui (hi.busy _ _ hu) rfl rfl rfl
  | tick hu hr =>
    refine ⟨fun e => (by cases e), fun l x e => ?_⟩
    cases e
    exact phase_ui (hi.busy _ _ hu) rfl rfl rfl
  | take hu hc =>
    refine ⟨fun _ => ⟨rfl, ?_⟩, fun l x e => by cases e⟩
    have := hi.busy _ _ hu
    rw [hc] at this
    cases this with
    | ended h1 h2 => exact .snoc h1 h2
  | other hc hk =>
    obtain ⟨l, x, hu, hp⟩ := phase_idle hi (by rw [hc]; exact fun e => by cases e)
    rw [hc] at hp
    cases hp with
    | begun h1 =>
      refine ⟨fun e => (by rw [hu] at e; cases e), fun l' x' e => ?_⟩
      have e : s.ui = .busy l' x' := e
      rw [hu] at e
      cases e
      exact .ended h1 (.other hk)
  | claim hc hk =>
    obtain ⟨l, x, hu, hp⟩ := phase_idle hi (by rw [hc]; exact fun e => by cases e)
    rw [hc] at hp
    cases hp with
    | begun h1 =>
      refine ⟨fun e => (by rw [hu] at e; cases e), fun l' x' e => ?_⟩
      have e : s.ui = .busy l' x' := e
      rw [hu] at e
      cases e
      exact .claimed h1 hk
  | write hc hw hd hf =>
    obtain ⟨l, x, hu, hp⟩ := phase_idle hi (by rw [hc]; exact fun e => by cases e)
    rw [hc] at hp
    cases hp with
    | claimed h1 hk =>
      refine ⟨fun e => (by rw [hu] at e; cases e), fun l' x' e => ?_⟩
      have e : s.ui = .busy l' x' := e
      rw [hu] at e
      cases e
      exact .ended h1 (.define hk hd hf)
  | writeOn hc hw hd hf =>
    obtain ⟨l, x, hu, hp⟩ := phase_idle hi (by rw [hc]; exact fun e => by cases e)
    rw [hc] at hp
    cases hp with
    | claimed h1 hk =>
      refine ⟨fun e => (by rw [show s.ui = .idle from e] at hu; cases hu), fun l' x' e => ?_⟩
      have e : s.ui = .busy l' x' := e
      rw [hu] at e
      cases e
      exact .poll h1 (.define hk hd hf) (j := .start _) List.getElem?_concat_length .start
  | crash hc hw hd =>
    obtain ⟨l, x, hu, hp⟩ := phase_idle hi (by rw [hc]; exact fun e => by cases e)
    exact ⟨fun e => (by rw [hu] at e; cases e), fun _ _ _ => .dead⟩
  | expr hc hk =>
    obtain ⟨l, x, hu, hp⟩ := phase_idle hi (by rw [hc]; exact fun e => by cases e)
    rw [hc] at hp
    cases hp with
    | begun h1 =>
      refine ⟨fun e => (by rw [show s.ui = .idle from e] at hu; cases hu), fun l' x' e => ?_⟩
      have e : s.ui = .busy l' x' := e
      rw [hu] at e
      cases e
      exact .poll h1 (.expr (.inl hk)) (j := .start _) List.getElem?_concat_length .start
  | batch hc hk =>
    obtain ⟨l, x, hu, hp⟩ := phase_idle hi (by rw [hc]; exact fun e => by cases e)
    rw [hc] at hp
    cases hp with
    | begun h1 =>
      refine ⟨fun e => (by rw [show s.ui = .idle from e] at hu; cases hu), fun l' x' e => ?_⟩
      have e : s.ui = .busy l' x' := e
      rw [hu] at e
      cases e
      exact .poll h1 (.expr (.inr hk)) (j := .own _ s.defs) List.getElem?_concat_length .own
  | join hc hj =>
    obtain ⟨l, x, hu, hp⟩ := phase_idle hi (by rw [hc]; exact fun e => by cases e)
    rw [hc] at hp
    cases hp with
    | poll h1 h2 h3 h4 =>
      refine ⟨fun e => (by rw [hu] at e; cases e), fun l' x' e => ?_⟩
      have e : s.ui = .busy l' x' := e
      rw [hu] at e
      cases e
      rw [hj] at h3
      cases h3
      cases h4 with
      | done h5 => exact .ended h1 (h2.does (.shown h5))
  | quit hc hq =>
    obtain ⟨l, x, hu, hp⟩ := phase_idle hi (by rw [hc]; exact fun e => by cases e)
    rw [hc] at hp
    cases hp with
    | poll h1 h2 h3 h4 =>
      refine ⟨fun e => (by rw [hu] at e; cases e), fun l' x' e => ?_⟩
      have e : s.ui = .busy l' x' := e
      rw [hu] at e
      cases e
      exact .ended h1 (h2.does .aborted)
  | read hj hr => exact inv_job hi hj fun l h => by cases h; exact .read
  | finish hj h1 h2 h3 => exact inv_job hi hj fun l h => by cases h; exact .done h2
  | twice hj h1 h2 h3 => exact inv_job hi hj fun l h => by cases h; exact .wait h2
  | reread hj hr => exact inv_job hi hj fun l h => by cases h with | wait h => exact .done h
  | fail hj h1 h2 => exact inv_job hi hj fun l h => .dead
  | own hj h1 h2 => exact inv_job hi hj fun l h => by cases h; exact .done h2
  | ownFail hj h1 h2 => exact inv_job hi hj fun l h => .dead

theorem init_inv (P : Prog D L O) (d0 : D) : Inv P d0 (State.init d0) :=
  ⟨fun _ => ⟨rfl, .nil⟩, fun l x e => by cases e⟩

theorem runs_inv (hi : Inv P d0 s) (h : Runs P s as t) : Inv P d0 t := by
  induction h with
  | nil => exact hi
  | snoc _ h2 ih => exact step_inv ih h2

/-- Whatever the threads do when, at the prompt everything is as if one line had been done after the other: the definitions are those that the
lines make, and what was shown for a line is what it gives with the definitions of the lines before it, or nothing if it was aborted. -/
theorem one_after_another (h : Runs P (State.init d0) as s) (hu : s.ui = .idle) : Lines P d0 s.log s.defs :=
  ((runs_inv (init_inv P d0) h).idle hu).2

theorem entries_append (as bs : List (Act L)) : entries (as ++ bs) = entries as ++ entries bs := by
  induction as with
  | nil => rfl
  | cons a as ih => cases a <;> simp only [List.cons_append, entries, ih]

/-- The line that is waited for. -/
def Ui.line : Ui L → List L
  | .idle => []
  | .busy l _ => [l]

theorem shown_lines (h : Runs P (State.init d0) as s) : s.log.map (·.1) ++ s.ui.line = entries as := by
  induction h with
  | nil => rfl
  | @snoc t u as a h1 h2 ih =>
    rw [entries_append, ← ih]
    cases h2 with
    | enter hu => rw [hu, entered]; simp [Ui.line, entries]
    | draw hu _ => rw [hu]; simp [Ui.line, entries]
    | tick hu _ => rw [hu]; simp [Ui.line, entries]
    | take hu _ => rw [hu]; simp [Ui.line, entries]
    | _ => simp [entries, spawn]

/-- At the prompt something has been shown for each line entered, in this order. -/
theorem each_shown (h : Runs P (State.init d0) as s) (hu : s.ui = .idle) : s.log.map (·.1) = entries as := by
  have := shown_lines h
  rwa [hu, Ui.line, List.append_nil] at this

/-- What holds while a line is being done that nobody wants to abort. -/
structure Unasked (s : State D L O) : Prop where
  cancel : s.cancel = false
  ended : s.comp ≠ .ended none

/-- A line ends without output only if it was aborted while it was being done. -/
theorem aborted_when_asked {l : L} {bs : List (Act L)} (hu : s.ui = .idle) (h : Runs P (entered s l) bs t) (hn : entries bs = []) (hx : Act.tick true ∉ bs) :
    (t.busy ∧ t.log = s.log) ∨ (t.ui = .idle ∧ ∃ o, t.log = s.log ++ [(l, some o)]) := by
  have key : (∃ x, t.ui = .busy l x ∧ Unasked t ∧ t.log = s.log) ∨ (t.ui = .idle ∧ t.comp = .none ∧ ∃ o, t.log = s.log ++ [(l, some o)]) := by
    induction h with
    | nil => exact .inl ⟨true, rfl, ⟨rfl, fun e => by cases e⟩, rfl⟩
    | @snoc t u bs a h1 h2 ih =>
      rw [entries_append] at hn
      have hn1 := (List.append_eq_nil_iff.1 hn).1
      have hn2 := (List.append_eq_nil_iff.1 hn).2
      have hx1 : Act.tick true ∉ bs := fun e => hx (List.mem_append_left _ e)
      have hx2 : a ≠ .tick true := fun e => hx (List.mem_append_right _ (by rw [e]; exact List.mem_singleton.2 rfl))
      rcases ih hn1 hx1 with ⟨x, h3, ⟨h4, h5⟩, h6⟩ | ⟨h3, h4, h5⟩
      · cases h2 with
        | enter hu' => rw [h3] at hu'; cases hu'
        | draw hu' _ => rw [h3] at hu'; cases hu'; exact .inl ⟨_, rfl, ⟨h4, h5⟩, h6⟩
        | @tick _ _ y hu' hr =>
          rw [h3] at hu'; cases hu'
          cases y with
          | true => exact absurd rfl hx2
          | false => exact .inl ⟨_, rfl, ⟨by show (t.cancel || false) = false; rw [h4]; rfl, h5⟩, h6⟩
        | @take _ _ r hu' hc =>
          rw [h3] at hu'; cases hu'
          cases r with
          | none => exact absurd hc h5
          | some o => exact .inr ⟨rfl, rfl, o, by show t.log ++ _ = _; rw [h6]⟩
        | quit _ hq => rw [h4] at hq; cases hq
        | read => exact .inl ⟨x, h3, ⟨h4, h5⟩, h6⟩
        | finish => exact .inl ⟨x, h3, ⟨h4, h5⟩, h6⟩
        | twice => exact .inl ⟨x, h3, ⟨h4, h5⟩, h6⟩
        | reread => exact .inl ⟨x, h3, ⟨h4, h5⟩, h6⟩
        | fail => exact .inl ⟨x, h3, ⟨h4, h5⟩, h6⟩
        | own => exact .inl ⟨x, h3, ⟨h4, h5⟩, h6⟩
        | ownFail => exact .inl ⟨x, h3, ⟨h4, h5⟩, h6⟩
        | _ => exact .inl ⟨x, h3, ⟨h4, fun e => by cases e⟩, h6⟩
      · cases h2 with
        | enter hu' => cases hn2
        | draw hu' _ => rw [h3] at hu'; cases hu'
        | tick hu' hr => rw [h3] at hu'; cases hu'
        | take hu' hc => rw [h3] at hu'; cases hu'
        | read => exact .inr ⟨h3, h4, h5⟩
        | finish => exact .inr ⟨h3, h4, h5⟩
        | twice => exact .inr ⟨h3, h4, h5⟩
        | reread => exact .inr ⟨h3, h4, h5⟩
        | fail => exact .inr ⟨h3, h4, h5⟩
        | own => exact .inr ⟨h3, h4, h5⟩
        | ownFail => exact .inr ⟨h3, h4, h5⟩
        | other hc' => rw [h4] at hc'; cases hc'
        | claim hc' => rw [h4] at hc'; cases hc'
        | write hc' => rw [h4] at hc'; cases hc'
        | writeOn hc' => rw [h4] at hc'; cases hc'
        | crash hc' => rw [h4] at hc'; cases hc'
        | expr hc' => rw [h4] at hc'; cases hc'
        | batch hc' => rw [h4] at hc'; cases hc'
        | join hc' => rw [h4] at hc'; cases hc'
        | quit hc' => rw [h4] at hc'; cases hc'
  rcases key with ⟨x, h1, _, h2⟩ | ⟨h1, _, h2⟩
  · exact .inl ⟨⟨_, x, h1⟩, h2⟩
  · exact .inr ⟨h1, h2⟩

/-- Also while a line is being done, everything shown before is so. -/
theorem shown_before (h : Runs P (State.init d0) as s) (hd : s.comp ≠ .dead) : ∃ d, Lines P d0 s.log d := by
  have hi := runs_inv (init_inv P d0) h
  cases hu : s.ui with
  | idle => exact ⟨_, (hi.idle hu).2⟩
  | busy l x =>
    have hp := hi.busy l x hu
    generalize s.comp = c at hp hd
    cases hp with
    | begun h => exact ⟨_, h⟩
    | claimed h _ => exact ⟨_, h⟩
    | poll h _ _ _ => exact ⟨_, h⟩
    | ended h _ => exact ⟨_, h⟩
    | dead => exact absurd rfl hd

/-- The definitions do not change while a thread reads them. -/
theorem not_under_readers {a : Act L} (h : Step P a s t) {i : Nat} {j : Job D L O} (hj : s.jobs[i]? = some j) (hr : j.reads = true) : t.defs = s.defs := by
  have key : s.canWrite ≠ true := by
    unfold State.canWrite
    rw [List.any_eq_true.2 ⟨j, List.mem_of_getElem? hj, hr⟩]
    exact fun e => by cases e
  cases h with
  | write _ hw _ _ => exact absurd hw key
  | writeOn _ hw _ _ => exact absurd hw key
  | _ => rfl

/-- At the prompt, keys can always be drawn: nobody waits for the lock to write. -/
theorem prompt_free (h : Runs P (State.init d0) as s) (hu : s.ui = .idle) : s.canRead = true := by
  have := ((runs_inv (init_inv P d0) h).idle hu).1
  unfold State.canRead
  rw [this]
  rfl

/-! ### The shell comes back -/

/-- Somebody can do something for the line, or it waits in vain. -/
theorem why_waits (h : Runs P (State.init d0) as s) (hb : s.busy) :
    Hangs P s ∨ (∃ t, Step P .compute s t) ∨ (∃ i t, Step P (.job i) s t) ∨ ∃ r, s.comp = .ended r := by
  obtain ⟨l, x, hu⟩ := hb
  have hi := runs_inv (init_inv P d0) h
  have hp := hi.busy l x hu
  have reading : ∀ (i : Nat) (m : L), s.jobs[i]? = some (.read m) → P.ends m s.defs = true → ∃ i t, Step P (.job i) s t := by
    intro i m hj he
    cases hv : P.eval m s.defs with
    | none => exact ⟨i, _, .fail hj he hv⟩
    | some o =>
      cases ha : P.again m s.defs with
      | false => exact ⟨i, _, .finish hj he hv ha⟩
      | true => exact ⟨i, _, .twice hj he hv ha⟩
  cases hc : s.comp with
  | dead => exact .inl (.panicked hc)
  | none => rw [hc] at hp; cases hp
  | ended r => exact .inr (.inr (.inr ⟨r, rfl⟩))
  | begun l' =>
    right; left
    cases hk : P.kind l' with
    | other => exact ⟨_, .other hc hk⟩
    | define => exact ⟨_, .claim hc hk⟩
    | batch => exact ⟨_, .batch hc hk⟩
    | expr => exact ⟨_, .expr hc hk⟩
  | poll i =>
    have hr : s.canRead = true := by unfold State.canRead; rw [hc]; rfl
    cases hq : s.cancel with
    | true => exact .inr (.inl ⟨_, .quit hc hq⟩)
    | false =>
      rw [hc] at hp
      cases hp with
      | @poll _ _ j _ _ hj hf =>
        cases j with
        | start m => exact .inr (.inr (.inl ⟨i, _, .read hj hr⟩))
        | wait m o => exact .inr (.inr (.inl ⟨i, _, .reread hj hr⟩))
        | done o => exact .inr (.inl ⟨_, .join hc hj⟩)
        | dead => exact .inl (.failed hc hq hj)
        | read m =>
          cases he : P.ends m s.defs with
          | false => exact .inl (.endless hc hq hj he)
          | true => exact .inr (.inr (.inl (reading i m hj he)))
        | own m d =>
          cases he : P.ends m d with
          | false => exact .inl (.endlessBatch hc hq hj he)
          | true =>
            right; right; left
            cases hv : P.eval m d with
            | none => exact ⟨i, _, .ownFail hj he hv⟩
            | some o => exact ⟨i, _, .own hj he hv⟩
  | claimed l' =>
    cases hw : s.canWrite with
    | true =>
      right; left
      cases hd : P.define l' s.defs with
      | none => exact ⟨_, .crash hc hw hd⟩
      | some r =>
        obtain ⟨d, o⟩ := r
        cases hf : P.follows l' s.defs with
        | false => exact ⟨_, .write hc hw hd hf⟩
        | true => exact ⟨_, .writeOn hc hw hd hf⟩
    | false =>
      unfold State.canWrite at hw
      rw [Bool.not_eq_false'] at hw
      obtain ⟨j, hm, hr⟩ := List.any_eq_true.1 hw
      obtain ⟨i, hj⟩ := List.mem_iff_getElem?.1 hm
      cases j with
      | read m =>
        cases he : P.ends m s.defs with
        | false => exact .inl (.blocked hc hj he)
        | true => exact .inr (.inr (.inl (reading i m hj he)))
      | wait m o => exact .inl (.deadlock hc hj)
      | start m => cases hr
      | own m d => cases hr
      | done o => cases hr
      | dead => cases hr

/-- When nothing at all can happen any more, except that a line is entered, the shell waits in vain. -/
theorem stuck_hangs (h : Runs P (State.init d0) as s) (hb : s.busy) (hs : ∀ a t, ¬ Step P a s t) : Hangs P s := by
  rcases why_waits h hb with h | ⟨t, h⟩ | ⟨i, t, h⟩ | ⟨r, h⟩
  · exact h
  · exact absurd h (hs _ _)
  · exact absurd h (hs _ _)
  · obtain ⟨l, x, hu⟩ := hb
    cases x with
    | false => exact absurd (.take hu h) (hs _ _)
    | true => exact absurd (.draw hu (by unfold State.canRead; rw [h]; rfl)) (hs _ _)

/-! How far there is to go. -/

def Job.left : Job D L O → Nat
  | .start _ => 3
  | .read _ => 2
  | .wait _ _ => 1
  | .own _ _ => 1
  | _ => 0

def Comp.left : Comp L O → Nat
  | .none => 0
  | .begun _ => 7
  | .claimed _ => 6
  | .poll _ => 2
  | .ended _ => 1
  | .dead => 0

def sumLeft : List (Job D L O) → Nat
  | [] => 0
  | j :: js => j.left + sumLeft js

def State.left (s : State D L O) : Nat := sumLeft s.jobs + s.comp.left

theorem sumLeft_append (xs ys : List (Job D L O)) : sumLeft (xs ++ ys) = sumLeft xs + sumLeft ys := by
  induction xs with
  | nil => rw [List.nil_append, sumLeft, Nat.zero_add]
  | cons x xs ih => rw [List.cons_append, sumLeft, sumLeft, ih]; omega

theorem sumLeft_set {j j' : Job D L O} : ∀ {xs : List (Job D L O)} {i : Nat}, xs[i]? = some j → sumLeft (xs.set i j') + j.left = sumLeft xs + j'.left
  | [], i, h => by cases h
  | x :: xs, 0, h => by
    cases h
    rw [List.set_cons_zero, sumLeft, sumLeft]; omega
  | x :: xs, i + 1, h => by
    have := sumLeft_set (j' := j') (xs := xs) (i := i) h
    rw [List.set_cons_succ, sumLeft, sumLeft]; omega

theorem job_left {i : Nat} {j j' : Job D L O} (hj : s.jobs[i]? = some j) (h : j'.left < j.left) : ({ s with jobs := s.jobs.set i j' } : State D L O).left < s.left := by
  have := sumLeft_set (j' := j') hj
  unfold State.left
  dsimp only
  omega

theorem works_left {a : Act L} (h : Step P a s t) (hw : Works a) : t.left < s.left := by
  cases h with
  | enter hu => cases hw
  | tick hu hr => cases hw
  | draw hu hr => cases hw
  | take hu hc => unfold State.left; dsimp only; rw [hc]; simp only [Comp.left]; omega
  | other hc hk => unfold State.left; dsimp only; rw [hc]; simp only [Comp.left]; omega
  | claim hc hk => unfold State.left; dsimp only; rw [hc]; simp only [Comp.left]; omega
  | write hc hw hd hf => unfold State.left; dsimp only; rw [hc]; simp only [Comp.left]; omega
  | writeOn hc hw hd hf => unfold State.left spawn; dsimp only; rw [hc, sumLeft_append]; simp only [Comp.left, sumLeft, Job.left]; omega
  | crash hc hw hd => unfold State.left; dsimp only; rw [hc]; simp only [Comp.left]; omega
  | expr hc hk => unfold State.left spawn; dsimp only; rw [hc, sumLeft_append]; simp only [Comp.left, sumLeft, Job.left]; omega
  | batch hc hk => unfold State.left spawn; dsimp only; rw [hc, sumLeft_append]; simp only [Comp.left, sumLeft, Job.left]; omega
  | join hc hj => unfold State.left; dsimp only; rw [hc]; simp only [Comp.left]; omega
  | quit hc hq => unfold State.left; dsimp only; rw [hc]; simp only [Comp.left]; omega
  | read hj hr => exact job_left hj (by simp [Job.left])
  | finish hj h1 h2 h3 => exact job_left hj (by simp [Job.left])
  | twice hj h1 h2 h3 => exact job_left hj (by simp [Job.left])
  | reread hj hr => exact job_left hj (by simp [Job.left])
  | fail hj h1 h2 => exact job_left hj (by simp [Job.left])
  | own hj h1 h2 => exact job_left hj (by simp [Job.left])
  | ownFail hj h1 h2 => exact job_left hj (by simp [Job.left])

/-- Nothing but the clock and the screen. -/
structure Same (s t : State D L O) : Prop where
  defs : t.defs = s.defs
  comp : t.comp = s.comp
  jobs : t.jobs = s.jobs
  cancel : s.cancel = true → t.cancel = true

theorem Same.refl (s : State D L O) : Same s s := ⟨rfl, rfl, rfl, fun h => h⟩

theorem Same.trans {s t u : State D L O} (h : Same s t) (h' : Same t u) : Same s u :=
  ⟨h'.defs.trans h.defs, h'.comp.trans h.comp, h'.jobs.trans h.jobs, fun e => h'.cancel (h.cancel e)⟩

theorem step_same {a : Act L} (h : Step P a s t) (hb : s.busy) (hw : ¬ Works a) : Same s t := by
  cases h with
  | enter hu => obtain ⟨l, x, e⟩ := hb; rw [hu] at e; cases e
  | tick hu hr => exact ⟨rfl, rfl, rfl, fun e => by show (s.cancel || _) = true; rw [e]; rfl⟩
  | draw hu hr => exact ⟨rfl, rfl, rfl, fun e => e⟩
  | take hu hc => exact absurd .take hw
  | read => exact absurd .job hw
  | finish => exact absurd .job hw
  | twice => exact absurd .job hw
  | reread => exact absurd .job hw
  | fail => exact absurd .job hw
  | own => exact absurd .job hw
  | ownFail => exact absurd .job hw
  | _ => exact absurd .compute hw

theorem compute_same {u : State D L O} (h : Step P .compute s u) (hs : Same s t) : ∃ u, Step P .compute t u := by
  have hw : t.canWrite = s.canWrite := by unfold State.canWrite; rw [hs.jobs]
  cases h with
  | other hc hk => exact ⟨_, .other (by rw [hs.comp]; exact hc) hk⟩
  | claim hc hk => exact ⟨_, .claim (by rw [hs.comp]; exact hc) hk⟩
  | write hc hw' hd hf => exact ⟨_, .write (by rw [hs.comp]; exact hc) (by rw [hw]; exact hw') (by rw [hs.defs]; exact hd) (by rw [hs.defs]; exact hf)⟩
  | writeOn hc hw' hd hf => exact ⟨_, .writeOn (by rw [hs.comp]; exact hc) (by rw [hw]; exact hw') (by rw [hs.defs]; exact hd) (by rw [hs.defs]; exact hf)⟩
  | crash hc hw' hd => exact ⟨_, .crash (by rw [hs.comp]; exact hc) (by rw [hw]; exact hw') (by rw [hs.defs]; exact hd)⟩
  | expr hc hk => exact ⟨_, .expr (by rw [hs.comp]; exact hc) hk⟩
  | batch hc hk => exact ⟨_, .batch (by rw [hs.comp]; exact hc) hk⟩
  | join hc hj => exact ⟨_, .join (by rw [hs.comp]; exact hc) (by rw [hs.jobs]; exact hj)⟩
  | quit hc hq => exact ⟨_, .quit (by rw [hs.comp]; exact hc) (hs.cancel hq)⟩

theorem job_same {i : Nat} {u : State D L O} (h : Step P (.job i) s u) (hs : Same s t) : ∃ u, Step P (.job i) t u := by
  have hr : t.canRead = s.canRead := by unfold State.canRead; rw [hs.comp]
  cases h with
  | read hj h1 => exact ⟨_, .read (by rw [hs.jobs]; exact hj) (by rw [hr]; exact h1)⟩
  | finish hj h1 h2 h3 => exact ⟨_, .finish (by rw [hs.jobs]; exact hj) (by rw [hs.defs]; exact h1) (by rw [hs.defs]; exact h2) (by rw [hs.defs]; exact h3)⟩
  | twice hj h1 h2 h3 => exact ⟨_, .twice (by rw [hs.jobs]; exact hj) (by rw [hs.defs]; exact h1) (by rw [hs.defs]; exact h2) (by rw [hs.defs]; exact h3)⟩
  | reread hj h1 => exact ⟨_, .reread (by rw [hs.jobs]; exact hj) (by rw [hr]; exact h1)⟩
  | fail hj h1 h2 => exact ⟨_, .fail (by rw [hs.jobs]; exact hj) (by rw [hs.defs]; exact h1) (by rw [hs.defs]; exact h2)⟩
  | own hj h1 h2 => exact ⟨_, .own (by rw [hs.jobs]; exact hj) h1 h2⟩
  | ownFail hj h1 h2 => exact ⟨_, .ownFail (by rw [hs.jobs]; exact hj) h1 h2⟩

theorem left_same (hs : Same s t) : t.left = s.left := by unfold State.left; rw [hs.jobs, hs.comp]

/-- What decreases at some steps and never increases comes to rest. -/
theorem rests {W : Nat → Prop} {g : Nat → Nat} (h1 : ∀ n, W n → g (n + 1) < g n) (h2 : ∀ n, ¬ W n → g (n + 1) = g n) : ∃ n, ∀ m, n ≤ m → ¬ W m := by
  have key : ∀ k n, g n ≤ k → ∃ n', ∀ m, n' ≤ m → ¬ W m := by
    intro k
    induction k with
    | zero =>
      intro n hn
      refine ⟨n, ?_⟩
      have hz : ∀ d, g (n + d) = 0 := by
        intro d
        induction d with
        | zero => exact Nat.le_zero.1 hn
        | succ d ih =>
          rcases Classical.em (W (n + d)) with hw | hw
          · have := h1 _ hw; omega
          · have := h2 _ hw; rw [← Nat.add_assoc]; omega
      intro m hm hw
      have h3 := h1 m hw
      have h4 := hz (m - n)
      rw [show n + (m - n) = m by omega] at h4
      omega
    | succ k ih =>
      intro n hn
      rcases Classical.em (∀ m, n ≤ m → ¬ W m) with h | h
      · exact ⟨n, h⟩
      · obtain ⟨m, h⟩ := Classical.not_forall.1 h
        obtain ⟨hm, h⟩ := Classical.not_imp.1 h
        have hw := Classical.not_not.1 h
        have hle : ∀ d, g (n + d) ≤ g n := by
          intro d
          induction d with
          | zero => exact Nat.le_refl _
          | succ d ih' =>
            rcases Classical.em (W (n + d)) with hw | hw
            · have := h1 _ hw; rw [← Nat.add_assoc]; omega
            · have := h2 _ hw; rw [← Nat.add_assoc]; omega
        have h3 := h1 m hw
        have h4 := hle (m - n)
        rw [show n + (m - n) = m by omega] at h4
        exact ih (m + 1) (by omega)
  exact key _ 0 (Nat.le_refl _)

/-- A line is done, or from some time on the shell waits in vain: there is no other way to wait for ever. -/
theorem returns_or_hangs (h : Runs P (State.init d0) as s) {f : Nat → State D L O} {a : Nat → Act L} (h0 : f 0 = s) (hf : Fair P f a) :
    (∃ n, ¬ (f n).busy) ∨ ∃ n, ∀ m, n ≤ m → Hangs P (f m) := by
  rcases Classical.em (∃ n, ¬ (f n).busy) with hn | hn
  · exact .inl hn
  · right
    have hb : ∀ n, (f n).busy := fun n => Classical.byContradiction fun e => hn ⟨n, e⟩
    have hr : ∀ n, ∃ as, Runs P (State.init d0) as (f n) := by
      intro n
      induction n with
      | zero => rw [h0]; exact ⟨_, h⟩
      | succ n ih => obtain ⟨as, ih⟩ := ih; exact ⟨_, .snoc ih (hf.steps n (hb n))⟩
    obtain ⟨N, hN⟩ := rests (W := fun n => Works (a n)) (g := fun n => (f n).left) (fun n hw => works_left (hf.steps n (hb n)) hw)
      (fun n hw => left_same (step_same (hf.steps n (hb n)) (hb n) hw))
    have hs : ∀ m, N ≤ m → ∀ d, Same (f m) (f (m + d)) := by
      intro m hm d
      induction d with
      | zero => exact .refl _
      | succ d ih => exact ih.trans (step_same (hf.steps _ (hb _)) (hb _) (hN _ (by omega)))
    have hs' : ∀ m n, N ≤ m → m ≤ n → Same (f m) (f n) := fun m n hm hn => by have := hs m hm (n - m); rwa [show m + (n - m) = n by omega] at this
    refine ⟨N, fun m hm => ?_⟩
    obtain ⟨_, hrm⟩ := hr m
    rcases why_waits hrm (hb m) with h | ⟨t, h⟩ | ⟨i, t, h⟩ | ⟨r, h⟩
    · exact h
    · obtain ⟨k, hk, e⟩ := hf.fair .compute .compute m fun k hk => compute_same h (hs' m k hm hk)
      exact absurd (by rw [e]; exact .compute) (hN k (by omega))
    · obtain ⟨k, hk, e⟩ := hf.fair (.job i) .job m fun k hk => job_same h (hs' m k hm hk)
      exact absurd (by rw [e]; exact .job) (hN k (by omega))
    · exfalso
      have hcomp : ∀ k, m ≤ k → (f k).comp = .ended r := fun k hk => by rw [(hs' m k hm hk).comp]; exact h
      have undrawn : ∀ k, m ≤ k → ∀ l, (f k).ui ≠ .busy l false := by
        intro k hk l hu
        have h1 := hf.steps k (hb k)
        have h2 := hN k (by omega)
        generalize a k = x at h1 h2
        generalize f (k + 1) = u at h1
        have h3 := hcomp k hk
        generalize hv : f k = v at h1
        cases h1 with
        | enter hu' => rw [hv, hu'] at hu; cases hu
        | draw hu' _ => rw [hv, hu'] at hu; cases hu
        | tick _ hr => rw [hv] at h3; exact hr r h3
        | take => exact h2 .take
        | read => exact h2 .job
        | finish => exact h2 .job
        | twice => exact h2 .job
        | reread => exact h2 .job
        | fail => exact h2 .job
        | own => exact h2 .job
        | ownFail => exact h2 .job
        | _ => exact h2 .compute
      have h1 := hf.steps m (hb m)
      have h2 := hN m hm
      have h3 := hcomp m (Nat.le_refl _)
      have h4 := undrawn (m + 1) (by omega)
      obtain ⟨l, x, hbm⟩ := hb m
      generalize a m = x at h1 h2
      generalize f (m + 1) = u at h1 h4
      generalize f m = v at h1 h3 hbm
      cases h1 with
      | enter hu' => rw [hu'] at hbm; cases hbm
      | draw hu' _ => exact h4 _ rfl
      | tick _ hr => exact hr r h3
      | take => exact h2 .take
      | read => exact h2 .job
      | finish => exact h2 .job
      | twice => exact h2 .job
      | reread => exact h2 .job
      | fail => exact h2 .job
      | own => exact h2 .job
      | ownFail => exact h2 .job
      | _ => exact h2 .compute

theorem tame_wait {as' : List (Act L)} (hT : Tame P) (h : Runs P (State.init d0) as' s) : (∀ (i : Nat) (l : L) (o : O), s.jobs[i]? ≠ some (.wait l o)) ∧ (∀ (i : Nat), s.jobs[i]? ≠ some .dead) ∧ s.comp ≠ .dead := by
  have hset : ∀ {t : State D L O} {i k : Nat} {j j' : Job D L O}, (t.jobs.set i j')[k]? = some j → j = j' ∨ t.jobs[k]? = some j := by
    intro t i k j j' h
    by_cases e : i = k
    · subst e
      rw [List.getElem?_set] at h
      simp only [if_true] at h
      split at h
      · left; cases h; rfl
      · cases h
    · rw [List.getElem?_set_ne e] at h; exact .inr h
  have happ : ∀ {t : State D L O} {k : Nat} {j j' : Job D L O}, (t.jobs ++ [j'])[k]? = some j → j = j' ∨ t.jobs[k]? = some j := by
    intro t k j j' h
    rcases List.mem_append.1 (List.mem_of_getElem? h) with _ | hm
    · by_cases hk : k < t.jobs.length
      · rw [List.getElem?_append_left hk] at h; exact .inr h
      · rw [List.getElem?_append_right (by omega)] at h
        rcases List.mem_singleton.1 (List.mem_of_getElem? h) with rfl
        exact .inl rfl
    · exact .inl (List.mem_singleton.1 hm)
  generalize h0 : State.init d0 = s0 at h
  induction h with
  | nil => subst h0; exact ⟨fun i l o e => (by cases e), fun i e => (by cases e), fun e => by cases e⟩
  | snoc _ h2 ih =>
    obtain ⟨h3, h4, h5⟩ := ih
    cases h2 with
    | enter hu => exact ⟨h3, h4, fun e => by cases e⟩
    | draw hu hr => exact ⟨h3, h4, h5⟩
    | tick hu hr => exact ⟨h3, h4, h5⟩
    | take hu hc => exact ⟨h3, h4, fun e => by cases e⟩
    | other hc hk => exact ⟨h3, h4, fun e => by cases e⟩
    | claim hc hk => exact ⟨h3, h4, fun e => by cases e⟩
    | write hc hw hd hf => exact ⟨h3, h4, fun e => by cases e⟩
    | crash hc hw hd => exact absurd hd (hT.define _ _)
    | join hc hj => exact ⟨h3, h4, fun e => by cases e⟩
    | quit hc hq => exact ⟨h3, h4, fun e => by cases e⟩
    | writeOn hc hw hd hf =>
      exact ⟨fun i l o e => (happ e).elim (fun e => by cases e) (h3 i l o), fun i e => (happ e).elim (fun e => by cases e) (h4 i), fun e => by cases e⟩
    | expr hc hk =>
      exact ⟨fun i l o e => (happ e).elim (fun e => by cases e) (h3 i l o), fun i e => (happ e).elim (fun e => by cases e) (h4 i), fun e => by cases e⟩
    | batch hc hk =>
      exact ⟨fun i l o e => (happ e).elim (fun e => by cases e) (h3 i l o), fun i e => (happ e).elim (fun e => by cases e) (h4 i), fun e => by cases e⟩
    | read hj hr => exact ⟨fun i l o e => (hset e).elim (fun e => by cases e) (h3 i l o), fun i e => (hset e).elim (fun e => by cases e) (h4 i), h5⟩
    | finish hj h6 h7 h8 => exact ⟨fun i l o e => (hset e).elim (fun e => by cases e) (h3 i l o), fun i e => (hset e).elim (fun e => by cases e) (h4 i), h5⟩
    | twice hj h6 h7 h8 => rw [hT.again] at h8; cases h8
    | reread hj hr => exact ⟨fun i l o e => (hset e).elim (fun e => by cases e) (h3 i l o), fun i e => (hset e).elim (fun e => by cases e) (h4 i), h5⟩
    | fail hj h6 h7 => exact absurd h7 (hT.eval _ _)
    | own hj h6 h7 => exact ⟨fun i l o e => (hset e).elim (fun e => by cases e) (h3 i l o), fun i e => (hset e).elim (fun e => by cases e) (h4 i), h5⟩
    | ownFail hj h6 h7 => exact absurd h7 (hT.eval _ _)

/-- If lines end without panics and give no help, the shell comes back to the prompt. -/
theorem comes_back_partial (hT : Tame P) (h : Runs P (State.init d0) as s) {f : Nat → State D L O} {a : Nat → Act L} (h0 : f 0 = s) (hf : Fair P f a) :
    ∃ n, (f n).ui = .idle := by
  have hidle : ∀ n, ¬ (f n).busy → (f n).ui = .idle := by
    intro n hn
    cases hu : (f n).ui with
    | idle => rfl
    | busy l x => exact absurd ⟨l, x, hu⟩ hn
  rcases Classical.em (∃ n, ¬ (f n).busy) with ⟨n, hn⟩ | hn
  · exact ⟨n, hidle n hn⟩
  · exfalso
    have hb : ∀ n, (f n).busy := fun n => Classical.byContradiction fun e => hn ⟨n, e⟩
    have hr : ∀ n, ∃ as, Runs P (State.init d0) as (f n) := by
      intro n
      induction n with
      | zero => rw [h0]; exact ⟨_, h⟩
      | succ n ih => obtain ⟨as, ih⟩ := ih; exact ⟨_, .snoc ih (hf.steps n (hb n))⟩
    rcases returns_or_hangs h h0 hf with ⟨n, e⟩ | ⟨n, e⟩
    · exact e (hb n)
    · obtain ⟨_, hrn⟩ := hr n
      obtain ⟨h1, h2, h3⟩ := tame_wait hT hrn
      cases e n (Nat.le_refl _) with
      | panicked hc => exact h3 hc
      | failed _ _ hj => exact h2 _ hj
      | endless _ _ _ he => rw [hT.ends] at he; cases he
      | endlessBatch _ _ _ he => rw [hT.ends] at he; cases he
      | blocked _ _ he => rw [hT.ends] at he; cases he
      | deadlock _ hj => exact h1 _ _ _ hj

/-- A line that is being evaluated does not hang once it is aborted, whatever it does. At most three steps lead back to the prompt; the definitions are
the same and nothing is shown for it. -/
theorem abort_comes_back (h : Runs P (State.init d0) as s) {i : Nat} (hc : s.comp = .poll i) (hq : s.cancel = true) :
    ¬ Hangs P s ∧ ∃ bs t, bs.length ≤ 3 ∧ Runs P s bs t ∧ t.ui = .idle ∧ t.defs = s.defs ∧ ∃ l, t.log = s.log ++ [(l, none)] := by
  have hi := runs_inv (init_inv P d0) h
  obtain ⟨l, x, hu, _⟩ := phase_idle hi (by rw [hc]; exact fun e => by cases e)
  have h1 : Step P .compute s { s with comp := .ended none } := .quit hc hq
  refine ⟨fun hs => ?_, ?_⟩
  · cases hs with
    | panicked e => rw [hc] at e; cases e
    | failed _ e _ => rw [hq] at e; cases e
    | endless _ e _ _ => rw [hq] at e; cases e
    | endlessBatch _ e _ _ => rw [hq] at e; cases e
    | blocked e _ _ => rw [hc] at e; cases e
    | deadlock e _ => rw [hc] at e; cases e
  · cases x with
    | false =>
      exact ⟨[.compute, .take], _, by simp, .snoc (.snoc .nil h1) (.take (l := l) (r := none) hu rfl), rfl, rfl, l, rfl⟩
    | true =>
      exact ⟨[.compute, .draw, .take], _, by simp, .snoc (.snoc (.snoc .nil h1) (.draw (l := l) hu rfl)) (.take (l := l) (r := none) rfl rfl), rfl, rfl, l, rfl⟩

/-! ### Where it goes wrong -/

/-- After a panic of the compute thread the prompt never comes back, and nothing can be done about it. -/
theorem panic_is_final (h : Runs P s as t) (hb : s.busy) (hd : s.comp = .dead) : t.busy ∧ t.comp = .dead := by
  induction h with
  | nil => exact ⟨hb, hd⟩
  | snoc _ h2 ih =>
    obtain ⟨⟨l, x, hu⟩, hc⟩ := ih
    cases h2 with
    | enter hu' => rw [hu] at hu'; cases hu'
    | draw hu' _ => exact ⟨⟨_, _, rfl⟩, hc⟩
    | tick hu' _ => exact ⟨⟨_, _, rfl⟩, hc⟩
    | take _ hc' => rw [hc] at hc'; cases hc'
    | read => exact ⟨⟨l, x, hu⟩, hc⟩
    | finish => exact ⟨⟨l, x, hu⟩, hc⟩
    | twice => exact ⟨⟨l, x, hu⟩, hc⟩
    | reread => exact ⟨⟨l, x, hu⟩, hc⟩
    | fail => exact ⟨⟨l, x, hu⟩, hc⟩
    | own => exact ⟨⟨l, x, hu⟩, hc⟩
    | ownFail => exact ⟨⟨l, x, hu⟩, hc⟩
    | other hc' => rw [hc] at hc'; cases hc'
    | claim hc' => rw [hc] at hc'; cases hc'
    | write hc' => rw [hc] at hc'; cases hc'
    | writeOn hc' => rw [hc] at hc'; cases hc'
    | crash hc' => rw [hc] at hc'; cases hc'
    | expr hc' => rw [hc] at hc'; cases hc'
    | batch hc' => rw [hc] at hc'; cases hc'
    | join hc' => rw [hc] at hc'; cases hc'
    | quit hc' => rw [hc] at hc'; cases hc'

/-- A reader that holds on: it does not end, or it waits for the lock a second time. -/
def Holds (P : Prog D L O) (d : D) : Job D L O → Prop
  | .read m => P.ends m d = false
  | .wait _ _ => True
  | _ => False

theorem holds_reads {d : D} {j : Job D L O} (h : Holds P d j) : j.reads = true := by cases j <;> first | rfl | exact h.elim

/-- If a definition waits for such a reader, the prompt never comes back, whatever is pressed; nothing is even drawn. -/
theorem definition_waits_for_ever (h : Runs P s as t) (hb : s.busy) {l : L} (hc : s.comp = .claimed l) {i : Nat} {j : Job D L O} (hj : s.jobs[i]? = some j)
    (hh : Holds P s.defs j) : t.busy ∧ t.comp = .claimed l ∧ t.jobs[i]? = some j ∧ t.defs = s.defs ∧ Act.draw ∉ as := by
  induction h with
  | nil => exact ⟨hb, hc, hj, rfl, fun e => by cases e⟩
  | @snoc t u as a h1 h2 ih =>
    obtain ⟨⟨m, x, hu⟩, hc1, hj1, hd1, hn⟩ := ih
    have hw : t.canWrite ≠ true := by
      unfold State.canWrite
      rw [List.any_eq_true.2 ⟨j, List.mem_of_getElem? hj1, holds_reads hh⟩]
      exact fun e => by cases e
    have hr : t.canRead ≠ true := by
      unfold State.canRead
      rw [hc1]
      exact fun e => by cases e
    have other : ∀ {k : Nat} {j1 j2 : Job D L O}, t.jobs[k]? = some j1 → ¬ Holds P t.defs j1 → (t.jobs.set k j2)[i]? = some j := by
      intro k j1 j2 hk hno
      rw [List.getElem?_set_ne]
      · exact hj1
      · rintro rfl
        rw [hj1] at hk
        cases hk
        rw [hd1] at hno
        exact hno hh
    have keep : ∀ {a : Act L}, a ≠ .draw → Act.draw ∉ as ++ [a] := fun ha hm => by
      rcases List.mem_append.1 hm with h | h
      · exact hn h
      · exact ha (List.mem_singleton.1 h).symm
    cases h2 with
    | enter hu' => rw [hu] at hu'; cases hu'
    | draw _ hr' => exact absurd hr' hr
    | tick hu' _ => exact ⟨⟨_, _, rfl⟩, hc1, hj1, hd1, keep fun e => by cases e⟩
    | take _ hc' => rw [hc1] at hc'; cases hc'
    | read _ hr' => exact absurd hr' hr
    | reread _ hr' => exact absurd hr' hr
    | finish hk he _ _ => exact ⟨⟨m, x, hu⟩, hc1, other hk (fun e => by rw [Holds, he] at e; cases e), hd1, keep fun e => by cases e⟩
    | twice hk he _ _ => exact ⟨⟨m, x, hu⟩, hc1, other hk (fun e => by rw [Holds, he] at e; cases e), hd1, keep fun e => by cases e⟩
    | fail hk he _ => exact ⟨⟨m, x, hu⟩, hc1, other hk (fun e => by rw [Holds, he] at e; cases e), hd1, keep fun e => by cases e⟩
    | own hk he _ => exact ⟨⟨m, x, hu⟩, hc1, other hk (fun e => e), hd1, keep fun e => by cases e⟩
    | ownFail hk he _ => exact ⟨⟨m, x, hu⟩, hc1, other hk (fun e => e), hd1, keep fun e => by cases e⟩
    | write _ hw' => exact absurd hw' hw
    | writeOn _ hw' => exact absurd hw' hw
    | crash _ hw' => exact absurd hw' hw
    | other hc' => rw [hc1] at hc'; cases hc'
    | claim hc' => rw [hc1] at hc'; cases hc'
    | expr hc' => rw [hc1] at hc'; cases hc'
    | batch hc' => rw [hc1] at hc'; cases hc'
    | join hc' => rw [hc1] at hc'; cases hc'
    | quit hc' => rw [hc1] at hc'; cases hc'

/-! ### A shell in which it happens -/

/-- Some lines. -/
inductive Line
  | cd
  | def_
  | bad
  | one
  | long
  | help
  | list
deriving DecidableEq, Repr

/-- Definitions are counted. `long` does not end, `help` gives help, `bad` panics. -/
def demo : Prog Nat Line Nat where
  kind
    | .cd => .other
    | .def_ => .define
    | .bad => .define
    | .list => .define
    | _ => .expr
  answer _ _ := 0
  define
    | .bad, _ => none
    | .list, d => some (d, 0)
    | _, d => some (d + 1, 0)
  follows
    | .list, _ => true
    | _, _ => false
  eval _ d := some d
  ends
    | .long, _ => false
    | _, _ => true
  again
    | .help, _ => true
    | _, _ => false

/-- The same without the lines that go wrong. -/
def good : Prog Nat Line Nat := { demo with define := fun l d => if l = .list then some (d, 0) else some (d + 1, 0), ends := fun _ _ => true, again := fun _ _ => false }

theorem good_tame : Tame good :=
  ⟨fun l d => by show (if l = .list then some (d, 0) else some (d + 1, 0)) ≠ none; split <;> simp, fun l d e => (by cases e), fun l d => rfl, fun l d => rfl⟩

/-- Something that happens from now on, after `cd` was entered. -/
example : ∃ f a, f 0 = entered (State.init 0) .cd ∧ Fair good f a := by
  let s0 : State Nat Line Nat := entered (State.init 0) .cd
  let s1 : State Nat Line Nat := { s0 with comp := .ended (some 0) }
  let s2 : State Nat Line Nat := { s1 with ui := .busy .cd false }
  let s3 : State Nat Line Nat := { s2 with ui := .idle, comp := .none, log := [(.cd, some 0)] }
  refine ⟨fun n => if n = 0 then s0 else if n = 1 then s1 else if n = 2 then s2 else s3, fun n => if n = 0 then .compute else if n = 1 then .draw else .take, rfl, ?_, ?_⟩
  · intro n hb
    match n with
    | 0 => exact .other rfl rfl
    | 1 => exact .draw rfl rfl
    | 2 => exact .take rfl rfl
    | n + 3 =>
      obtain ⟨l, x, e⟩ := hb
      rw [if_neg (by omega), if_neg (by omega), if_neg (by omega)] at e
      cases e
  · intro x hx n h
    exfalso
    obtain ⟨t, h⟩ := h (n + 3) (by omega)
    rw [if_neg (by omega), if_neg (by omega), if_neg (by omega)] at h
    cases hx with
    | take => generalize hs : s3 = s at h; cases h with | take hu _ => rw [← hs] at hu; cases hu
    | compute =>
      generalize hs : s3 = s at h
      cases h with
      | other hc => rw [← hs] at hc; cases hc
      | claim hc => rw [← hs] at hc; cases hc
      | write hc => rw [← hs] at hc; cases hc
      | writeOn hc => rw [← hs] at hc; cases hc
      | crash hc => rw [← hs] at hc; cases hc
      | expr hc => rw [← hs] at hc; cases hc
      | batch hc => rw [← hs] at hc; cases hc
      | join hc => rw [← hs] at hc; cases hc
      | quit hc => rw [← hs] at hc; cases hc
    | job =>
      generalize hs : s3 = s at h
      cases h with
      | read hj => rw [← hs] at hj; cases hj
      | finish hj => rw [← hs] at hj; cases hj
      | twice hj => rw [← hs] at hj; cases hj
      | reread hj => rw [← hs] at hj; cases hj
      | fail hj => rw [← hs] at hj; cases hj
      | own hj => rw [← hs] at hj; cases hj
      | ownFail hj => rw [← hs] at hj; cases hj

/-- A line that does not end, aborted. -/
example : ∃ as s i, Runs demo (State.init 0) as s ∧ s.comp = .poll i ∧ s.cancel = true := by
  have r0 : Runs demo (State.init 0) [] (State.init 0) := .nil
  have r1 := r0.snoc (Step.enter (l := .long) rfl)
  have r2 := r1.snoc (Step.expr rfl rfl)
  have r3 := r2.snoc (Step.read (i := 0) rfl rfl)
  have r4 := r3.snoc (Step.draw rfl rfl)
  have r5 := r4.snoc (Step.tick (x := true) rfl (fun r e => by cases e))
  exact ⟨_, _, _, r5, rfl, rfl⟩

/-- A line is entered which panics (`def-ty A { } --help`): the shell never comes back. -/
theorem panic_hangs : ∃ as s, Runs demo (State.init 0) as s ∧ s.busy ∧ s.comp = .dead := by
  have r0 : Runs demo (State.init 0) [] (State.init 0) := .nil
  have r1 := r0.snoc (Step.enter (l := .bad) rfl)
  have r2 := r1.snoc (Step.claim rfl rfl)
  have r3 := r2.snoc (Step.crash rfl rfl rfl)
  exact ⟨_, _, r3, ⟨_, _, rfl⟩, rfl⟩

/-- A line that does not end is aborted, and then something is defined: the shell never comes back. -/
theorem abort_then_define : ∃ as s l m, Runs demo (State.init 0) as s ∧ s.busy ∧ s.comp = .claimed l ∧ s.jobs[0]? = some (.read m) ∧
    Holds demo s.defs (.read m) := by
  have r0 : Runs demo (State.init 0) [] (State.init 0) := .nil
  have r1 := r0.snoc (Step.enter (l := .long) rfl)
  have r2 := r1.snoc (Step.expr rfl rfl)
  have r3 := r2.snoc (Step.read (i := 0) rfl rfl)
  have r4 := r3.snoc (Step.draw rfl rfl)
  have r5 := r4.snoc (Step.tick (x := true) rfl (fun r e => by cases e))
  have r6 := r5.snoc (Step.quit rfl rfl)
  have r7 := r6.snoc (Step.draw rfl rfl)
  have r8 := r7.snoc (Step.take rfl rfl)
  have r9 := r8.snoc (Step.enter (l := .def_) rfl)
  have r10 := r9.snoc (Step.claim rfl rfl)
  exact ⟨_, _, _, _, r10, ⟨_, _, rfl⟩, rfl, rfl, rfl⟩

/-- A line that gives help is aborted before it does, and then something is defined: each waits for the other. -/
theorem help_deadlocks : ∃ as s l m o, Runs demo (State.init 0) as s ∧ s.busy ∧ s.comp = .claimed l ∧ s.jobs[0]? = some (.wait m o) ∧
    Holds demo s.defs (.wait m o) := by
  have r0 : Runs demo (State.init 0) [] (State.init 0) := .nil
  have r1 := r0.snoc (Step.enter (l := .help) rfl)
  have r2 := r1.snoc (Step.expr rfl rfl)
  have r3 := r2.snoc (Step.read (i := 0) rfl rfl)
  have r4 := r3.snoc (Step.draw rfl rfl)
  have r5 := r4.snoc (Step.tick (x := true) rfl (fun r e => by cases e))
  have r6 := r5.snoc (Step.quit rfl rfl)
  have r7 := r6.snoc (Step.draw rfl rfl)
  have r8 := r7.snoc (Step.take rfl rfl)
  have r9 := r8.snoc (Step.enter (l := .def_) rfl)
  have r10 := r9.snoc (Step.claim rfl rfl)
  have r11 := r10.snoc (Step.twice (i := 0) (o := 0) rfl rfl rfl rfl)
  exact ⟨_, _, _, _, _, r11, ⟨_, _, rfl⟩, rfl, rfl, trivial⟩

/-- A line is aborted, the definitions are changed, and the list of them is shown. -/
example : ∃ as s, Runs demo (State.init 0) as s ∧ s.ui = .idle ∧ s.log = [(.one, none), (.def_, some 0), (.list, some 1)] ∧ s.defs = 1 ∧
    s.jobs[0]? = some (.start .one) := by
  have r0 : Runs demo (State.init 0) [] (State.init 0) := .nil
  have r1 := r0.snoc (Step.enter (l := .one) rfl)
  have r2 := r1.snoc (Step.expr rfl rfl)
  have r3 := r2.snoc (Step.draw rfl rfl)
  have r4 := r3.snoc (Step.tick (x := true) rfl (fun r e => by cases e))
  have r5 := r4.snoc (Step.quit rfl rfl)
  have r6 := r5.snoc (Step.draw rfl rfl)
  have r7 := r6.snoc (Step.take rfl rfl)
  have r8 := r7.snoc (Step.enter (l := .def_) rfl)
  have r9 := r8.snoc (Step.claim rfl rfl)
  have r10 := r9.snoc (Step.write rfl rfl rfl rfl)
  have r11 := r10.snoc (Step.draw rfl rfl)
  have r12 := r11.snoc (Step.take rfl rfl)
  have r13 := r12.snoc (Step.enter (l := .list) rfl)
  have r14 := r13.snoc (Step.claim rfl rfl)
  have r15 := r14.snoc (Step.writeOn rfl rfl rfl rfl)
  have r16 := r15.snoc (Step.draw rfl rfl)
  have r17 := r16.snoc (Step.read (i := 1) rfl rfl)
  have r18 := r17.snoc (Step.finish (i := 1) rfl rfl rfl rfl)
  have r19 := r18.snoc (Step.join rfl rfl)
  have r20 := r19.snoc (Step.take rfl rfl)
  exact ⟨_, _, r20, rfl, rfl, rfl, rfl⟩

end Verif.Turns
