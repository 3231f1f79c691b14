import Verif.Model.Keys
/-! C106: no key is lost. -/
namespace Verif.Keys

variable {K : Type}

/-- The keys that were pressed, in order. -/
def pressed (as : List (Act K)) : List K := as.filterMap fun a => match a with | .press k => some k | _ => none

/-- The keys that were taken, in order. -/
def taken (l : List (Item K)) : List K := l.filterMap fun i => match i with | .key k _ => some k | _ => none

/-- After these happenings a line is being evaluated. -/
def Busy (l : List (Item K)) : Prop := ∃ before after, l = before ++ .began :: after ∧ ∀ i ∈ after, ∃ k f, i = .key k f

/-- A line is being evaluated, and was aborted. -/
def Stopped (stop : K → Bool) (l : List (Item K)) : Prop :=
  ∃ before after, l = before ++ .began :: after ∧ (∀ i ∈ after, ∃ k f, i = .key k f) ∧ ∃ k f, .key k f ∈ after ∧ stop k = true

/-- After the last line, a key was handled that asks for evaluation. -/
def Asked (eff : List (Item K) → K → Eff) (l : List (Item K)) : Prop :=
  ∃ before k after, l = before ++ .key k .handled :: after ∧ eff before k = .eval ∧ ∀ i ∈ after, ∃ k f, i = .key k f

/-- What has to become of what happens after `l`. -/
def Right (eff : List (Item K) → K → Eff) (stop : K → Bool) (l : List (Item K)) : Item K → Prop
  | .key k f => (f = .handled ↔ ¬ Busy l) ∧ (f = .aborted ↔ Busy l ∧ stop k = true)
  | .began => ¬ Busy l ∧ Asked eff l
  | .ended c => Busy l ∧ (c = true ↔ Stopped stop l)

theorem busy_nil : ¬ Busy ([] : List (Item K)) := by
  rintro ⟨b, a, e, _⟩
  simp at e

theorem append_last {l b a : List (Item K)} {x y : Item K} (e : l ++ [x] = b ++ y :: a) :
    (a = [] ∧ l = b ∧ x = y) ∨ ∃ a', a = a' ++ [x] ∧ l = b ++ y :: a' := by
  rcases List.eq_nil_or_concat a with rfl | ⟨a', z, rfl⟩
  · left
    have := List.append_inj' e rfl
    simp at this
    exact ⟨rfl, this.1, this.2⟩
  · right
    rw [List.concat_eq_append] at e ⊢
    have e' : l ++ [x] = (b ++ y :: a') ++ [z] := by rw [e]; simp
    have := List.append_inj' e' rfl
    simp at this
    exact ⟨a', by rw [this.2], this.1⟩

theorem busy_key (l : List (Item K)) (k : K) (f : Fate) : Busy (l ++ [.key k f]) ↔ Busy l := by
  constructor
  · rintro ⟨b, a, e, h⟩
    rcases append_last e with ⟨_, _, e⟩ | ⟨a', rfl, e1⟩
    · cases e
    · exact ⟨b, a', e1, fun i hi => h i (by simp [hi])⟩
  · rintro ⟨b, a, rfl, h⟩
    refine ⟨b, a ++ [.key k f], by simp, fun i hi => ?_⟩
    rcases List.mem_append.1 hi with hi | hi
    · exact h i hi
    · exact ⟨k, f, by simpa using hi⟩

theorem busy_began (l : List (Item K)) : Busy (l ++ [.began]) := ⟨l, [], rfl, by simp⟩

theorem busy_ended (l : List (Item K)) (c : Bool) : ¬ Busy (l ++ [.ended c]) := by
  rintro ⟨b, a, e, h⟩
  rcases append_last e with ⟨_, _, e⟩ | ⟨a', rfl, e⟩
  · cases e
  · obtain ⟨_, _, e⟩ := h (.ended c) (by simp)
    cases e

theorem stopped_key (stop : K → Bool) (l : List (Item K)) (k : K) (f : Fate) :
    Stopped stop (l ++ [.key k f]) ↔ Stopped stop l ∨ Busy l ∧ stop k = true := by
  constructor
  · rintro ⟨b, a, e, h, k', f', hm, hs⟩
    rcases append_last e with ⟨_, _, e⟩ | ⟨a', rfl, e1⟩
    · cases e
    · rcases List.mem_append.1 hm with hm | hm
      · exact Or.inl ⟨b, a', e1, fun i hi => h i (by simp [hi]), k', f', hm, hs⟩
      · refine Or.inr ⟨⟨b, a', e1, fun i hi => h i (by simp [hi])⟩, ?_⟩
        simp at hm
        rw [← hm.1]
        exact hs
  · rintro (⟨b, a, rfl, h, k', f', hm, hs⟩ | ⟨⟨b, a, rfl, h⟩, hs⟩)
    · refine ⟨b, a ++ [.key k f], by simp, fun i hi => ?_, k', f', by simp [hm], hs⟩
      rcases List.mem_append.1 hi with hi | hi
      · exact h i hi
      · exact ⟨k, f, by simpa using hi⟩
    · refine ⟨b, a ++ [.key k f], by simp, fun i hi => ?_, k, f, by simp, hs⟩
      rcases List.mem_append.1 hi with hi | hi
      · exact h i hi
      · exact ⟨k, f, by simpa using hi⟩

theorem stopped_began (stop : K → Bool) (l : List (Item K)) : ¬ Stopped stop (l ++ [.began]) := by
  rintro ⟨b, a, e, h, k', f', hm, hs⟩
  rcases append_last e with ⟨rfl, _, _⟩ | ⟨a', rfl, e⟩
  · simp at hm
  · obtain ⟨_, _, e⟩ := h .began (by simp)
    cases e

/-- What the phase says about the past. -/
def PhaseOk (eff : List (Item K) → K → Eff) (stop : K → Bool) (l : List (Item K)) : Phase → Prop
  | .drain r => ¬ Busy l ∧ (r = .eval → Asked eff l)
  | .wait c => Busy l ∧ (c = true ↔ Stopped stop l)
  | .look c => Busy l ∧ (c = true ↔ Stopped stop l)
  | .left => True

def AllRight (eff : List (Item K) → K → Eff) (stop : K → Bool) (l : List (Item K)) : Prop :=
  ∀ before i after, l = before ++ i :: after → Right eff stop before i

theorem allRight_concat {eff : List (Item K) → K → Eff} {stop : K → Bool} {l : List (Item K)} {x : Item K} (h : AllRight eff stop l) (hx : Right eff stop l x) :
    AllRight eff stop (l ++ [x]) := by
  intro b i a e
  rcases append_last e with ⟨_, rfl, rfl⟩ | ⟨a', _, e⟩
  · exact hx
  · exact h b i a' e

theorem max_eval {a b : Eff} (h : a.max b = .eval) : a = .eval ∨ b = .eval := by
  cases a <;> cases b <;> simp_all [Eff.max]

structure Inv (eff : List (Item K) → K → Eff) (stop : K → Bool) (as : List (Act K)) (s : State K) : Prop where
  keys : taken s.log ++ s.queue = pressed as
  right : AllRight eff stop s.log
  phase : PhaseOk eff stop s.log s.phase

theorem inv_step {eff : List (Item K) → K → Eff} {stop : K → Bool} {as : List (Act K)} {s : State K} (h : Inv eff stop as s) (a : Act K) :
    Inv eff stop (as ++ [a]) (step eff stop s a) := by
  obtain ⟨hk, hr, hp⟩ := h
  have hgo : ∀ d, pressed (as ++ [Act.go d]) = pressed as := by intro d; simp [pressed]
  cases a with
  | press k =>
    refine ⟨?_, hr, hp⟩
    simp only [step, ← List.append_assoc, hk]
    simp [pressed]
  | go d =>
    obtain ⟨q, p, l⟩ := s
    dsimp only at hk hr hp
    cases p with
    | drain r =>
      cases q with
      | cons k q =>
        refine ⟨?_, allRight_concat hr ?_, ?_⟩
        · rw [hgo, ← hk]; simp [step, taken]
        · have hp1 : ¬ Busy l := hp.1
          exact ⟨by simp [hp1], by simp [hp1]⟩
        · refine ⟨fun hb => hp.1 ((busy_key l k .handled).1 hb), ?_⟩
          intro e
          rcases max_eval e with e | e
          · obtain ⟨b, k', a, rfl, he, ha⟩ := hp.2 e
            refine ⟨b, k', a ++ [.key k .handled], by simp [step], he, fun i hi => ?_⟩
            rcases List.mem_append.1 hi with hi | hi
            · exact ha i hi
            · exact ⟨k, .handled, by simpa using hi⟩
          · exact ⟨l, k, [], rfl, e, by simp⟩
      | nil =>
        cases r with
        | quit => exact ⟨by rw [hgo, ← hk]; rfl, hr, trivial⟩
        | eval =>
          refine ⟨?_, allRight_concat hr ⟨hp.1, hp.2 rfl⟩, busy_began _, ?_⟩
          · rw [hgo, ← hk]; simp [step, taken]
          · constructor
            · intro e; cases e
            · intro e; exact absurd e (stopped_began stop l)
        | other => exact ⟨by rw [hgo, ← hk]; rfl, hr, hp.1, fun e => by cases e⟩
    | wait c =>
      have hs : step eff stop ⟨q, .wait c, l⟩ (.go d) =
          if d then ⟨q, .drain .other, l ++ [.ended c]⟩ else ⟨q, .look c, l⟩ := by cases q <;> rfl
      rw [hs]
      split
      · refine ⟨?_, allRight_concat hr hp, busy_ended _ _, fun e => by cases e⟩
        rw [hgo, ← hk]; simp [taken]
      · exact ⟨by rw [hgo, ← hk], hr, hp⟩
    | look c =>
      cases q with
      | cons k q =>
        have hs : step eff stop ⟨k :: q, .look c, l⟩ (.go d) =
          if stop k then ⟨q, .wait true, l ++ [.key k .aborted]⟩ else ⟨q, .look c, l ++ [.key k .dropped]⟩ := rfl
        rw [hs]
        split
        · rename_i hstop
          refine ⟨?_, allRight_concat hr ⟨?_, ?_⟩, ?_, ?_⟩
          · rw [hgo, ← hk]; simp [taken]
          · simp [hp.1]
          · simp [hp.1, hstop]
          · rw [busy_key]; exact hp.1
          · rw [stopped_key]; simp [hp.1, hstop]
        · rename_i hstop
          refine ⟨?_, allRight_concat hr ⟨?_, ?_⟩, ?_, ?_⟩
          · rw [hgo, ← hk]; simp [taken]
          · simp [hp.1]
          · simp [hstop]
          · rw [busy_key]; exact hp.1
          · rw [stopped_key, hp.2]; simp [hstop]
      | nil => exact ⟨by rw [hgo, ← hk]; rfl, hr, hp⟩
    | left =>
      have hs : step eff stop ⟨q, .left, l⟩ (.go d) = ⟨q, .left, l⟩ := by cases q <;> rfl
      rw [hs]
      exact ⟨by rw [hgo, ← hk], hr, hp⟩

theorem inv_run (eff : List (Item K) → K → Eff) (stop : K → Bool) (as : List (Act K)) : Inv eff stop as (run eff stop as) := by
  suffices ∀ (bs as : List (Act K)) (s : State K), Inv eff stop as s → Inv eff stop (as ++ bs) (bs.foldl (step eff stop) s) by
    simpa [run] using this as [] (State.init K) ⟨rfl, by intro b i a e; simp [State.init] at e, busy_nil, fun e => by cases e⟩
  intro bs
  induction bs with
  | nil => intro as s h; simpa using h
  | cons b bs ih =>
    intro as s h
    have := ih (as ++ [b]) _ (inv_step (eff := eff) h b)
    simpa using this

/-- C106. Whenever keys are pressed and however the threads run: each key is taken once and in order, or is still waiting. A key
is handled if and only if no line is being evaluated when it is taken; otherwise it aborts the line, if and only if it is
Ctrl+x. A line counts as aborted at its end if and only if Ctrl+x was taken while it was evaluated, and it was then not pressed before
the line was entered. Lines are evaluated one at a time, each
after a key that asks for it.
Partial: other keys that are taken while a line is evaluated are lost (`keys_are_lost`), and Ctrl+x is not seen if it is taken with the key
that enters the line (`abort_is_lost`). -/
theorem keys_in_order_partial (eff : List (Item K) → K → Eff) (stop : K → Bool) (as : List (Act K)) :
    pressed as = taken (run eff stop as).log ++ (run eff stop as).queue ∧
    ∀ before i after, (run eff stop as).log = before ++ i :: after →
      match i with
      | .key k f => (f = .handled ↔ ¬ Busy before) ∧ (f = .aborted ↔ Busy before ∧ stop k = true)
      | .began => ¬ Busy before ∧ Asked eff before
      | .ended c => Busy before ∧ (c = true ↔ Stopped stop before) := by
  obtain ⟨h1, h2, _⟩ := inv_run eff stop as
  refine ⟨h1.symm, ?_⟩
  intro b i a e
  have := h2 b i a e
  cases i <;> exact this

theorem asked_handled (eff : List (Item K) → K → Eff) (l : List (Item K)) (k : K) (f : Fate) (h : Asked eff (l ++ [.key k f])) :
    Asked eff l ∨ eff l k = .eval := by
  obtain ⟨b, k', a, e, he, ha⟩ := h
  rcases append_last e with ⟨_, rfl, e1⟩ | ⟨a', rfl, e1⟩
  · cases e1
    exact Or.inr he
  · exact Or.inl ⟨b, k', a', e1, he, fun i hi => ha i (by simp [hi])⟩

theorem asked_ended (eff : List (Item K) → K → Eff) (l : List (Item K)) (c : Bool) : ¬ Asked eff (l ++ [.ended c]) := by
  rintro ⟨b, k', a, e, he, ha⟩
  rcases append_last e with ⟨_, _, e⟩ | ⟨a', rfl, _⟩
  · cases e
  · obtain ⟨_, _, e⟩ := ha (.ended c) (by simp)
    cases e

/-- As long as no key asks to leave, the request for evaluation is kept. -/
def Kept (eff : List (Item K) → K → Eff) (s : State K) : Prop :=
  s.phase ≠ .left ∧ ∀ r, s.phase = .drain r → r ≠ .quit ∧ (Asked eff s.log → r = .eval)

theorem kept_step {eff : List (Item K) → K → Eff} {stop : K → Bool} (hq : ∀ l k, eff l k ≠ .quit) {s : State K} (h : Kept eff s) (a : Act K) :
    Kept eff (step eff stop s a) := by
  cases a with
  | press k => exact h
  | go d =>
    obtain ⟨q, p, l⟩ := s
    obtain ⟨h1, h2⟩ := h
    dsimp only at h1 h2
    cases p with
    | drain r =>
      obtain ⟨h3, h4⟩ := h2 r rfl
      cases q with
      | cons k q =>
        refine ⟨by simp [step], ?_⟩
        intro r' e
        simp only [step, Phase.drain.injEq] at e
        subst e
        have hk := hq l k
        refine ⟨by cases r <;> cases he : eff l k <;> simp_all [Eff.max], ?_⟩
        intro ha
        rcases asked_handled eff l k .handled ha with ha | ha
        · rw [h4 ha]
          cases he : eff l k <;> simp_all [Eff.max]
        · rw [ha]
          cases r <;> simp_all [Eff.max]
      | nil =>
        cases r with
        | quit => exact absurd rfl h3
        | eval => exact ⟨by simp [step], by simp [step]⟩
        | other =>
          refine ⟨by simp [step], ?_⟩
          intro r' e
          simp only [step, Phase.drain.injEq] at e
          subst e
          exact ⟨by simp, h4⟩
    | wait c =>
      have hs : step eff stop ⟨q, .wait c, l⟩ (.go d) =
          if d then ⟨q, .drain .other, l ++ [.ended c]⟩ else ⟨q, .look c, l⟩ := by cases q <;> rfl
      rw [hs]
      split
      · refine ⟨by simp, ?_⟩
        intro r' e
        simp only [Phase.drain.injEq] at e
        subst e
        exact ⟨by simp, fun ha => absurd ha (asked_ended eff l c)⟩
      · exact ⟨by simp, by simp⟩
    | look c =>
      cases q with
      | cons k q =>
        have hs : step eff stop ⟨k :: q, .look c, l⟩ (.go d) =
          if stop k then ⟨q, .wait true, l ++ [.key k .aborted]⟩ else ⟨q, .look c, l ++ [.key k .dropped]⟩ := rfl
        rw [hs]
        split <;> exact ⟨by simp, by simp⟩
      | nil => exact ⟨by simp [step], by simp [step]⟩
    | left => exact absurd rfl h1

theorem kept_run {eff : List (Item K) → K → Eff} (stop : K → Bool) (hq : ∀ l k, eff l k ≠ .quit) (as : List (Act K)) :
    Kept eff (run eff stop as) := by
  suffices ∀ (as : List (Act K)) (s : State K), Kept eff s → Kept eff (as.foldl (step eff stop) s) by
    refine this as _ ⟨by simp [State.init], ?_⟩
    intro r e
    simp only [State.init, Phase.drain.injEq] at e
    subst e
    refine ⟨by simp, ?_⟩
    rintro ⟨b, k, a, e, _⟩
    simp [State.init] at e
  intro as
  induction as with
  | nil => intro s h; exact h
  | cons a as ih => intro s h; exact ih _ (kept_step hq h a)

theorem drains {eff : List (Item K) → K → Eff} {stop : K → Bool} (hq : ∀ l k, eff l k ≠ .quit) (d : Bool) : ∀ (q : List K) (l : List (Item K)),
    (List.replicate (q.length + 1) (Act.go d)).foldl (step eff stop) ⟨q, .drain .eval, l⟩ =
      ⟨[], .wait false, l ++ q.map (Item.key · .handled) ++ [.began]⟩ := by
  intro q
  induction q with
  | nil => intro l; simp [step]
  | cons k q ih =>
    intro l
    rw [List.length_cons, List.replicate_succ, List.foldl_cons]
    have hs : step eff stop ⟨k :: q, .drain .eval, l⟩ (.go d) = ⟨q, .drain .eval, l ++ [.key k .handled]⟩ := by
      have := hq l k
      cases he : eff l k <;> simp_all [step, Eff.max]
    rw [hs, ih]
    simp

/-- C106. Once a key that asks for evaluation was handled, and as long as none asks to leave, the line is evaluated as soon as
all keys that are waiting were handled. -/
theorem enter_is_kept (eff : List (Item K) → K → Eff) (stop : K → Bool) (as : List (Act K)) (hq : ∀ l k, eff l k ≠ .quit)
    (hb : ¬ Busy (run eff stop as).log) (ha : Asked eff (run eff stop as).log) (d : Bool) :
    (run eff stop (as ++ List.replicate ((run eff stop as).queue.length + 1) (.go d))).log =
      (run eff stop as).log ++ (run eff stop as).queue.map (Item.key · .handled) ++ [.began] := by
  have hk := kept_run stop hq as
  have hi := inv_run eff stop as
  generalize hs : run eff stop as = s at *
  have hrun : run eff stop (as ++ List.replicate (s.queue.length + 1) (.go d)) =
      (List.replicate (s.queue.length + 1) (Act.go d)).foldl (step eff stop) s := by
    rw [← hs]; simp [run, List.foldl_append]
  rw [hrun]
  obtain ⟨q, p, l⟩ := s
  cases p with
  | drain r =>
    have := (hk.2 r rfl).2 ha
    subst this
    rw [drains hq]
  | wait c => exact absurd hi.phase.1 hb
  | look c => exact absurd hi.phase.1 hb
  | left => exact absurd rfl hk.1

theorem no_look {eff : List (Item K) → K → Eff} {stop : K → Bool} {as : List (Act K)} (hd : Act.go false ∉ as) : ∀ (s : State K),
    (∀ c, s.phase ≠ .look c) → (∀ k f, Item.key k f ∈ s.log → f = .handled) →
    ∀ k f, Item.key k f ∈ (as.foldl (step eff stop) s).log → f = .handled := by
  induction as with
  | nil => intro s _ h; exact h
  | cons a as ih =>
    intro s hp h
    rw [List.foldl_cons]
    refine ih (fun hm => hd (by simp [hm])) _ ?_ ?_
    · obtain ⟨q, p, l⟩ := s
      cases a with
      | press k => exact hp
      | go d =>
        cases d with
        | false => exact absurd (by simp) hd
        | true =>
          intro c
          cases p with
          | drain r => cases q <;> cases r <;> simp [step]
          | wait c' => cases q <;> simp [step]
          | look c' => exact absurd rfl (hp c')
          | left => cases q <;> simp [step]
    · obtain ⟨q, p, l⟩ := s
      cases a with
      | press k => exact h
      | go d =>
        cases d with
        | false => exact absurd (by simp) hd
        | true =>
          dsimp only at h
          intro k f hm
          cases p with
          | drain r =>
            cases q with
            | nil => 
              cases r <;> simp [step] at hm <;> exact h _ _ hm
            | cons k' q =>
              simp only [step, List.mem_append, List.mem_singleton, Item.key.injEq] at hm
              rcases hm with hm | hm
              · exact h _ _ hm
              · exact hm.2
          | wait c' => cases q <;> simp [step] at hm <;> exact h _ _ hm
          | look c' => exact absurd rfl (hp c')
          | left => cases q <;> simp [step] at hm <;> exact h _ _ hm

/-- C106. If each line is done within a second, no key is lost: all that were taken were handled. -/
theorem quick_lines_lose_nothing (eff : List (Item K) → K → Eff) (stop : K → Bool) (as : List (Act K)) (hd : Act.go false ∉ as) :
    ∀ k f, Item.key k f ∈ (run eff stop as).log → f = .handled :=
  no_look hd _ (by simp [State.init]) (by simp [State.init])

/-- Enter is 0, Ctrl+x is 1. -/
def enter : List (Item Nat) → Nat → Eff := fun _ k => if k = 0 then .eval else .other

/-- **The code violates C106**: what is typed while a line is evaluated is thrown away once a second; what is typed in the rest of
the last second is kept. -/
theorem keys_are_lost :
    (run enter (· == 1) [.press 0, .go true, .go true, .press 7, .go false, .go true, .go true, .press 8, .go true, .go true]).log =
      [.key 0 .handled, .began, .key 7 .dropped, .ended false, .key 8 .handled] := by decide

/-- **The code violates C106**: Ctrl+x right after Enter is handled as a key of the prompt, where it does nothing. The line is not
aborted. -/
theorem abort_is_lost :
    (run enter (· == 1) [.press 0, .press 1, .go true, .go true, .go true, .go false, .go true]).log =
      [.key 0 .handled, .key 1 .handled, .began] ∧
    (run enter (· == 1) [.press 0, .press 1, .go true, .go true, .go true, .go false, .go true, .go true]).log =
      [.key 0 .handled, .key 1 .handled, .began, .ended false] := by decide

example : (∀ l k, enter l k ≠ .quit) ∧ Asked enter (run enter (· == 1) [.press 5, .press 0, .press 7, .go true, .go true]).log ∧
    ¬ Busy (run enter (· == 1) [.press 5, .press 0, .press 7, .go true, .go true]).log := by
  have e : (run enter (· == 1) [.press 5, .press 0, .press 7, .go true, .go true]).log = [.key 5 .handled, .key 0 .handled] := by decide
  refine ⟨by intro l k; unfold enter; split <;> simp, ?_, ?_⟩
  · rw [e]
    exact ⟨[.key 5 .handled], 0, [], rfl, rfl, by simp⟩
  · rw [e]
    intro h
    exact busy_nil ((busy_key [] 5 .handled).1 ((busy_key [.key 5 .handled] 0 .handled).1 h))

-- the hypotheses can be met, and lines can be aborted
example : (run enter (· == 1) [.press 5, .press 0, .go true, .go true, .go true, .press 7, .press 1, .press 9, .go false, .go true, .go true, .go true,
      .go true]).log =
    [.key 5 .handled, .key 0 .handled, .began, .key 7 .dropped, .key 1 .aborted, .ended true, .key 9 .handled] := by decide

example : Act.go false ∉ [Act.press 5, .press 0, .go true, .go true, .go true, .press 7, .go true, .go true] ∧
    (run enter (· == 1) [.press 5, .press 0, .go true, .go true, .go true, .press 7, .go true, .go true]).log =
      [.key 5 .handled, .key 0 .handled, .began, .ended false, .key 7 .handled] := by decide

end Verif.Keys
