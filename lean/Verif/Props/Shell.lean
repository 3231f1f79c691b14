import Verif.Lemmas.ShellRun
/-! The interactive shell: C47 (line editor), C48 (history), C49 (stale completions), C53 (choosing
completions), C54 (tabs and crashes), C55 (Enter), C56 (outputs). -/
namespace Verif.Shell

/-! ### C47: the line editor is a text cursor -/

/-- Whatever is done to a new line, the editor never crashes, its cursor is inside the line, and the
text left and right of the cursor is what the cursor specification says. The byte offset it reports
is the number of bytes to the left of the cursor. -/
theorem editor_is_a_cursor (w : Char → Bool) (os : List EditOp) :
    ∃ i, Input.new.ops w os = some i ∧ i.pos ≤ i.buf.length ∧
      i.buf.take i.pos = (os.foldl (Cursor.op w) ⟨[], []⟩).left ∧
      i.buf.drop i.pos = (os.foldl (Cursor.op w) ⟨[], []⟩).right ∧
      i.bufPos = utf8Len (os.foldl (Cursor.op w) ⟨[], []⟩).left := by
  obtain ⟨i, h1, h2, h3⟩ := ops_spec w os .new (by simp [Input.new, Input.Ok])
  have h0 : Input.new.abs = ⟨[], []⟩ := rfl
  rw [h0] at h3
  refine ⟨i, h1, h2, ?_, ?_, ?_⟩
  · rw [← h3]; rfl
  · rw [← h3]; rfl
  · rw [← h3]; rfl

/-- Moving the cursor does not change the text. -/
theorem moving_keeps_text (w : Char → Bool) (os : List EditOp) (m : EditOp)
    (hm : m = .moveStart ∨ ∃ b, m = .moveLeft b ∨ m = .moveRight b) :
    (Input.new.ops w (os ++ [m])).map (·.buf) = (Input.new.ops w os).map (·.buf) := by
  obtain ⟨i, h1, h2, h3⟩ := ops_spec w os .new (by simp [Input.new, Input.Ok])
  obtain ⟨j, h4, h5, h6⟩ := ops_spec w (os ++ [m]) .new (by simp [Input.new, Input.Ok])
  rw [h1, h4]
  simp only [Option.map_some, Option.some.injEq]
  rw [(ok_split j h5).1, (ok_split i h2).1, h6, h3, List.foldl_append]
  simp only [List.foldl_cons, List.foldl_nil]
  rcases hm with rfl | ⟨b, rfl | rfl⟩
  · simp [Cursor.op]
  · simp [Cursor.op, ← List.append_assoc]
  · simp [Cursor.op]

/-- Deleting what was just typed restores the line and the cursor. -/
theorem type_then_backspace (w : Char → Bool) (os : List EditOp) (s : List Char) :
    Input.new.ops w (os ++ .insertStr s :: List.replicate s.length .backspace) =
      Input.new.ops w os := by
  obtain ⟨i, h1, h2, h3⟩ := ops_spec w os .new (by simp [Input.new, Input.Ok])
  obtain ⟨j, h4, h5, h6⟩ := ops_spec w (os ++ .insertStr s :: List.replicate s.length .backspace) .new
    (by simp [Input.new, Input.Ok])
  have hrev : ∀ (n : Nat) (l t r : List Char), t.length = n →
      (List.replicate n EditOp.backspace).foldl (Cursor.op w) ⟨l ++ t, r⟩ = ⟨l, r⟩ := by
    intro n
    induction n with
    | zero => intro l t r ht; simp [List.length_eq_zero_iff.1 ht]
    | succ n ih =>
      intro l t r ht
      have hne : t ≠ [] := by intro h; simp [h] at ht
      rw [List.replicate_succ, List.foldl_cons]
      simp only [Cursor.op]
      rw [List.dropLast_append_of_ne_nil hne]
      exact ih l t.dropLast r (by simp [ht])
  have : j.abs = i.abs := by
    rw [h6, h3, List.foldl_append, List.foldl_cons]
    generalize os.foldl (Cursor.op w) Input.new.abs = c
    exact hrev s.length c.left s c.right rfl
  rw [h1, h4]
  have a := ok_split i h2
  have b := ok_split j h5
  rw [this, ← a.1] at b
  rw [← a.2] at b
  cases i; cases j
  simp only at b
  simp [b.1, b.2]

/-- Words are letters; `ab cd`, back one word, delete, leaves the cursor between `ab ` and `d`. -/
example : Input.new.ops Char.isAlpha
    [.insertStr "ab cd".toList, .moveLeft .word, .delete] = some ⟨"ab d".toList, 3⟩ := by decide

/-! ### C48: history -/

/-- After any sequence of entered lines and steps back and forward, the line shown is the one the
specification says, and exactly the last 100 lines are remembered. -/
theorem history_shows (os : List HistOp) :
    (os.foldl History.op .new).current = (os.foldl HSpec.op ⟨[], 0⟩).shown ∧
    (os.foldl History.op .new).items =
      (os.foldl HSpec.op ⟨[], 0⟩).lines.drop ((os.foldl HSpec.op ⟨[], 0⟩).lines.length - 100) := by
  have h := hrel_ops os .new ⟨[], 0⟩ ⟨rfl, by simp [HSpec.kept], Or.inl ⟨rfl, rfl⟩⟩
  exact ⟨hrel_shown h, h.1⟩

/-- The lines entered by a sequence of operations. -/
def entered : List HistOp → List (List Char)
  | [] => []
  | .add l :: os => l :: entered os
  | _ :: os => entered os

theorem spec_lines (os : List HistOp) : ∀ (s : HSpec),
    (os.foldl HSpec.op s).lines = s.lines ++ entered os := by
  induction os with
  | nil => intro s; simp [entered]
  | cons o os ih =>
    intro s
    rw [List.foldl_cons, ih]
    cases o <;> simp [HSpec.op, entered]

/-- From rest (right after entering a line), stepping back `k` times shows the `k`-th most recent
line, for every `k` up to the number of lines remembered; one more step shows an empty line. -/
theorem back_shows_kth (os : List HistOp) (l : List Char) (k : Nat) :
    let all := entered os ++ [l]
    (1 ≤ k → k ≤ min 100 all.length →
      ((os ++ HistOp.add l :: List.replicate k HistOp.back).foldl History.op .new).current =
        all[all.length - k]?) ∧
    (k = min 100 all.length →
      ((os ++ HistOp.add l :: List.replicate (k + 1) HistOp.back).foldl History.op .new).current = none) := by
  have hb : ∀ (k : Nat) (s : HSpec), s.ago = 0 → k ≤ s.kept →
      (List.replicate k HistOp.back).foldl HSpec.op s = { s with ago := k } := by
    intro k
    induction k with
    | zero => intro s h _; cases s; simp_all
    | succ k ih =>
      intro s h hk
      rw [List.replicate_succ', List.foldl_append, ih s h (by omega)]
      have : k ≠ HSpec.kept ⟨s.lines, k⟩ := by
        have : HSpec.kept ⟨s.lines, k⟩ = s.kept := rfl
        omega
      simp [HSpec.op, this]
  have hs : ∀ k, (os ++ HistOp.add l :: List.replicate k HistOp.back).foldl HSpec.op ⟨[], 0⟩ =
      (List.replicate k HistOp.back).foldl HSpec.op ⟨entered os ++ [l], 0⟩ := by
    intro k
    rw [List.foldl_append, List.foldl_cons]
    congr 1
    simp only [HSpec.op, spec_lines, List.nil_append]
  intro all
  refine ⟨fun h1 h2 => ?_, fun h => ?_⟩
  · rw [(history_shows _).1, hs, hb k ⟨all, 0⟩ rfl h2]
    have : k ≠ 0 := by omega
    simp [HSpec.shown, this, all]
  · rw [(history_shows _).1, hs, List.replicate_succ', List.foldl_append,
      hb k ⟨all, 0⟩ rfl (by simp only [HSpec.kept]; omega)]
    have : HSpec.kept ⟨all, k⟩ = k := by rw [HSpec.kept]; exact h.symm
    simp [HSpec.op, HSpec.shown, this]

/-- Only lines that were entered are ever shown. -/
theorem history_only_entered (os : List HistOp) (l : List Char)
    (h : (os.foldl History.op .new).current = some l) : l ∈ entered os := by
  rw [(history_shows os).1] at h
  unfold HSpec.shown at h
  split at h
  · cases h
  · have := List.mem_of_getElem? h
    simpa [spec_lines] using this

example : (([.add "a".toList, .add "b".toList, .back, .back] : List HistOp).foldl History.op
    .new).current = some "a".toList := by decide

/-! ### C49: completions shown belong to the latest request -/

/-- In every run of the shell with fewer than 2^128 turns, every completion shown on a tab was
produced by that tab's latest request, in whatever order the replies arrive. -/
theorem completions_from_latest_request (w : Char → Bool)
    (out : List Char → Option (List Char × Nat) × Bool) (ss : List Step) (t : Term) (b : Bool)
    (hn : ss.countP isPoll ≤ 2 ^ 128) (hr : runShell w out .init ss = some (t, b)) :
    ∀ x ∈ t.tabs, ∀ it ∈ x.cmpl.items, it.req = x.cmpl.made := by
  obtain ⟨m, h⟩ := tinv_run w out ss 0 .init t b tinv_init (by omega) hr
  exact fun x hx it hit => (h x hx).1.items it hit

/-- Completions that were discarded stay discarded for the line they belonged to? No: a reply that
arrives after the line was changed by Up (or Left, or Enter) is still shown, on the changed line,
because discarding does not start a new change set. Here `a` is typed, Up empties the line, and then
the reply for `a` arrives and is shown on the empty line. -/
theorem late_reply_shown_on_changed_line :
    (runShell Char.isAlpha (fun _ => (none, false)) .init
      [.poll [.key (.char 'a') .none], .poll [.key .up .none], .reply 0 1 ["append".toList],
       .poll []]).map (fun p => p.1.tabs.map fun x => (x.input.buf, x.cmpl.items.map (·.value))) =
      some [([], ["append".toList])] := by decide

/-- A non-trivial run: a second letter is typed before the first reply arrives; only the second reply
is shown. -/
example : (runShell Char.isAlpha (fun _ => (none, false)) .init
      [.poll [.key (.char 'a') .none], .poll [.key (.char 'b') .none], .reply 0 1 ["abs".toList],
       .reply 0 2 ["abc".toList], .poll []]).map
      (fun p => p.1.tabs.map fun x => x.cmpl.items.map (·.value)) = some [["abc".toList]] := by decide

/-! ### C53: choosing completions -/

/-- A request splits the line into `pre`, the `word` being completed and `suf`, the text right of the
cursor. The word has no separator in it and starts after one (or at the start of the line; or it is
empty because the character at the cursor is a separator). From then on, whatever is chosen with the
arrow keys and whenever replies arrive, the line is `pre`, then the choice, then `suf`, with the
cursor after the choice. The choice is the word as typed or one of the completions shown. -/
theorem choosing_replaces_the_word (w : Char → Bool) (x : Tab) (hok : x.input.pos ≤ x.input.buf.length) :
    ∃ c pre word suf, x.cmpl.request x.input = some c ∧
      x.input.buf = pre ++ word ++ suf ∧ x.input.pos = (pre ++ word).length ∧
      (∀ ch ∈ word, isSplit ch = false) ∧
      (pre = [] ∨ (∃ p ch, pre = p ++ [ch] ∧ isSplit ch = true) ∨
        (word = [] ∧ ∃ ch s, suf = ch :: s ∧ isSplit ch = true)) ∧
      ∀ os : List SelOp, ∃ y choice, selSteps w { x with cmpl := c } os = some y ∧
        y.input.buf = pre ++ choice ++ suf ∧ y.input.pos = (pre ++ choice).length ∧
        (choice = word ∨ ∃ it ∈ y.cmpl.items, choice = it.value) := by
  have hr := request_spec x.cmpl x.input hok
  obtain ⟨pre, word, suf, h1, h2, h3, h4, h5, _, _⟩ := sel_request x hok _ hr
  have hs := ok_split _ hok
  rw [h1] at hs
  refine ⟨_, pre, word, suf, hr, hs.1, hs.2, h2, h3, ?_⟩
  intro os
  obtain ⟨y, h6, h7, h8⟩ := sel_steps w os _ h4 h5
  have hy := ok_split _ h7.ok
  rw [h7.text] at hy
  refine ⟨y, y.cmpl.with_, h6, hy.1, hy.2, ?_⟩
  unfold Cmpl.with_
  split
  · rename_i it hit
    right
    simp only [Option.bind_eq_some_iff] at hit
    obtain ⟨i, _, hi⟩ := hit
    exact ⟨it, List.mem_of_getElem? hi, rfl⟩
  · exact Or.inl h7.word

/-- The choices, in order: the word as typed, then the completions. Down goes to the next one, Up to
the previous one, both in a circle; the text put into the line is the one at the choice's place. -/
theorem arrows_cycle_through_choices (w : Char → Bool) (x : Tab)
    (hi : ∀ i, x.cmpl.highlighted = some i → i < x.cmpl.items.length) (hh : x.cmpl.has = true) :
    ∀ y, (selStep w x .down = some y →
        y.cmpl.choice = (x.cmpl.choice + 1) % (x.cmpl.items.length + 1)) ∧
      (selStep w x .up = some y →
        y.cmpl.choice = (x.cmpl.choice + x.cmpl.items.length) % (x.cmpl.items.length + 1)) ∧
      x.cmpl.with_ = (x.cmpl.replace :: x.cmpl.items.map (·.value))[x.cmpl.choice]?.getD [] := by
  intro y
  have hle : x.cmpl.choice ≤ x.cmpl.items.length := by
    unfold Cmpl.choice
    split
    · omega
    · rename_i i h; exact hi i h
  refine ⟨fun h => ?_, fun h => ?_, with_choice _ hi⟩
  · simp only [selStep, hh, if_true, Option.map_eq_some_iff] at h
    obtain ⟨⟨y', r⟩, h1, rfl⟩ := h
    have : y'.cmpl.choice = x.cmpl.next.choice := by
      simp only [Tab.mvCmpl, Cmpl.replaceWith, Option.map_eq_some_iff, Prod.mk.injEq, if_true] at h1
      obtain ⟨i, _, rfl, _⟩ := h1; rfl
    rw [this, choice_next _ hi hh]
    split
    · rename_i h; rw [h, Nat.mod_self]
    · rw [Nat.mod_eq_of_lt (by omega)]
  · simp only [selStep, hh, if_true, Option.map_eq_some_iff] at h
    obtain ⟨⟨y', r⟩, h1, rfl⟩ := h
    have : y'.cmpl.choice = x.cmpl.prev.choice := by
      simp only [Tab.mvCmpl, Cmpl.replaceWith, Option.map_eq_some_iff, Prod.mk.injEq,
        Bool.false_eq_true, if_false] at h1
      obtain ⟨i, _, rfl, _⟩ := h1; rfl
    rw [this, choice_prev _ hi hh]
    split
    · rename_i h; rw [h, Nat.zero_add, Nat.mod_eq_of_lt (by omega)]
    · rw [show x.cmpl.choice + x.cmpl.items.length =
        x.cmpl.choice - 1 + (x.cmpl.items.length + 1) by omega, Nat.add_mod_right,
        Nat.mod_eq_of_lt (by omega)]

/-- `ls fi` is typed, two completions arrive, Down twice chooses the second, Down once more restores
the line. -/
example :
    let x : Tab := { Tab.new with input := ⟨"ls fi".toList, 5⟩ }
    let go (os : List SelOp) := ((x.cmpl.request x.input).bind fun c =>
      selSteps Char.isAlpha { x with cmpl := c } os).map (·.input.buf)
    let reply : List SelOp := [.arrive 1 ["filter".toList, "fold".toList], .show_]
    go (reply ++ [.down, .down]) = some "ls fold".toList ∧
    go (reply ++ [.down, .down, .down]) = some "ls fi".toList ∧
    go (reply ++ [.up]) = some "ls fold".toList := by decide

/-! ### C54: tabs -/

/-- Full statement: the shell never crashes, whatever events arrive. This is false (see
`crash_after_closing_last_tab`). What holds: no run crashes in which Alt+q (close tab) is at most the
last event of a turn; and until the shell is left, some tab is open and selected. -/
theorem shell_does_not_crash_partial (w : Char → Bool)
    (out : List Char → Option (List Char × Nat) × Bool) (ss : List Step)
    (hq : ∀ es, Step.poll es ∈ ss → ∀ e ∈ es.dropLast, e ≠ altQ) :
    ∃ t left, runShell w out .init ss = some (t, left) ∧
      (left = false → t.selected < t.tabs.length) := by
  have : ∀ (ss : List Step) (t : Term), TermOk t → t.tabs ≠ [] →
      (∀ es, Step.poll es ∈ ss → ∀ e ∈ es.dropLast, e ≠ altQ) →
      ∃ t' left, runShell w out t ss = some (t', left) ∧
        (left = false → t'.selected < t'.tabs.length) := by
    intro ss
    induction ss with
    | nil => intro t h hne _; exact ⟨t, false, rfl, fun _ => h.sel hne⟩
    | cons s ss ih =>
      intro t h hne hq
      have hq' : ∀ es, Step.poll es ∈ ss → ∀ e ∈ es.dropLast, e ≠ altQ :=
        fun es hes => hq es (List.mem_cons_of_mem _ hes)
      cases s with
      | reply k r vs =>
        have ⟨h1, h2⟩ := reply_ok h k r vs
        exact ih _ h1 (fun e => hne (h2.1 e)) hq'
      | poll es =>
        obtain ⟨t1, c, h1, h2, h3⟩ := cycle_ok w out t es h hne (hq es (by simp))
        cases c with
        | quit => exact ⟨t1, true, by simp [runShell, h1], by simp⟩
        | nothing =>
          obtain ⟨t2, l, h4, h5⟩ := ih t1 h2 (h3 (by simp)) hq'
          exact ⟨t2, l, by simp [runShell, h1, h4], h5⟩
        | evaluated line =>
          obtain ⟨t2, l, h4, h5⟩ := ih t1 h2 (h3 (by simp)) hq'
          exact ⟨t2, l, by simp [runShell, h1, h4], h5⟩
  exact this ss .init termOk_init (by simp [Term.init]) hq

/-- With a single tab open, any event read in the same turn after Alt+q crashes the shell. -/
theorem crash_after_closing_last_tab (w : Char → Bool)
    (out : List Char → Option (List Char × Nat) × Bool) (x : Tab) (d : Bool) (e : Event)
    (es : List Event) : cycle w out ⟨[x], 0, d⟩ (altQ :: e :: es) = none := by
  simp [cycle, processEvents, processEvent, altQ, Term.tab, Term.quitTab, Term.switchTab]

/-- Apart from opening, closing and switching tabs, a key only affects the selected tab. -/
theorem keys_only_affect_selected_tab (w : Char → Bool) (t t' : Term) (e : Event) (r : EvRes)
    (h : processEvent w t e = some (t', r))
    (he : e ≠ altQ ∧ e ≠ .key (.char 't') .alt ∧ e ≠ .key .tab .none) :
    t'.selected = t.selected ∧ t'.tabs.length = t.tabs.length ∧
      ∀ k, k ≠ t.selected → t'.tabs[k]? = t.tabs[k]? := by
  cases processEvent_change w t t' e r h with
  | same => exact ⟨rfl, rfl, fun _ _ => rfl⟩
  | edit x y hx hc =>
    refine ⟨rfl, by simp [Term.setTab], fun k hk => ?_⟩
    simp only [Term.setTab]
    rw [List.getElem?_set_ne (fun e => hk e.symm)]
  | switch h' => exact absurd h' he.2.2
  | new h' => exact absurd h' he.2.1
  | quit h' => exact absurd h' he.1

/-- Closing removes exactly the selected tab; opening keeps all tabs and selects a fresh one. -/
theorem open_close_tabs (w : Char → Bool) (t : Term) (h : t.selected < t.tabs.length) :
    (∃ t' r, processEvent w t altQ = some (t', r) ∧ t'.tabs = t.tabs.eraseIdx t.selected ∧
      (r = .brk ↔ t.tabs.length = 1)) ∧
    (∃ t' r, processEvent w t (.key (.char 't') .alt) = some (t', r) ∧
      t'.tabs = t.tabs ++ [Tab.new] ∧ t'.selected = t.tabs.length) := by
  have hx : t.tab = some t.tabs[t.selected] := List.getElem?_eq_getElem h
  have hlen : (t.tabs.eraseIdx t.selected).length = t.tabs.length - 1 := List.length_eraseIdx_of_lt h
  refine ⟨⟨t.quitTab, if t.quitTab.tabs.length = 0 then .brk else .redraw, ?_, ?_, ?_⟩,
    ⟨t.newTab, .redraw, ?_, rfl, ?_⟩⟩
  · simp [processEvent, altQ, hx]
  · simp [Term.quitTab, Term.switchTab, h]
  · have hqt : t.quitTab.tabs.length = t.tabs.length - 1 := by
      simp only [Term.quitTab, Term.switchTab, h, if_true]; exact hlen
    rw [hqt]
    by_cases h1 : t.tabs.length = 1
    · simp [h1]
    · have : ¬ (t.tabs.length - 1 = 0) := by omega
      simp [this, h1]
  · simp [processEvent, hx]
  · simp [Term.newTab]

example : (runShell Char.isAlpha (fun _ => (none, false)) .init
    [.poll [.key (.char 't') .alt, .key (.char 'x') .none], .poll [.key .tab .none, altQ],
     .poll [altQ]]).map (·.2) = some true := by decide

/-! ### C55: Enter -/

/-- Full statement: the line evaluated is the line at the moment Enter is pressed. This is false when
more events are read in the same turn (see `typed_ahead_joins_line`). What holds: when Enter is the
last event of a turn, the line evaluated is the one on the selected tab at that moment; afterwards
that line is the most recent one in the history, the input is empty, and Up shows the line again. -/
theorem enter_evaluates_the_line_partial (w : Char → Bool)
    (out : List Char → Option (List Char × Nat) × Bool) (t t1 : Term) (es : List Event) (r : EvRes)
    (x : Tab) (hp : processEvents w t es = some (t1, r)) (hr : r ≠ .brk) (hx : t1.tab = some x) :
    ∃ t' y, cycle w out t (es ++ [.key .enter .none]) = some (t', .evaluated x.input.buf) ∧
      t'.tab = some y ∧ y.input.buf = [] ∧ y.cmpl.items = [] ∧
      ∃ t'' z r, processEvent w t' (.key .up .none) = some (t'', r) ∧ t''.tab = some z ∧
        z.input.buf = x.input.buf := by
  have happ : ∀ (es : List Event) (t t1 : Term) (r : EvRes) (x : Tab),
      processEvents w t es = some (t1, r) → r ≠ .brk → t1.tab = some x →
      processEvents w t (es ++ [.key .enter .none]) = some (t1, .eval) := by
    intro es
    induction es with
    | nil =>
      intro t t1 r x h _ hx
      simp only [processEvents, Option.some.injEq, Prod.mk.injEq] at h
      obtain ⟨rfl, _⟩ := h
      simp [processEvents, processEvent, hx]; decide
    | cons e es ih =>
      intro t t1 r x h hr hx
      simp only [processEvents, Option.bind_eq_some_iff, Option.map_eq_some_iff, Prod.mk.injEq] at h
      obtain ⟨⟨t2, r2⟩, h1, ⟨t3, r3⟩, h2, rfl, rfl⟩ := h
      have hb : r2 ≠ .brk ∧ r3 ≠ .brk := by
        constructor <;> intro hb <;> exact hr ((EvRes.max_brk _ _).2 (by simp [hb]))
      have := ih t2 t3 r3 x h2 hb.2 hx
      simp only [List.cons_append, processEvents, h1, Option.bind_some, this, Option.map_some]
      congr 2
      cases r2 <;> simp_all <;> decide
  have h1 := happ es t t1 r x hp hr hx
  have hl : t1.selected < t1.tabs.length := by
    simp only [Term.tab, List.getElem?_eq_some_iff] at hx; exact hx.1
  have htab : ∀ y, (t1.setTab y).tab = some y := by
    intro y; simp [Term.tab, Term.setTab, hl]
  have hitems : (x.afterEval out).cmpl.items = [] := by
    unfold Tab.afterEval; simp only; split <;> rfl
  have hhas : (x.afterEval out).cmpl.has = false := by simp [Cmpl.has, hitems]
  obtain ⟨z, hz, hzok, habs⟩ := mvHistory_spec (x.afterEval out) true
  have hcur : ((x.afterEval out).history.back.current).getD [] = x.input.buf := by
    simp [Tab.afterEval, History.add, History.back, History.current]
  simp only [if_true, hcur] at habs
  refine ⟨t1.setTab (x.afterEval out), x.afterEval out, ?_, htab _, rfl, hitems,
    (t1.setTab (x.afterEval out)).setTab z, z, .redraw, ?_, ?_, ?_⟩
  · simp [cycle, h1, Term.eval, hx]
  · simp [processEvent, Term.onTab, htab, hhas, hz]
  · simp [Term.tab, Term.setTab, hl]
  · have := (ok_split z.input hzok).1
    rw [habs] at this
    simpa using this

/-- Keys read in the same turn after Enter become part of the line that is evaluated: `a`, Enter, `b`
evaluates `ab`, and of two pasted lines only one evaluation takes place, of both joined. -/
theorem typed_ahead_joins_line :
    (cycle Char.isAlpha (fun _ => (none, false)) .init
      [.key (.char 'a') .none, .key .enter .none, .key (.char 'b') .none]).map (·.2) =
        some (.evaluated "ab".toList) ∧
    (cycle Char.isAlpha (fun _ => (none, false)) .init
      [.key (.char 'a') .none, .key .enter .none, .key (.char 'b') .none, .key .enter .none]).map
        (·.2) = some (.evaluated "ab".toList) := by decide

example : processEvents Char.isAlpha .init [.key (.char 'a') .none] =
    some (⟨[{ Tab.new with input := ⟨['a'], 1⟩ }], 0, false⟩, .inputChanged) := by decide

/-! ### C56: outputs -/

/-- However outputs are added, re-rendered and scrolled, the outputs kept are the latest `limit` ones
in order, and the scroll position stays within the rendered lines. -/
theorem outputs_keep_latest (limit : Nat) (os : List OutOp) :
    (os.foldl Outputs.op (.new limit)).items.map (·.1) =
      (added os).drop ((added os).length - limit) ∧
    ((os.foldl Outputs.op (.new limit)).scroll = 0 ∨
      (os.foldl Outputs.op (.new limit)).scroll < (os.foldl Outputs.op (.new limit)).height) := by
  have ⟨h1, h2⟩ := outputs_spec os (.new limit) [] (by simp [Outputs.new]) (by simp [Outputs.new])
  exact ⟨by simpa [Outputs.new] using h1, by omega⟩

example : (([.add "a".toList 3, .add "b".toList 2, .add "c".toList 4, .scroll 25] :
    List OutOp).foldl Outputs.op (.new 2)) = ⟨[("b".toList, 2), ("c".toList, 4)], 2, 5⟩ := by decide

end Verif.Shell
