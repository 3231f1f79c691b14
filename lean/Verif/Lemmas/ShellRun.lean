import Verif.Lemmas.ShellTerm
namespace Verif.Shell

/-- What an event can do to the list of tabs. -/
inductive TabsChange (w : Char → Bool) (t : Term) (e : Event) : Term → Prop
  | same : TabsChange w t e t
  | edit (x y : Tab) (hx : t.tab = some x)
      (hc : y.cmpl = x.cmpl ∨ y.cmpl = x.cmpl.reset ∨
        (∃ n, y.cmpl = { x.cmpl.next with insLen := n }) ∨ (∃ n, y.cmpl = { x.cmpl.prev with insLen := n })) :
      TabsChange w t e (t.setTab y)
  | switch (he : e = .key .tab .none) : TabsChange w t e t.switchTab
  | new (he : e = .key (.char 't') .alt) : TabsChange w t e t.newTab
  | quit (he : e = altQ) : TabsChange w t e t.quitTab

theorem mvCursor_cmpl (w : Char → Bool) (x y : Tab) (a b : Bool) (r : EvRes)
    (h : x.mvCursor w a b = some (y, r)) : y.cmpl = x.cmpl.reset := by
  unfold Tab.mvCursor at h
  simp only [Option.map_eq_some_iff, Prod.mk.injEq] at h
  obtain ⟨i, _, rfl, _⟩ := h
  rfl

theorem mvHistory_cmpl (x y : Tab) (b : Bool) (r : EvRes)
    (h : x.mvHistory b = some (y, r)) : y.cmpl = x.cmpl.reset := by
  unfold Tab.mvHistory at h
  simp only [Option.map_eq_some_iff, Prod.mk.injEq] at h
  obtain ⟨i, _, rfl, _⟩ := h
  rfl

theorem mvCmpl_cmpl (w : Char → Bool) (x y : Tab) (b : Bool) (r : EvRes)
    (h : x.mvCmpl w b = some (y, r)) :
    (∃ n, y.cmpl = { x.cmpl.next with insLen := n }) ∨
      (∃ n, y.cmpl = { x.cmpl.prev with insLen := n }) := by
  unfold Tab.mvCmpl at h
  simp only [Option.map_eq_some_iff, Prod.mk.injEq, Cmpl.replaceWith] at h
  obtain ⟨i, _, rfl, _⟩ := h
  cases b
  · exact Or.inr ⟨_, rfl⟩
  · exact Or.inl ⟨_, rfl⟩

theorem processEvent_change (w : Char → Bool) (t t' : Term) (e : Event) (r : EvRes)
    (h : processEvent w t e = some (t', r)) : TabsChange w t e t' := by
  unfold processEvent at h
  simp only [Option.bind_eq_some_iff] at h
  obtain ⟨x, hx, h⟩ := h
  have hon : ∀ (f : Tab → Option (Tab × EvRes)), t.onTab f = some (t', r) →
      ∃ y, f x = some (y, r) ∧ t' = t.setTab y := by
    intro f hf
    simp only [Term.onTab, hx, Option.bind_some, Option.map_eq_some_iff, Prod.mk.injEq] at hf
    obtain ⟨⟨y, r'⟩, h1, rfl, rfl⟩ := hf
    exact ⟨y, h1, rfl⟩
  split at h
  all_goals first
    | (simp only [Option.some.injEq, Prod.mk.injEq] at h; obtain ⟨rfl, _⟩ := h
       first
         | exact .same
         | exact .edit x _ hx (Or.inl rfl)
         | exact .new rfl
         | exact .switch rfl
         | exact .quit rfl)
    | (split at h <;> simp only [Option.some.injEq, Prod.mk.injEq] at h <;> obtain ⟨rfl, _⟩ := h
       · exact .edit x _ hx (Or.inr (Or.inl rfl))
       · exact .same)
    | (obtain ⟨y, hy, rfl⟩ := hon _ h
       first
         | exact .edit x y hx (Or.inr (Or.inl (mvCursor_cmpl w x y _ _ r hy)))
         | (simp only [Option.map_eq_some_iff, Prod.mk.injEq] at hy
            obtain ⟨i, _, rfl, _⟩ := hy
            exact .edit x _ hx (Or.inl rfl))
         | (split at hy
            · exact .edit x y hx (Or.inr (Or.inr (mvCmpl_cmpl w x y _ r hy)))
            · exact .edit x y hx (Or.inr (Or.inl (mvHistory_cmpl x y _ r hy)))))

/-- The completions of every tab answer to the latest request, and no tab has made more than `n`
requests. -/
def TInv (n : Nat) (t : Term) : Prop := ∀ x ∈ t.tabs, CInv x.cmpl ∧ x.cmpl.made ≤ n

theorem tinv_setTab {n : Nat} {t : Term} (h : TInv n t) {y : Tab} (hy : CInv y.cmpl ∧ y.cmpl.made ≤ n) :
    TInv n (t.setTab y) := by
  intro x hx
  rcases List.mem_or_eq_of_mem_set hx with hx | rfl
  · exact h x hx
  · exact hy

theorem tab_mem {t : Term} {x : Tab} (h : t.tab = some x) : x ∈ t.tabs := List.mem_of_getElem? h

theorem tinv_event {n : Nat} (w : Char → Bool) {t t' : Term} {e : Event} {r : EvRes} (h : TInv n t)
    (hp : processEvent w t e = some (t', r)) : TInv n t' := by
  cases processEvent_change w t t' e r hp with
  | same => exact h
  | edit x y hx hc =>
    apply tinv_setTab h
    have ⟨h1, h2⟩ := h x (tab_mem hx)
    rcases hc with hc | hc | ⟨n, hc⟩ | ⟨n, hc⟩ <;> rw [hc]
    · exact ⟨h1, h2⟩
    · exact ⟨cinv_reset h1, h2⟩
    · exact ⟨cinv_next h1 n, h2⟩
    · exact ⟨cinv_prev h1 n, h2⟩
  | switch _ => exact h
  | new _ =>
    intro x hx
    rcases List.mem_append.1 hx with hx | hx
    · exact h x hx
    · rw [List.mem_singleton.1 hx]; exact ⟨cinv_new, by simp [Tab.new, Cmpl.new]⟩
  | quit _ =>
    intro x hx
    simp only [Term.quitTab, Term.switchTab] at hx
    split at hx
    · exact h x (List.mem_of_mem_eraseIdx hx)
    · exact h x hx

theorem tinv_events {n : Nat} (w : Char → Bool) (es : List Event) : ∀ (t t' : Term) (r : EvRes),
    TInv n t → processEvents w t es = some (t', r) → TInv n t' := by
  induction es with
  | nil => intro t t' r h hp; simp only [processEvents, Option.some.injEq, Prod.mk.injEq] at hp
           exact hp.1 ▸ h
  | cons e es ih =>
    intro t t' r h hp
    simp only [processEvents, Option.bind_eq_some_iff, Option.map_eq_some_iff, Prod.mk.injEq] at hp
    obtain ⟨⟨t1, r1⟩, h1, ⟨t2, r2⟩, h2, rfl, _⟩ := hp
    exact ih t1 t2 r2 (tinv_event w h h1) h2

theorem tinv_cycle {n : Nat} (hn : n < 2 ^ 128) (w : Char → Bool)
    (out : List Char → Option (List Char × Nat) × Bool) (t t' : Term) (es : List Event) (c : Cycle)
    (h : TInv n t) (hc : cycle w out t es = some (t', c)) : TInv (n + 1) t' := by
  simp only [cycle, Option.bind_eq_some_iff] at hc
  obtain ⟨⟨t1, r⟩, h1, hc⟩ := hc
  have h2 := tinv_events w es t t1 r h h1
  have hup : TInv (n + 1) t1 := fun x hx => ⟨(h2 x hx).1, Nat.le_succ_of_le (h2 x hx).2⟩
  cases r with
  | brk => simp only [Option.some.injEq, Prod.mk.injEq] at hc; exact hc.1 ▸ hup
  | redraw =>
    simp only [Option.map_eq_some_iff, Prod.mk.injEq] at hc
    obtain ⟨x, _, rfl, _⟩ := hc; exact hup
  | none =>
    simp only [Option.map_eq_some_iff] at hc
    obtain ⟨x, hx, hc⟩ := hc
    split at hc <;> simp only [Prod.mk.injEq] at hc <;> obtain ⟨rfl, _⟩ := hc
    · exact hup
    · have ⟨h3, h4⟩ := h2 x (tab_mem hx)
      exact tinv_setTab hup ⟨cinv_recv h3 (by omega), Nat.le_succ_of_le h4⟩
  | inputChanged =>
    simp only [Option.bind_eq_some_iff, Option.map_eq_some_iff, Prod.mk.injEq] at hc
    obtain ⟨x, hx, c, hr, rfl, _⟩ := hc
    have ⟨h3, h4⟩ := h2 x (tab_mem hx)
    have ⟨h5, h6⟩ := cinv_request x.input h3 hr
    exact tinv_setTab (t := { t1 with cmplsDrawn := false }) hup ⟨h5, by simp only; omega⟩
  | eval =>
    simp only [Term.eval, Option.map_eq_some_iff, Prod.mk.injEq] at hc
    obtain ⟨⟨l, t2⟩, ⟨x, hx, h5, rfl⟩, rfl, _⟩ := hc
    have ⟨h3, h4⟩ := h2 x (tab_mem hx)
    apply tinv_setTab hup
    unfold Tab.afterEval
    simp only
    split
    · exact ⟨cinv_new, by simp [Cmpl.new]⟩
    · exact ⟨cinv_reset h3, Nat.le_succ_of_le h4⟩

theorem tinv_reply {n : Nat} {t : Term} (h : TInv n t) (k r : Nat) (vs : List (List Char)) :
    TInv n (t.reply k r vs) := by
  unfold Term.reply
  split
  · rename_i x hx
    split
    · rename_i hr
      intro y hy
      rcases List.mem_or_eq_of_mem_set hy with hy | rfl
      · exact h y hy
      · have ⟨h1, h2⟩ := h x (List.mem_of_getElem? hx)
        refine ⟨cinv_reply h1 r hr vs, ?_⟩
        simp only [Cmpl.reply]; split <;> exact h2
    · exact h
  · exact h

def isPoll : Step → Bool
  | .poll _ => true
  | _ => false

theorem tinv_run (w : Char → Bool) (out : List Char → Option (List Char × Nat) × Bool)
    (ss : List Step) : ∀ (n : Nat) (t t' : Term) (b : Bool), TInv n t →
    n + ss.countP isPoll ≤ 2 ^ 128 → runShell w out t ss = some (t', b) →
    ∃ m, TInv m t' := by
  induction ss with
  | nil => intro n t t' b h _ hr
           simp only [runShell, Option.some.injEq, Prod.mk.injEq] at hr
           exact ⟨n, hr.1 ▸ h⟩
  | cons s ss ih =>
    intro n t t' b h hn hr
    cases s with
    | reply k r vs =>
      exact ih n _ t' b (tinv_reply h k r vs) (by simpa [isPoll, List.countP_cons] using hn) hr
    | poll es =>
      simp only [runShell, Option.bind_eq_some_iff] at hr
      obtain ⟨⟨t1, c⟩, h1, hr⟩ := hr
      simp only [List.countP_cons, isPoll, if_true] at hn
      have h2 := tinv_cycle (by omega) w out t t1 es c h h1
      cases c with
      | quit => simp only [Option.some.injEq, Prod.mk.injEq] at hr; exact ⟨n + 1, hr.1 ▸ h2⟩
      | nothing => exact ih (n + 1) t1 t' b h2 (by omega) hr
      | evaluated l => exact ih (n + 1) t1 t' b h2 (by omega) hr

theorem tinv_init : TInv 0 .init := by
  intro x hx
  rw [List.mem_singleton.1 hx]; exact ⟨cinv_new, by simp [Tab.new, Cmpl.new]⟩

theorem termOk_init : TermOk .init :=
  ⟨fun x hx => by rw [List.mem_singleton.1 hx]; exact new_ok, fun _ => by simp [Term.init]⟩

/-! ### Choosing completions, over sequences of keys and replies -/

/-- What can happen while completions are chosen. -/
inductive SelOp
  | down | up
  | arrive (r : Nat) (vs : List (List Char))
  | show_
deriving DecidableEq, Repr

/-- `mod.rs:386-394`: the arrow keys choose completions only when some are shown. -/
def selStep (w : Char → Bool) (x : Tab) : SelOp → Option Tab
  | .down => if x.cmpl.has then (x.mvCmpl w true).map (·.1) else some x
  | .up => if x.cmpl.has then (x.mvCmpl w false).map (·.1) else some x
  | .arrive r vs => some { x with cmpl := x.cmpl.reply r vs }
  | .show_ => some { x with cmpl := x.cmpl.recv }

def selSteps (w : Char → Bool) (x : Tab) : List SelOp → Option Tab
  | [] => some x
  | o :: os => (selStep w x o).bind fun x => selSteps w x os

/-- The highlighted item exists. -/
def HiOk (c : Cmpl) : Prop := ∀ i, c.highlighted = some i → i < c.items.length

theorem hi_next {c : Cmpl} (h : HiOk c) (hh : c.has = true) : HiOk c.next := by
  have hlen : 0 < c.items.length := by
    simpa [Cmpl.has, List.length_pos_iff] using hh
  intro i hi
  simp only [Cmpl.next] at hi ⊢
  split at hi
  · cases hi
  · split at hi
    · rename_i h1 _ j hj
      have := h j hj
      simp only [Option.some.injEq] at hi
      have : j ≠ c.items.length - 1 := fun e => h1 (e ▸ hj)
      omega
    · simp only [Option.some.injEq] at hi; omega

theorem hi_prev {c : Cmpl} (h : HiOk c) (hh : c.has = true) : HiOk c.prev := by
  have hlen : 0 < c.items.length := by
    simpa [Cmpl.has, List.length_pos_iff] using hh
  intro i hi
  simp only [Cmpl.prev] at hi ⊢
  split at hi
  · cases hi
  · rename_i j _ hj
    have := h j hj
    simp only [Option.some.injEq] at hi; omega
  · simp only [Option.some.injEq] at hi; omega

theorem with_recv {c : Cmpl} (h : HiOk c) : c.recv.with_ = c.with_ := by
  unfold Cmpl.with_
  simp only [Cmpl.recv]
  cases hh : c.highlighted with
  | none => rfl
  | some i =>
    have := h i hh
    simp [List.getElem?_append_left this]

theorem reply_fields (c : Cmpl) (r : Nat) (vs : List (List Char)) :
    (c.reply r vs).items = c.items ∧ (c.reply r vs).highlighted = c.highlighted ∧
    (c.reply r vs).with_ = c.with_ ∧ (c.reply r vs).startPos = c.startPos ∧
    (c.reply r vs).insLen = c.insLen ∧ (c.reply r vs).replace = c.replace := by
  unfold Cmpl.reply
  simp only
  split
  · simp
  · simp [Cmpl.with_]

theorem sel_steps (w : Char → Bool) {pre word suf : List Char} (os : List SelOp) :
    ∀ (x : Tab), Sel pre word suf x → HiOk x.cmpl →
      ∃ y, selSteps w x os = some y ∧ Sel pre word suf y ∧ HiOk y.cmpl := by
  induction os with
  | nil => intro x h hh; exact ⟨x, rfl, h, hh⟩
  | cons o os ih =>
    intro x h hh
    have key : ∃ y, selStep w x o = some y ∧ Sel pre word suf y ∧ HiOk y.cmpl := by
      cases o with
      | down =>
        by_cases hc : x.cmpl.has = true
        · obtain ⟨y, h1, h2, h3⟩ := sel_mv w h true
          refine ⟨y, by simp [selStep, hc, h1], h2, ?_⟩
          rw [h3]; exact hi_next hh hc
        · exact ⟨x, by simp [selStep, hc], h, hh⟩
      | up =>
        by_cases hc : x.cmpl.has = true
        · obtain ⟨y, h1, h2, h3⟩ := sel_mv w h false
          refine ⟨y, by simp [selStep, hc, h1], h2, ?_⟩
          rw [h3]; exact hi_prev hh hc
        · exact ⟨x, by simp [selStep, hc], h, hh⟩
      | arrive r vs =>
        have ⟨a1, a2, a3, a4, a5, a6⟩ := reply_fields x.cmpl r vs
        refine ⟨_, rfl, ⟨h.ok, by simp only [a3]; exact h.text, by simp only [a4]; exact h.start,
          by simp only [a3, a5]; exact h.len, by simp only [a6]; exact h.word⟩, ?_⟩
        intro i hi; simp only [a1, a2] at *; exact hh i hi
      | show_ =>
        have a3 := with_recv hh
        refine ⟨_, rfl, ⟨h.ok, by simp only [a3]; exact h.text, h.start,
          by simp only [a3]; exact h.len, h.word⟩, ?_⟩
        intro i hi
        have := hh i hi
        simp only [Cmpl.recv, List.length_append]; omega
    obtain ⟨y, h1, h2, h3⟩ := key
    obtain ⟨z, h4, h5, h6⟩ := ih y h2 h3
    exact ⟨z, by simp [selSteps, h1, h4], h5, h6⟩

/-- A fresh request puts the tab in the chosen-text form, with the original word as the choice. -/
theorem sel_request (x : Tab) (hok : x.input.Ok) (c : Cmpl) (hc : x.cmpl.request x.input = some c) :
    ∃ pre word suf, x.input.abs = ⟨pre ++ word, suf⟩ ∧
      (∀ ch ∈ word, isSplit ch = false) ∧
      (pre = [] ∨ (∃ p ch, pre = p ++ [ch] ∧ isSplit ch = true) ∨
        (word = [] ∧ ∃ ch s, suf = ch :: s ∧ isSplit ch = true)) ∧
      Sel pre word suf { x with cmpl := c } ∧ HiOk c ∧ c.items = [] ∧ c.highlighted = none := by
  rw [request_spec _ _ hok] at hc
  simp only [Option.some.injEq] at hc
  subst hc
  by_cases hsp : x.input.abs.right.head?.any isSplit = true
  · refine ⟨x.input.abs.left, [], x.input.abs.right, by simp, by simp, ?_, ?_, ?_, rfl, rfl⟩
    · right; right
      refine ⟨rfl, ?_⟩
      cases hr : x.input.abs.right with
      | nil => simp [hr] at hsp
      | cons a s => exact ⟨a, s, rfl, by simpa [hr] using hsp⟩
    · refine ⟨hok, ?_, ?_, ?_, ?_⟩ <;> simp [wordAt, hsp, Cmpl.with_, Cmpl.reset]
    · intro i hi; simp [Cmpl.reset] at hi
  · refine ⟨(cut x.input.abs.left).1, (cut x.input.abs.left).2, x.input.abs.right,
      by rw [cut_append], cut_word _, ?_, ?_, ?_, rfl, rfl⟩
    · rcases cut_pre x.input.abs.left with h | ⟨p, ch, h1, h2⟩
      · exact Or.inl h
      · exact Or.inr (Or.inl ⟨p, ch, h1, h2⟩)
    · have hl := congrArg List.length (cut_append x.input.abs.left)
      simp only [List.length_append] at hl
      refine ⟨hok, ?_, ?_, ?_, ?_⟩
      · simp [wordAt, hsp, Cmpl.with_, Cmpl.reset, cut_append]
      · simp only [wordAt, hsp, Bool.false_eq_true, if_false]; omega
      · simp [wordAt, hsp, Cmpl.with_, Cmpl.reset]
      · simp [wordAt, hsp]
    · intro i hi; simp [Cmpl.reset] at hi

/-- The position of the choice: 0 for the word as typed, `i + 1` for item `i`. -/
def Cmpl.choice (c : Cmpl) : Nat :=
  match c.highlighted with
  | none => 0
  | some i => i + 1

theorem choice_next (c : Cmpl) (h : HiOk c) (hh : c.has = true) :
    c.next.choice = if c.choice = c.items.length then 0 else c.choice + 1 := by
  have hlen : 0 < c.items.length := by
    simpa [Cmpl.has, List.length_pos_iff] using hh
  unfold Cmpl.choice Cmpl.next
  cases hc : c.highlighted with
  | none => simp; omega
  | some i =>
    have := h i hc
    by_cases hi : i = c.items.length - 1
    · subst hi; simp; omega
    · simp [hi]; omega

theorem choice_prev (c : Cmpl) (h : HiOk c) (hh : c.has = true) :
    c.prev.choice = if c.choice = 0 then c.items.length else c.choice - 1 := by
  have hlen : 0 < c.items.length := by
    simpa [Cmpl.has, List.length_pos_iff] using hh
  unfold Cmpl.choice Cmpl.prev
  cases hc : c.highlighted with
  | none => simp; omega
  | some i =>
    have := h i hc
    cases i <;> simp

theorem with_choice (c : Cmpl) (h : HiOk c) :
    c.with_ = (c.replace :: c.items.map (·.value))[c.choice]?.getD [] := by
  unfold Cmpl.with_ Cmpl.choice
  cases hc : c.highlighted with
  | none => simp
  | some i =>
    have := h i hc
    simp [List.getElem?_eq_getElem this]

/-! ### Outputs -/

inductive OutOp
  | add (v : List Char) (h : Nat)
  | width (render : List Char → Nat)
  | scroll (n : Int)

def Outputs.op (o : Outputs) : OutOp → Outputs
  | .add v h => o.add v h
  | .width r => o.updateWidth r
  | .scroll n => o.scrollBy n

/-- All values ever added. -/
def added : List OutOp → List (List Char)
  | [] => []
  | .add v _ :: os => v :: added os
  | _ :: os => added os

theorem outputs_spec (os : List OutOp) : ∀ (o : Outputs) (all : List (List Char)),
    o.items.map (·.1) = all.drop (all.length - o.limit) → o.scroll ≤ o.height - 1 →
    (os.foldl Outputs.op o).items.map (·.1) =
      (all ++ added os).drop ((all ++ added os).length - o.limit) ∧
    (os.foldl Outputs.op o).scroll ≤ (os.foldl Outputs.op o).height - 1 := by
  induction os with
  | nil => intro o all h1 h2; simpa [added] using ⟨h1, h2⟩
  | cons a os ih =>
    intro o all h1 h2
    have hl := congrArg List.length h1
    simp only [List.length_map, List.length_drop] at hl
    cases a with
    | add v h =>
      have := ih (o.add v h) (all ++ [v]) ?_ (by simp [Outputs.add])
      · simpa [added, Outputs.op, Outputs.add] using this
      · simp only [Outputs.add, List.length_append, List.length_cons, List.length_nil]
        split
        · rw [List.map_tail]
          simp only [List.map_append, h1, List.map_cons, List.map_nil]
          rcases Nat.eq_zero_or_pos (all.length - (all.length - o.limit)) with h0 | h0
          · rw [List.drop_eq_nil_of_le (by omega)]
            rw [List.drop_eq_nil_of_le (by simp; omega)]
            rfl
          · rw [List.tail_append_of_ne_nil (by
              intro hn; have := congrArg List.length hn; simp at this; omega)]
            rw [List.tail_drop, List.drop_append_of_le_length (by omega)]
            congr 2; omega
        · simp only [List.map_append, h1, List.map_cons, List.map_nil]
          rw [List.drop_append_of_le_length (by omega)]
          congr 2; omega
    | width r =>
      have := ih (o.updateWidth r) all (by
        simp only [Outputs.updateWidth, List.map_map]; rw [← h1]; rfl) (by simp [Outputs.updateWidth])
      simpa [added, Outputs.op, Outputs.updateWidth] using this
    | scroll n =>
      have hit : (o.scrollBy n).items = o.items := by
        unfold Outputs.scrollBy; split
        · rfl
        · split <;> rfl
      have hlm : (o.scrollBy n).limit = o.limit := by
        unfold Outputs.scrollBy; split
        · rfl
        · split <;> rfl
      have hht : (o.scrollBy n).height = o.height := by simp [Outputs.height, hit]
      have hsc : (o.scrollBy n).scroll ≤ (o.scrollBy n).height - 1 := by
        rw [hht]; unfold Outputs.scrollBy; split
        · exact h2
        · split
          · have := Nat.mod_le (o.height - 1) 65536
            simp only; omega
          · simp only; omega
      have := ih (o.scrollBy n) all (by rw [hit, hlm]; exact h1) hsc
      simpa [added, Outputs.op, hlm] using this

end Verif.Shell
