import Verif.Model.Screen
/-! C104: every row of the outputs can be seen. -/
namespace Verif.Screen
open Verif.Shell

variable {R : Type}

/-- The rows of the results, from the latest to the oldest. -/
def rowsOf (draw : List Char → List R) : List (List Char) → List R
  | [] => []
  | v :: vs => rowsOf draw vs ++ draw v

theorem paragraph_eq (draw : List Char → List R) (o : Outputs) : paragraph draw o = rowsOf draw (o.items.map (·.1)) := by
  unfold paragraph
  induction o.items with
  | nil => rfl
  | cons p l ih => simp [rowsOf, ← ih]

/-- The heights that are kept are those of the rows. -/
def Fits (draw : List Char → List R) (o : Outputs) : Prop := ∀ p ∈ o.items, p.2 = (draw p.1).length

theorem height_eq {draw : List Char → List R} {o : Outputs} (h : Fits draw o) :
    o.height = (rowsOf draw (o.items.map (·.1))).length := by
  unfold Fits at h
  unfold Outputs.height
  revert h
  induction o.items with
  | nil => intro _; rfl
  | cons p l ih =>
    intro h
    have h1 := h p (by simp)
    have h2 := ih (fun q hq => h q (by simp [hq]))
    simp only [List.map_cons, List.sum_cons, rowsOf, List.length_append, h1, h2]
    omega

/-- C104. After a line was evaluated, its result is at the top of the screen; what follows are the rows of the results
before it. -/
theorem latest_on_top (draw : List Char → List R) (x : Tab) (out : List Char → Option (List Char × Nat) × Bool) (v : List Char)
    (h n : Nat) (ho : (out x.input.buf).1 = some (v, h)) (hl : 0 < x.outputs.limit) :
    ∃ before, before <:+ x.outputs.items.map (·.1) ∧
      shown draw (x.afterEval out).outputs n = (draw v ++ rowsOf draw before).take n := by
  have happ : ∀ (l : List (List Char)) (v : List Char), rowsOf draw (l ++ [v]) = draw v ++ rowsOf draw l := by
    intro l v
    induction l with
    | nil => simp [rowsOf]
    | cons u l ih => simp [rowsOf, ih]
  simp only [Tab.afterEval, ho, shown, Outputs.add, paragraph_eq]
  split
  · rename_i hc
    cases hi : x.outputs.items with
    | nil => rw [hi] at hc; simp at hc; omega
    | cons p l =>
      refine ⟨l.map (·.1), ⟨[p.1], by simp⟩, ?_⟩
      simp [happ]
  · exact ⟨_, List.suffix_refl _, by simp [happ]⟩

/-- Shift with an arrow down (`true`) or up. -/
def press (b : Bool) : Event := .key (if b then .down else .up) .shift

theorem press_steps (w : Char → Bool) (bs : List Bool) : ∀ (t : Term) (x : Tab), t.tab = some x →
    ∃ t' r, processEvents w t (bs.map press) = some (t', r) ∧
      t'.tab = some { x with outputs := bs.foldl (fun o b => o.scrollBy (if b then 5 else -5)) x.outputs } := by
  induction bs with
  | nil => intro t x h; exact ⟨t, .none, rfl, h⟩
  | cons b bs ih =>
    intro t x h
    have hl : t.selected < t.tabs.length := by
      simp only [Term.tab, List.getElem?_eq_some_iff] at h; exact h.1
    let y : Tab := { x with outputs := x.outputs.scrollBy (if b then 5 else -5) }
    have h1 : processEvent w t (press b) = some (t.setTab y, .redraw) := by
      cases b <;> simp [press, processEvent, h, y]
    have h2 : (t.setTab y).tab = some y := by simp [Term.tab, Term.setTab, hl]
    obtain ⟨t', r, h3, h4⟩ := ih (t.setTab y) y h2
    refine ⟨t', EvRes.redraw.max r, ?_, ?_⟩
    · simp [processEvents, h1, h3]
    · simpa [y] using h4

theorem ups (a : Nat) : ∀ o : Outputs, (List.replicate a false).foldl (fun o b => o.scrollBy (if b then 5 else -5)) o =
    { o with scroll := o.scroll - 5 * a } := by
  induction a with
  | zero => intro o; simp
  | succ a ih =>
    intro o
    rw [List.replicate_succ, List.foldl_cons, ih]
    have : o.scrollBy (if false = true then 5 else -5) = { o with scroll := o.scroll - 5 } := by
      simp [Outputs.scrollBy]
    rw [this]
    simp only [Outputs.mk.injEq, true_and]
    omega

theorem downs (b : Nat) : ∀ o : Outputs, o.scroll + 5 * b ≤ o.height - 1 → o.height ≤ 65536 →
    (List.replicate b true).foldl (fun o b => o.scrollBy (if b then 5 else -5)) o = { o with scroll := o.scroll + 5 * b } := by
  induction b with
  | zero => intro o _ _; simp
  | succ b ih =>
    intro o h1 h2
    rw [List.replicate_succ, List.foldl_cons]
    have : o.scrollBy (if true = true then 5 else -5) = { o with scroll := o.scroll + 5 } := by
      simp only [if_true, Outputs.scrollBy]
      rw [if_neg (by decide), if_pos (by decide)]
      simp only [Outputs.mk.injEq, true_and]
      have : (o.height - 1) % 65536 = o.height - 1 := Nat.mod_eq_of_lt (by omega)
      rw [this]
      have : (5 : Int).toNat = 5 := rfl
      omega
    rw [this, ih _ (by simp only [Outputs.height] at h1 ⊢; omega) (by simpa [Outputs.height] using h2)]
    simp only [Outputs.mk.injEq, true_and]
    omega

/-- C104. Every row of the results can be brought on the screen, from every state of the shell, with Shift and the arrow
keys; the results stay as they are.
Partial: the screen has five rows for results or more (`rows_between_are_not_shown`), and there are at most 65536 rows
(`far_rows_are_never_shown`). -/
theorem every_row_can_be_seen_partial (w : Char → Bool) (draw : List Char → List R) (t : Term) (x : Tab) (hx : t.tab = some x)
    (hf : Fits draw x.outputs) (n : Nat) (hn : 5 ≤ n) (hb : (rowsOf draw (x.outputs.items.map (·.1))).length ≤ 65536)
    (j : Nat) (hj : j < (rowsOf draw (x.outputs.items.map (·.1))).length) :
    ∃ es t' r x', (∀ e ∈ es, e = .key .up .shift ∨ e = .key .down .shift) ∧ processEvents w t es = some (t', r) ∧
      t'.tab = some x' ∧ x'.outputs.items = x.outputs.items ∧
      ∃ k, k ≤ j ∧ j < k + n ∧
        shown draw x'.outputs n = ((rowsOf draw (x.outputs.items.map (·.1))).drop k).take n := by
  let bs := List.replicate x.outputs.scroll false ++ List.replicate (j / 5) true
  obtain ⟨t', r, h1, h2⟩ := press_steps w bs t x hx
  have hh := height_eq hf
  have hfold : bs.foldl (fun o b => o.scrollBy (if b then 5 else -5)) x.outputs =
      { x.outputs with scroll := 5 * (j / 5) } := by
    simp only [bs, List.foldl_append]
    rw [ups, downs]
    · simp only [Outputs.mk.injEq, true_and]
      omega
    · simp only [Outputs.height] at hh ⊢
      omega
    · simp only [Outputs.height] at hh ⊢
      omega
  rw [hfold] at h2
  refine ⟨bs.map press, t', r, _, ?_, h1, h2, rfl, 5 * (j / 5), by omega, by omega, ?_⟩
  · intro e he
    obtain ⟨b, _, rfl⟩ := List.mem_map.1 he
    cases b
    · exact Or.inl rfl
    · exact Or.inr rfl
  · simp [shown, paragraph_eq]

/-- **The code violates C104**: of 65537 rows, only those at the top can be seen, whatever is pressed: `as u16` makes the
last place that can be scrolled to the first. -/
theorem far_rows_are_never_shown (draw : List Char → List R) (o : Outputs) (hh : o.height = 65537) (h0 : o.scroll = 0)
    (n : Nat) (ls : List Int) :
    shown draw (ls.foldl Outputs.scrollBy o) n = (rowsOf draw (o.items.map (·.1))).take n := by
  have key : ∀ o : Outputs, o.height = 65537 → o.scroll = 0 → ls.foldl Outputs.scrollBy o = o := by
    induction ls with
    | nil => intro o _ _; rfl
    | cons l ls ih =>
      intro o h1 h2
      have : o.scrollBy l = o := by
        obtain ⟨items, limit, scroll⟩ := o
        dsimp only at h2
        subst h2
        unfold Outputs.scrollBy
        rw [h1]
        split
        · rfl
        · split <;> simp
      rw [List.foldl_cons, this]
      exact ih o h1 h2
  rw [key o hh h0, shown, h0, paragraph_eq]
  simp

/-- **The code violates C104**: with one row for results, the second of twenty rows cannot be seen, whatever is pressed:
keys scroll by five or 25 rows. -/
theorem rows_between_are_not_shown (ls : List Int) (hl : ∀ l ∈ ls, l = 5 ∨ l = -5 ∨ l = 25 ∨ l = -25) :
    shown (fun _ => List.range 20) (ls.foldl Outputs.scrollBy ⟨[([], 20)], 100, 0⟩) 1 ≠ [1] := by
  have step : ∀ s ∈ [0, 5, 10, 15, 19, 14, 9, 4], ∀ l ∈ [5, -5, 25, -25], ∃ s' ∈ [0, 5, 10, 15, 19, 14, 9, 4],
      Outputs.scrollBy ⟨[([], 20)], 100, s⟩ l = ⟨[([], 20)], 100, s'⟩ := by decide +kernel
  have key : ∀ s ∈ [0, 5, 10, 15, 19, 14, 9, 4], ∃ s' ∈ [0, 5, 10, 15, 19, 14, 9, 4],
      ls.foldl Outputs.scrollBy ⟨[([], 20)], 100, s⟩ = ⟨[([], 20)], 100, s'⟩ := by
    induction ls with
    | nil => intro s hs; exact ⟨s, hs, rfl⟩
    | cons l ls ih =>
      intro s hs
      obtain ⟨s1, h1, e1⟩ := step s hs l (by simpa using hl l (by simp))
      rw [List.foldl_cons, e1]
      exact ih (fun l h => hl l (by simp [h])) s1 h1
  obtain ⟨s', h', e⟩ := key 0 (by simp)
  rw [e]
  clear e key step
  revert s'
  decide +kernel

-- the hypotheses can be met
example : Fits (fun v => v) ⟨[("abc".toList, 3), ("defghijk".toList, 8)], 100, 5⟩ ∧
    shown (fun v => v) ⟨[("abc".toList, 3), ("defghijk".toList, 8)], 100, 5⟩ 5 = "ijkab".toList ∧
    Outputs.height ⟨[([], 65537)], 100, 0⟩ = 65537 := by
  refine ⟨?_, by decide, by decide⟩
  unfold Fits
  decide

end Verif.Screen
