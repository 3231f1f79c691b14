import Verif.Spec.Shell
namespace Verif.Shell

/-! ### Input line -/

/-- The cursor is within the line. -/
def Input.Ok (i : Input) : Prop := i.pos ≤ i.buf.length

/-- The two sides of the cursor. -/
def Input.abs (i : Input) : Cursor := ⟨i.buf.take i.pos, i.buf.drop i.pos⟩

theorem wordCount_seen (w : Char → Bool) (cs : List Char) :
    wordCount w true cs = (cs.takeWhile w).length := by
  induction cs with
  | nil => rfl
  | cons c cs ih =>
    cases hc : w c <;> simp [wordCount, hc, ih, List.takeWhile_cons]

theorem wordCount_eq (w : Char → Bool) (cs : List Char) :
    wordCount w false cs = wordSpan w cs := by
  induction cs with
  | nil => rfl
  | cons c cs ih =>
    cases hc : w c
    · simp only [wordSpan] at ih
      simp [wordCount, hc, ih, wordSpan, List.takeWhile_cons, List.dropWhile_cons]
      omega
    · simp [wordCount, hc, wordCount_seen, wordSpan, List.takeWhile_cons, List.dropWhile_cons]

theorem mvMagnitude_eq (w : Char → Bool) (m : Mvmt) (cs : List Char) :
    mvMagnitude w m cs = Cursor.span w cs m := by
  cases m <;> simp [mvMagnitude, Cursor.span, wordCount_eq]

theorem abs_eq_iff (i : Input) (l r : List Char) (hb : i.buf = l ++ r) (hp : i.pos = l.length) :
    i.Ok ∧ i.abs = ⟨l, r⟩ := by
  constructor
  · simp [Input.Ok, hb, hp]
  · simp [Input.abs, hb, hp]

theorem ok_split (i : Input) (h : i.Ok) :
    i.buf = i.abs.left ++ i.abs.right ∧ i.pos = i.abs.left.length := by
  constructor
  · simp [Input.abs]
  · simp only [Input.Ok] at h; simp [Input.abs]; omega

theorem insert_spec (i : Input) (h : i.Ok) (c : Char) :
    ∃ j, i.insert c = some j ∧ j.Ok ∧ j.abs = ⟨i.abs.left ++ [c], i.abs.right⟩ := by
  have ⟨_, h2⟩ := ok_split i h
  have h' : i.pos ≤ i.buf.length := h
  refine ⟨⟨i.buf.take i.pos ++ c :: i.buf.drop i.pos, i.pos + 1⟩, by simp [Input.insert, h'],
    abs_eq_iff _ _ _ ?_ ?_⟩
  · simp [Input.abs]
  · simp [← h2]

theorem insertStr_spec (s : List Char) : ∀ (i : Input), i.Ok →
    ∃ j, i.insertStr s = some j ∧ j.Ok ∧ j.abs = ⟨i.abs.left ++ s, i.abs.right⟩ := by
  induction s with
  | nil => intro i h; exact ⟨i, rfl, h, by simp⟩
  | cons c cs ih =>
    intro i h
    obtain ⟨j, h1, h2, h3⟩ := insert_spec i h c
    obtain ⟨k, h4, h5, h6⟩ := ih j h2
    refine ⟨k, by simp [Input.insertStr, h1, h4], h5, ?_⟩
    rw [h6, h3]; simp

theorem op_spec (w : Char → Bool) (i : Input) (h : i.Ok) (o : EditOp) :
    ∃ j, i.op w o = some j ∧ j.Ok ∧ j.abs = i.abs.op w o := by
  have ⟨h1, h2⟩ := ok_split i h
  have h' : i.pos ≤ i.buf.length := h
  cases o with
  | clear => exact ⟨_, rfl, by simp [Input.clear, Input.Ok], by simp [Input.clear, Input.abs, Cursor.op]⟩
  | insert c => exact insert_spec i h c
  | insertStr s => exact insertStr_spec s i h
  | backspace =>
    by_cases hp : 0 < i.pos
    · have hlt : i.pos - 1 < i.buf.length := by omega
      refine ⟨⟨i.buf.take (i.pos - 1) ++ i.buf.drop (i.pos - 1 + 1), i.pos - 1⟩,
        by simp [Input.op, Input.backspace, hp, removeAt, hlt], abs_eq_iff _ _ _ ?_ ?_⟩
      · simp only [Input.abs, List.dropLast_eq_take, List.length_take, List.take_take]
        congr 2 <;> omega
      · simp [Input.abs]; omega
    · have h0 : i.pos = 0 := by omega
      refine ⟨i, by simp [Input.op, Input.backspace, hp], h, ?_⟩
      simp [Cursor.op, Input.abs, h0]
  | delete =>
    by_cases hp : i.pos < i.buf.length
    · refine ⟨⟨i.buf.take i.pos ++ i.buf.drop (i.pos + 1), i.pos⟩,
        by simp [Input.op, Input.delete, hp, removeAt], abs_eq_iff _ _ _ ?_ ?_⟩
      · simp [Input.abs, List.tail_drop]
      · simp [Input.abs]; omega
    · have h0 : i.buf.length ≤ i.pos := by omega
      refine ⟨i, by simp [Input.op, Input.delete, hp], h, ?_⟩
      simp [Cursor.op, Input.abs, List.drop_eq_nil_of_le h0]
  | moveStart =>
    refine ⟨_, rfl, abs_eq_iff _ _ _ ?_ ?_⟩
    · simp [Input.moveStart, Input.abs]
    · simp [Input.moveStart]
  | moveLeft m =>
    have hl : i.abs.left.length = i.pos := h2.symm
    refine ⟨{ i with pos := i.pos - mvMagnitude w m (i.buf.take i.pos).reverse },
      by simp [Input.op, Input.moveLeft, h'], abs_eq_iff _ _ _ ?_ ?_⟩
    · rw [← List.append_assoc, List.take_append_drop]; exact h1
    · simp only [List.length_take, hl, mvMagnitude_eq]
      simp only [Input.abs]; omega
  | moveRight m =>
    have hr : i.abs.right.length = i.buf.length - i.pos := by simp [Input.abs]
    refine ⟨{ i with pos := min (i.pos + mvMagnitude w m (i.buf.drop i.pos)) i.buf.length },
      by simp [Input.op, Input.moveRight, h'], abs_eq_iff _ _ _ ?_ ?_⟩
    · rw [List.append_assoc, List.take_append_drop]; exact h1
    · simp only [List.length_append, List.length_take, hr, mvMagnitude_eq]
      simp only [Input.abs, List.length_take]; omega

theorem ops_spec (w : Char → Bool) (os : List EditOp) : ∀ (i : Input), i.Ok →
    ∃ j, i.ops w os = some j ∧ j.Ok ∧ j.abs = os.foldl (Cursor.op w) i.abs := by
  induction os with
  | nil => intro i h; exact ⟨i, rfl, h, rfl⟩
  | cons o os ih =>
    intro i h
    obtain ⟨j, h1, h2, h3⟩ := op_spec w i h o
    obtain ⟨k, h4, h5, h6⟩ := ih j h2
    exact ⟨k, by simp [Input.ops, h1, h4], h5, by rw [h6, h3]; rfl⟩

/-! ### History -/

theorem dropOld_eq (l : List (List Char)) : dropOld l = l.drop (l.length - 99) := by
  induction l with
  | nil => rfl
  | cons x xs ih =>
    rw [dropOld]
    by_cases h : (x :: xs).length ≥ histLim
    · rw [if_pos h, ih]
      simp only [List.length_cons, histLim] at h ⊢
      rw [show xs.length + 1 - 99 = (xs.length - 99) + 1 by omega, List.drop_succ_cons]
    · rw [if_neg h]
      simp only [histLim] at h
      rw [show (x :: xs).length - 99 = 0 by omega, List.drop_zero]

/-- The relation between the history and its specification. -/
def HRel (h : History) (s : HSpec) : Prop :=
  h.items = s.lines.drop (s.lines.length - 100) ∧ s.ago ≤ s.kept ∧
    ((h.idx = none ∧ s.ago = 0) ∨
      ∃ i, h.idx = some i ∧ (i < h.items.length ∨ h.items.length = 0 ∧ i = 0) ∧
        i + s.ago = h.items.length)

theorem hrel_len {h : History} {s : HSpec} (hr : HRel h s) : h.items.length = s.kept := by
  rw [hr.1, List.length_drop, HSpec.kept]; omega

theorem hrel_op {h : History} {s : HSpec} (hr : HRel h s) (o : HistOp) :
    HRel (h.op o) (s.op o) := by
  have hlen := hrel_len hr
  obtain ⟨hi, hk, hidx⟩ := hr
  cases o with
  | add l =>
    refine ⟨?_, by simp [HSpec.op], Or.inl ⟨rfl, rfl⟩⟩
    simp only [History.op, History.add, HSpec.op, dropOld_eq, List.length_append, List.length_cons,
      List.length_nil]
    rw [List.drop_append_of_le_length (by omega), hi, List.drop_drop, List.length_drop]
    rw [show s.lines.length - 100 + (s.lines.length - (s.lines.length - 100) - 99)
      = s.lines.length + (0 + 1) - 100 by omega]
  | back =>
    have hkk : HSpec.kept (s.op .back) = s.kept := rfl
    refine ⟨hi, ?_, ?_⟩
    · rw [hkk]; simp only [HSpec.op]; split <;> omega
    · rcases hidx with ⟨h1, h2⟩ | ⟨i, h1, h2, h3⟩
      · right
        refine ⟨h.items.length - 1, by simp [History.op, History.back, h1], ?_, ?_⟩
        · show h.items.length - 1 < h.items.length ∨ _; simp only [History.op, History.back]; omega
        · simp only [History.op, History.back, HSpec.op]; split <;> omega
      · cases i with
        | zero =>
          left
          refine ⟨by simp [History.op, History.back, h1], ?_⟩
          simp only [HSpec.op]; rw [if_pos (by omega)]
        | succ i =>
          right
          refine ⟨i, by simp [History.op, History.back, h1], ?_, ?_⟩
          · simp only [History.op, History.back]; omega
          · simp only [History.op, History.back, HSpec.op]; rw [if_neg (by omega)]
            show i + (s.ago + 1) = _; omega
  | fwd =>
    have hkk : HSpec.kept (s.op .fwd) = s.kept := rfl
    refine ⟨hi, ?_, ?_⟩
    · rw [hkk]; simp only [HSpec.op]; split <;> omega
    · rcases hidx with ⟨h1, h2⟩ | ⟨i, h1, h2, h3⟩
      · right
        refine ⟨0, by simp [History.op, History.fwd, h1], ?_, ?_⟩
        · rcases Nat.eq_zero_or_pos h.items.length with h0 | h0
          · exact Or.inr ⟨h0, rfl⟩
          · exact Or.inl h0
        · simp only [History.op, History.fwd, HSpec.op]; rw [if_pos h2]; simp [hlen]
      · by_cases hl : i = h.items.length - 1
        · left
          refine ⟨by simp [History.op, History.fwd, h1, hl], ?_⟩
          simp only [HSpec.op]; split
          · rw [← hlen]; omega
          · omega
        · right
          refine ⟨i + 1, by simp [History.op, History.fwd, h1, hl], ?_, ?_⟩
          · simp only [History.op, History.fwd]; omega
          · simp only [History.op, History.fwd, HSpec.op]; rw [if_neg (by omega)]
            show i + 1 + (s.ago - 1) = _; omega

theorem hrel_ops (os : List HistOp) : ∀ (h : History) (s : HSpec), HRel h s →
    HRel (os.foldl History.op h) (os.foldl HSpec.op s) := by
  induction os with
  | nil => intro h s hr; exact hr
  | cons o os ih => intro h s hr; exact ih _ _ (hrel_op hr o)

theorem hrel_shown {h : History} {s : HSpec} (hr : HRel h s) : h.current = s.shown := by
  have hlen := hrel_len hr
  obtain ⟨hi, hk, hidx⟩ := hr
  rcases hidx with ⟨h1, h2⟩ | ⟨i, h1, h2, h3⟩
  · simp [History.current, h1, HSpec.shown, h2]
  · simp only [History.current, h1, Option.bind_some, HSpec.shown]
    split
    · rw [List.getElem?_eq_none (by omega)]
    · rw [hi, List.getElem?_drop]
      rw [hi, List.length_drop] at h3
      congr 1; omega

end Verif.Shell
