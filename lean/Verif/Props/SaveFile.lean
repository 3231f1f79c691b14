import Verif.Model.SaveFile
/-! C105: what `save` reports is what happened to the file. -/
namespace Verif.SaveFile
open Verif.Print

variable {B : Type}

theorem push_spec : ∀ (os : List Resp) (file d : List B),
    (push os file d).2.1 ++ (push os file d).2.2.1 = file ++ d ∧
    ((push os file d).2.2.2 = .ok → (push os file d).2.2.1 = []) ∧
    file <+: (push os file d).2.1 ∧
    ((∀ r ∈ os, r ≠ .refused ∧ r ≠ .wrote 0) → (push os file d).2.2.2 ≠ .err ∧ ∀ r ∈ (push os file d).1, r ≠ .refused ∧ r ≠ .wrote 0) := by
  intro os
  induction os with
  | nil =>
    intro file d
    cases d with
    | nil => simp [push]
    | cons b d => simp [push]
  | cons r os ih =>
    intro file d
    cases d with
    | nil => 
      refine ⟨by simp [push], by simp [push], by simp [push], ?_⟩
      intro h
      simpa [push] using h
    | cons b d =>
      cases r with
      | wrote n =>
        by_cases hn : n = 0
        · subst hn
          refine ⟨by simp [push], by simp [push], by simp [push], ?_⟩
          intro h
          exact absurd rfl (h (.wrote 0) (by simp)).2
        · obtain ⟨h1, h2, h3, h4⟩ := ih (file ++ (b :: d).take n) ((b :: d).drop n)
          simp only [push, if_neg hn]
          refine ⟨by rw [h1]; simp, h2, (List.prefix_append _ _).trans h3, ?_⟩
          intro h
          exact h4 (fun r hr => h r (by simp [hr]))
      | interrupted =>
        obtain ⟨h1, h2, h3, h4⟩ := ih file (b :: d)
        simp only [push]
        exact ⟨h1, h2, h3, fun h => h4 (fun r hr => h r (by simp [hr]))⟩
      | refused =>
        refine ⟨by simp [push], by simp [push], by simp [push], ?_⟩
        intro h
        exact absurd rfl (h .refused (by simp)).1

/-- What the file and the buffer hold together. -/
def Wtr.all (w : Wtr B) : List B := w.file ++ w.buf

/-- The system never fails. -/
def Kind (os : List Resp) : Prop := ∀ r ∈ os, r ≠ .refused ∧ r ≠ .wrote 0

theorem flushBuf_spec (w : Wtr B) : (flushBuf w).1.all = w.all ∧ ((flushBuf w).2 = .ok → (flushBuf w).1.buf = []) ∧
    (Kind w.os → (flushBuf w).2 ≠ .err ∧ Kind (flushBuf w).1.os) := by
  obtain ⟨h1, h2, _, h4⟩ := push_spec w.os w.file w.buf
  exact ⟨h1, h2, h4⟩

theorem writeAll_spec (cap : Nat) (w : Wtr B) (s : List B) :
    ((writeAll cap w s).2 = .ok → (writeAll cap w s).1.all = w.all ++ s) ∧ (writeAll cap w s).1.all <+: w.all ++ s ∧
    (Kind w.os → (writeAll cap w s).2 ≠ .err ∧ Kind (writeAll cap w s).1.os) := by
  unfold writeAll
  split
  · exact ⟨by simp [Wtr.all], by simp [Wtr.all], by simp⟩
  · rename_i hlt
    have hr : ∃ r : Wtr B × Res, (if s.length > cap - w.buf.length then flushBuf w else (w, .ok)) = r ∧ r.1.all = w.all ∧
        (r.2 = .ok → s.length ≥ cap → s ≠ [] → r.1.buf = []) ∧ (Kind w.os → r.2 ≠ .err ∧ Kind r.1.os) := by
      split
      · obtain ⟨h1, h2, h3⟩ := flushBuf_spec w
        exact ⟨_, rfl, h1, fun h _ _ => h2 h, h3⟩
      · rename_i hgt
        refine ⟨_, rfl, rfl, ?_, fun h => ⟨by simp, h⟩⟩
        intro _ hc hs
        -- the piece fits exactly
        have hpos : 0 < s.length := List.length_pos_iff.2 hs
        have : w.buf.length = 0 := by omega
        simpa using this
    obtain ⟨r, e, h1, h2, h3⟩ := hr
    simp only [e]
    split
    · rename_i hok
      split
      · rename_i hc
        obtain ⟨p1, p2, p3, p4⟩ := push_spec r.1.os r.1.file s
        by_cases hs : s = []
        · subst hs
          have : push r.1.os r.1.file ([] : List B) = (r.1.os, r.1.file, [], .ok) := by
            cases r.1.os <;> simp [push]
          simp only [this]
          refine ⟨by intro _; simpa [Wtr.all] using h1, by simp only [Wtr.all] at h1 ⊢; rw [h1]; simp, ?_⟩
          intro hk
          exact ⟨by simp, (h3 hk).2⟩
        · have hb := h2 hok hc hs
          have hall : r.1.file = w.all := by rw [← h1]; simp [Wtr.all, hb]
          refine ⟨?_, ?_, ?_⟩
          · intro h
            have := p2 h
            rw [this] at p1
            simp only [List.append_nil] at p1
            show (push r.1.os r.1.file s).2.1 ++ r.1.buf = _
            rw [hb, List.append_nil, p1, hall]
          · simp only [Wtr.all, hb, List.append_nil]
            exact ⟨_, by rw [p1, hall]; rfl⟩
          · intro hk
            exact p4 (h3 hk).2
      · refine ⟨?_, ?_, ?_⟩
        · intro _
          simp only [Wtr.all] at h1 ⊢
          rw [← h1]
          simp
        · simp only [Wtr.all] at h1 ⊢
          rw [← h1]
          simp
        · intro hk
          exact ⟨by simp, (h3 hk).2⟩
    · rename_i e' hne
      refine ⟨?_, ?_, ?_⟩
      · intro h
        exact absurd h hne
      · rw [h1]
        exact List.prefix_append _ _
      · intro hk
        exact h3 hk

theorem writePieces_spec (cap : Nat) (ss : List (List B)) : ∀ w : Wtr B,
    ((writePieces cap w ss).2 = .ok → (writePieces cap w ss).1.all = w.all ++ ss.flatten) ∧
    (writePieces cap w ss).1.all <+: w.all ++ ss.flatten ∧
    (Kind w.os → (writePieces cap w ss).2 ≠ .err ∧ Kind (writePieces cap w ss).1.os) := by
  induction ss with
  | nil => intro w; exact ⟨by simp [writePieces], by simp [writePieces], fun h => ⟨by simp [writePieces], h⟩⟩
  | cons s ss ih =>
    intro w
    obtain ⟨h1, h2, h3⟩ := writeAll_spec cap w s
    simp only [writePieces]
    split
    · rename_i hok
      obtain ⟨i1, i2, i3⟩ := ih (writeAll cap w s).1
      rw [h1 hok] at i1 i2
      refine ⟨?_, ?_, fun hk => i3 (h3 hk).2⟩
      · intro h; simpa using i1 h
      · simpa using i2
    · rename_i e hne
      refine ⟨fun h => absurd h hne, ?_, h3⟩
      refine h2.trans ?_
      simp only [List.flatten_cons]
      rw [← List.append_assoc]
      exact List.prefix_append _ _

theorem writeFlush_spec (cap : Nat) (ss : List (List B)) (w : Wtr B) :
    ((writeFlush cap w ss).2 = .ok → (writeFlush cap w ss).1.file = w.all ++ ss.flatten ∧ (writeFlush cap w ss).1.buf = []) ∧
    (writeFlush cap w ss).1.all <+: w.all ++ ss.flatten ∧
    (Kind w.os → (writeFlush cap w ss).2 ≠ .err ∧ Kind (writeFlush cap w ss).1.os) := by
  obtain ⟨h1, h2, h3⟩ := writePieces_spec cap ss w
  simp only [writeFlush]
  split
  · rename_i hok
    obtain ⟨f1, f2, f3⟩ := flushBuf_spec (writePieces cap w ss).1
    refine ⟨?_, ?_, fun hk => f3 (h3 hk).2⟩
    · intro h
      have hb := f2 h
      refine ⟨?_, hb⟩
      rw [← h1 hok, ← f1]
      simp [Wtr.all, hb]
    · rw [f1]
      exact h2
  · rename_i e hne
    exact ⟨fun h => absurd h hne, h2, h3⟩

/-- C105. If `save` reports success, the file holds all that was to be written, and nothing else, whatever the file held
before, in how many pieces it was written and however the system took these. Whatever happens, once the file could be made it holds a beginning
of it. An error is reported only if the system gave one; if the file could not be made, it is as it was.
Partial: if there is an error, or the machine stops, then what the file held before is lost (`old_contents_are_lost`). -/
theorem success_is_true_partial (cap : Nat) (created : Bool) (os : List Resp) (old : Option (List B)) (ss : List (List B)) :
    ((saveFile cap created os old ss).2 = .ok → (saveFile cap created os old ss).1 = some ss.flatten) ∧
    (created = true → ∃ part rest, ss.flatten = part ++ rest ∧ (saveFile cap created os old ss).1 = some part) ∧
    ((saveFile cap created os old ss).2 = .err → created = false ∨ .refused ∈ os ∨ .wrote 0 ∈ os) ∧
    (created = false → (saveFile cap created os old ss).1 = old) := by
  cases created with
  | false => simp [saveFile]
  | true =>
    obtain ⟨h1, h2, h3⟩ := writeFlush_spec cap ss (⟨os, [], []⟩ : Wtr B)
    obtain ⟨f1, f2, f3⟩ := flushBuf_spec (writeFlush cap (⟨os, [], []⟩ : Wtr B) ss).1
    simp only [Wtr.all, List.nil_append] at h1 h2 f1
    simp only [saveFile, if_true]
    have hpre : ∀ l : List B, l <+: ss.flatten → ∃ part rest, ss.flatten = part ++ rest ∧ some l = some part := by
      rintro l ⟨r, e⟩
      exact ⟨l, r, e.symm, rfl⟩
    have hkind : ¬ (.refused ∈ os ∨ .wrote 0 ∈ os) → Kind os := by
      intro h r hr
      refine ⟨?_, ?_⟩ <;> rintro rfl
      · exact h (Or.inl hr)
      · exact h (Or.inr hr)
    split
    · rename_i hst
      refine ⟨by simp, ?_, by simp, by simp⟩
      intro _
      exact hpre _ ((List.prefix_append _ _).trans h2)
    · rename_i e hne
      refine ⟨?_, ?_, ?_, by simp⟩
      · intro h
        dsimp only at h ⊢
        split at h
        · cases h
        · obtain ⟨hf, hb⟩ := h1 h
          rw [hb, List.append_nil] at f1
          have hempty : (flushBuf (writeFlush cap (⟨os, [], []⟩ : Wtr B) ss).1).1.file = ss.flatten := by
            unfold flushBuf
            rw [hb]
            have : ∀ (os : List Resp) (f : List B), push os f [] = (os, f, [], .ok) := by
              intro os f; cases os <;> simp [push]
            simp [this, hf]
          rw [hempty]
      · intro _
        refine hpre _ ?_
        refine (List.prefix_append _ (flushBuf (writeFlush cap (⟨os, [], []⟩ : Wtr B) ss).1).1.buf).trans ?_
        rw [f1]
        exact h2
      · intro h
        right
        dsimp only at h
        split at h
        · cases h
        · apply Classical.byContradiction
          intro hno
          exact (h3 (hkind hno)).1 h

/-- The system takes at least one byte this often before the machine stops. -/
def takes (os : List Resp) : Nat := (os.filter fun r => match r with | .wrote _ => true | _ => false).length

theorem push_takes : ∀ (os : List Resp) (file d : List B), Kind os →
    takes os + file.length ≤ takes (push os file d).1 + (push os file d).2.1.length ∧
    (d.length ≤ takes os → (push os file d).2.2.2 = .ok) := by
  intro os
  induction os with
  | nil =>
    intro file d _
    cases d with
    | nil => simp [push]
    | cons b d => simp [push, takes]
  | cons r os ih =>
    intro file d hk
    have hk' : Kind os := fun x hx => hk x (by simp [hx])
    cases d with
    | nil => simp [push]
    | cons b d =>
      cases r with
      | wrote n =>
        have hn : n ≠ 0 := by
          rintro rfl
          exact (hk (.wrote 0) (by simp)).2 rfl
        obtain ⟨h1, h2⟩ := ih (file ++ (b :: d).take n) ((b :: d).drop n) hk'
        have ht : takes (.wrote n :: os) = takes os + 1 := by simp [takes]
        simp only [push, if_neg hn, ht]
        simp only [List.length_append, List.length_take, List.length_drop, List.length_cons] at h1 h2 ⊢
        exact ⟨by omega, fun h => h2 (by omega)⟩
      | interrupted =>
        have ht : takes (.interrupted :: os) = takes os := by simp [takes]
        simp only [push, ht]
        exact ih file (b :: d) hk'
      | refused => exact absurd rfl (hk .refused (by simp)).1

theorem flushBuf_takes (w : Wtr B) (hk : Kind w.os) :
    takes w.os + w.file.length ≤ takes (flushBuf w).1.os + (flushBuf w).1.file.length ∧
    (w.buf.length ≤ takes w.os → (flushBuf w).2 = .ok) := push_takes w.os w.file w.buf hk

theorem writeAll_takes (cap : Nat) (w : Wtr B) (s : List B) (hk : Kind w.os) :
    takes w.os + w.file.length ≤ takes (writeAll cap w s).1.os + (writeAll cap w s).1.file.length ∧
    (w.buf.length + s.length ≤ takes w.os → (writeAll cap w s).2 = .ok) := by
  unfold writeAll
  split
  · exact ⟨by simp, fun _ => rfl⟩
  · have hr : ∃ r : Wtr B × Res, (if s.length > cap - w.buf.length then flushBuf w else (w, .ok)) = r ∧ Kind r.1.os ∧
        takes w.os + w.file.length ≤ takes r.1.os + r.1.file.length ∧ r.1.all = w.all ∧ (w.buf.length ≤ takes w.os → r.2 = .ok) := by
      split
      · exact ⟨_, rfl, ((flushBuf_spec w).2.2 hk).2, (flushBuf_takes w hk).1, (flushBuf_spec w).1, (flushBuf_takes w hk).2⟩
      · exact ⟨_, rfl, hk, Nat.le_refl _, rfl, fun _ => rfl⟩
    obtain ⟨r, e, k, h1, h2, h3⟩ := hr
    have hl : r.1.file.length + r.1.buf.length = w.file.length + w.buf.length := by
      simpa [Wtr.all] using congrArg List.length h2
    simp only [e]
    split
    · split
      · obtain ⟨p1, p2⟩ := push_takes r.1.os r.1.file s k
        exact ⟨by dsimp only; omega, fun h => p2 (by omega)⟩
      · exact ⟨h1, fun _ => rfl⟩
    · exact ⟨h1, fun h => h3 (by omega)⟩

theorem writePieces_takes (cap : Nat) (ss : List (List B)) : ∀ w : Wtr B, Kind w.os →
    takes w.os + w.file.length ≤ takes (writePieces cap w ss).1.os + (writePieces cap w ss).1.file.length ∧
    (w.buf.length + ss.flatten.length ≤ takes w.os → (writePieces cap w ss).2 = .ok) := by
  induction ss with
  | nil => intro w _; exact ⟨by simp [writePieces], by simp [writePieces]⟩
  | cons s ss ih =>
    intro w hk
    obtain ⟨h1, h2⟩ := writeAll_takes cap w s hk
    obtain ⟨g1, _, g3⟩ := writeAll_spec cap w s
    simp only [writePieces]
    split
    · rename_i hok
      obtain ⟨i1, i2⟩ := ih (writeAll cap w s).1 (g3 hk).2
      have hl := congrArg List.length (g1 hok)
      simp only [Wtr.all, List.length_append] at hl
      simp only [List.flatten_cons, List.length_append]
      exact ⟨by omega, fun h => i2 (by omega)⟩
    · simp only [List.flatten_cons, List.length_append]
      exact ⟨h1, fun h => h2 (by omega)⟩

/-- C105. `save` is not over-careful: if the file can be made and the system takes bytes as often as there are bytes, and gives
no error, success is reported. -/
theorem success_if_taken (cap : Nat) (os : List Resp) (old : Option (List B)) (ss : List (List B))
    (herr : ∀ r ∈ os, r ≠ .refused ∧ r ≠ .wrote 0)
    (hn : ss.flatten.length ≤ (os.filter fun r => match r with | .wrote _ => true | _ => false).length) :
    (saveFile cap true os old ss).2 = .ok := by
  obtain ⟨h1, h2⟩ := writePieces_takes cap ss (⟨os, [], []⟩ : Wtr B) herr
  obtain ⟨g1, _, g3⟩ := writePieces_spec cap ss (⟨os, [], []⟩ : Wtr B)
  have hok := h2 (by rw [List.length_nil, Nat.zero_add]; exact hn)
  have hl := congrArg List.length (g1 hok)
  simp only [Wtr.all, List.length_append, List.length_nil] at hl
  have hfl := (flushBuf_takes _ (g3 herr).2).2 (by
    have : ss.flatten.length ≤ takes os := hn
    simp only [List.length_nil] at h1
    omega)
  have hw : writeFlush cap (⟨os, [], []⟩ : Wtr B) ss = flushBuf (writePieces cap (⟨os, [], []⟩ : Wtr B) ss).1 := by
    simp [writeFlush, hok]
  have hb := (flushBuf_spec (writePieces cap (⟨os, [], []⟩ : Wtr B) ss).1).2.1 hfl
  have hpush : ∀ (os : List Resp) (f : List B), push os f [] = (os, f, [], .ok) := by
    intro os f; cases os <;> simp [push]
  simp only [saveFile, if_true, hw, hfl]
  simp [flushBuf] at hb ⊢
  simp [hb, hpush]

/-- C105. What is written for a table are its rows, with line breaks between them, and their cells, with commas between
them (C45). -/
theorem texts_of_table (special : Bool → Char → Bool) (t : List (List (Option (List Char)))) :
    (tableTexts special false t).flatten = saveTable special t := by
  have hrow : ∀ (r : List (Option (List Char))) (c : Bool), (rowTexts special c r).flatten =
      (if c = true ∧ r ≠ [] then [','] else []) ++ sepBy ',' (r.map (saveCell special)) := by
    intro r
    induction r with
    | nil => intro c; simp [rowTexts, sepBy]
    | cons x r ih =>
      intro c
      cases r with
      | nil => cases c <;> simp [rowTexts, sepBy]
      | cons y r =>
        have := ih true
        rw [rowTexts, List.flatten_append, List.flatten_cons, this]
        cases c <;> simp [sepBy]
  have htab : ∀ (t : List (List (Option (List Char)))) (c : Bool), (tableTexts special c t).flatten =
      (if c = true ∧ t ≠ [] then ['\n'] else []) ++ sepBy '\n' (t.map fun r => sepBy ',' (r.map (saveCell special))) := by
    intro t
    induction t with
    | nil => intro c; simp [tableTexts, sepBy]
    | cons x t ih =>
      intro c
      cases t with
      | nil => cases c <;> simp [tableTexts, sepBy, hrow]
      | cons y t =>
        have := ih true
        rw [tableTexts, List.flatten_append, List.flatten_append, this, hrow]
        cases c <;> simp [sepBy]
  simpa [saveTable] using htab t false

/-- **The code violates C105**: a disk that is full, or a machine that stops, leaves a part of the new contents and nothing of
the old. -/
theorem old_contents_are_lost :
    saveFile 4 true [.wrote 2, .refused, .refused] (some [9, 9, 9]) [[1, 2, 3], [4, 5], [6]] = (some [1, 2], .err) ∧
    saveFile 4 true [.wrote 2] (some [9, 9, 9]) [[1, 2, 3], [4, 5], [6]] = (some [1, 2], .stopped) ∧
    saveFile 4 true [] (some [9, 9, 9]) [[1, 2, 3], [4, 5], [6]] = (some [], .stopped) := by decide

-- the hypotheses can be met
example : saveFile 4 true [.wrote 2, .interrupted, .wrote 7, .wrote 1, .wrote 4, .wrote 9] (some [9, 9, 9])
    [[1, 2, 3], [4, 5], [6], [7, 8, 9, 10, 11]] = (some [1, 2, 3, 4, 5, 6, 7, 8, 9, 10, 11], .ok) := by decide

example : (∀ r ∈ [Resp.wrote 1, .interrupted, .wrote 9, .wrote 2], r ≠ .refused ∧ r ≠ .wrote 0) ∧
    [[1, 2], [], [3]].flatten.length ≤
      ([Resp.wrote 1, .interrupted, .wrote 9, .wrote 2].filter fun r => match r with | .wrote _ => true | _ => false).length := by decide

example : saveFile 4 true [.wrote 2, .refused, .wrote 5] (some [9]) [[1, 2, 3], [4, 5]] = (some [1, 2, 3], .err) := by decide

end Verif.SaveFile
