import Verif.Props.ParseSound
/-! Reading an expression ends: the bound on the depth of nesting is never reached. -/
namespace Verif.Parse
open Verif.Nom Verif.File
set_option linter.unusedSectionVars false

/-- The parser never returns more than it was given. -/
def Shrinks {α : Type} (p : Parser α) : Prop := ∀ i r a, p i = .ok r a → r.length ≤ i.length

/-- Two parsers do the same on texts up to a length. -/
def Agree {α : Type} (N : Nat) (p q : Parser α) : Prop := ∀ i : Str, i.length ≤ N → p i = q i

theorem Shrinks.ws {α : Type} {p : Parser α} (h : Shrinks p) : Shrinks (ws p) := by
  intro i r a hp
  obtain ⟨j, b, h1, h2⟩ := PR.bind_ok.1 hp
  cases h2
  have a1 := h _ _ _ h1
  have a2 := skip_length isMulti i
  have a3 := skip_length isMulti j
  omega

theorem Agree.ws {α : Type} {N : Nat} {p q : Parser α} (h : Agree N p q) : Agree N (ws p) (ws q) := by
  intro i hi
  have := skip_length isMulti i
  simp only [Parse.ws, h (skip isMulti i) (by omega)]

theorem Shrinks.cut {α : Type} {p : Parser α} (h : Shrinks p) : Shrinks (cut p) :=
  fun i r a hp => h i r a (cut_ok hp)

theorem chr_shrinks (c : Char) : ∀ (i : Str) r a, chr c i = .ok r a → r.length < i.length := by
  intro i r a h
  unfold chr at h
  split at h
  · cases h
  · split at h
    · cases h; simp
    · cases h

theorem opIdent_shrinks (k : Classes) : Shrinks (opIdent k) := by
  intro i r a h
  rw [(opIdent_sound h).2]
  simp

theorem tag_shrinks (t : Str) : Shrinks (tag t) := by
  intro i r a h
  rw [tag_ok] at h
  simp [h]

theorem optTy_shrinks (k : Env) : Shrinks (optTy k) := by
  intro i r t h
  unfold optTy opt at h
  split at h
  · rename_i r' a h1
    cases h
    obtain ⟨j, u, h2, h3⟩ := PR.bind_ok.1 h1
    have := chr_shrinks _ _ _ _ h2
    have := opIdent_shrinks _ _ _ _ (cut_ok h3)
    omega
  · cases h; exact Nat.le_refl _
  · cases h

theorem opTail_shrinks (k : Env) (n : Nat) : ∀ i r acc s, opTail k n i acc = .ok r s → r.length ≤ i.length := by
  induction n with
  | zero => intro i r acc s h; cases h; exact Nat.le_refl _
  | succ n ih =>
    intro i r acc s h
    simp only [opTail] at h
    split at h
    · rename_i r' t h1
      obtain ⟨j, u, h2, h3⟩ := PR.bind_ok.1 h1
      have := tag_shrinks _ _ _ _ h2
      have := opIdent_shrinks _ _ _ _ h3
      have := ih _ _ _ _ h
      omega
    · cases h; exact Nat.le_refl _

theorem sepLoop_shrinks {α β : Type} {sep : Parser β} {f : Parser α} (hs : Shrinks sep) (hf : Shrinks f) (n : Nat) :
    ∀ i r acc l, sepLoop sep f n i acc = .ok r l → r.length ≤ i.length := by
  induction n with
  | zero => intro i r acc s h; cases h; exact Nat.le_refl _
  | succ n ih =>
    intro i r acc l h
    simp only [sepLoop] at h
    split at h
    · cases h; exact Nat.le_refl _
    · cases h
    · rename_i i1 b h1
      split at h
      · cases h
      · split at h
        · cases h; exact Nat.le_refl _
        · cases h
        · rename_i i2 a h2
          have := hs _ _ _ h1
          have := hf _ _ _ h2
          have := ih _ _ _ _ h
          omega

theorem opName_shrinks' (k : Env) : ∀ i r s, opName k i = .ok r s → r.length < i.length := by
  intro i r s h
  obtain ⟨j, u, h2, h3⟩ := PR.bind_ok.1 h
  have a1 := opTail_shrinks _ _ _ _ _ _ h3
  obtain ⟨⟨⟨c, cs, e, _⟩, _⟩, h4⟩ := opIdent_sound h2
  rw [h4, e]
  simp
  omega

/-- An operator takes at least one character. -/
theorem op_shrinks (k : Env) : ∀ i r o, op k i = .ok r o → r.length < i.length := by
  intro i r o h
  unfold op at h
  split at h
  · rename_i r' t h1
    cases h
    unfold specOp at h1
    split at h1
    · rename_i u h2
      cases h1
      have h3 := List.mem_of_find?_eq_some h2
      have h4 := List.find?_some h2
      rw [List.isPrefixOf_iff_prefix] at h4
      obtain ⟨z, rfl⟩ := h4
      have : 1 ≤ t.length := by
        simp only [specOps, List.mem_cons, List.not_mem_nil, or_false] at h3
        rcases h3 with rfl | rfl | rfl | rfl | rfl | rfl | rfl | rfl | rfl | rfl | rfl | rfl | rfl | rfl <;> simp
      simp
      omega
    · cases h1
  · obtain ⟨x, h1, _⟩ := PR.map_ok.1 h
    unfold path at h1
    dsimp only at h1
    obtain ⟨j, cs, h2, h3⟩ := PR.bind_ok.1 h1
    obtain ⟨j2, a, h4, h5⟩ := PR.bind_ok.1 h2
    have a1 := opName_shrinks' _ _ _ _ h4
    have a2 := sepLoop_shrinks (tag_shrinks _) (fun i r a h => Nat.le_of_lt (opName_shrinks' k i r a h)) _ _ _ _ _ h5
    have a3 : r = j := by
      unfold pathEnd at h3
      split at h3
      · cases h3
      · cases h3; rfl
    subst a3
    split at a1
    · simp only [List.length_drop] at a1; omega
    · omega

theorem takeWhile1_shrinks (p : Char → Bool) : Shrinks (takeWhile1 p) := by
  intro i r a h
  rw [(takeWhile1_sound h).1]
  simp

theorem wrapped_shrinks (q : Char) : Shrinks (wrapped q) := by
  intro i r a h
  obtain ⟨j, u, h1, h2⟩ := PR.bind_ok.1 h
  obtain ⟨u, h3, _⟩ := PR.map_ok.1 h2
  have a1 := chr_shrinks _ _ _ _ h1
  have a2 := chr_shrinks _ _ _ _ h3
  have a3 : (j.dropWhile (· != q)).length ≤ j.length := (List.dropWhile_suffix _).length_le
  omega

theorem ident_shrinks : Shrinks ident := by
  intro i r a h
  unfold ident at h
  split at h
  · cases h
  · exact wrapped_shrinks _ _ _ _ h
  · exact wrapped_shrinks _ _ _ _ h
  · exact takeWhile1_shrinks _ _ _ _ h

theorem infixRhs_shrinks (k : Env) : Shrinks (infixRhs k) := by
  intro i r a h
  unfold infixRhs at h
  split at h
  · exact ident_shrinks _ _ _ h
  · exact ident_shrinks _ _ _ h
  · exact opIdent_shrinks _ _ _ _ h

theorem infixLoop_shrinks (k : Env) (n : Nat) : ∀ i r a b, infixLoop k n i a = .ok r b → r.length ≤ i.length := by
  induction n with
  | zero => intro i r a b h; cases h; exact Nat.le_refl _
  | succ n ih =>
    intro i r a b h
    simp only [infixLoop] at h
    split at h
    · obtain ⟨j, rhs, h1, h2⟩ := PR.bind_ok.1 h
      obtain ⟨j2, out, h3, h4⟩ := PR.bind_ok.1 h2
      have := infixRhs_shrinks _ _ _ _ (cut_ok h1)
      have := optTy_shrinks _ _ _ _ h3
      have := ih _ _ _ _ h4
      simp only [List.length_cons]
      omega
    · cases h; exact Nat.le_refl _

theorem manyLoop_shrinks {α : Type} {f : Parser α} (hf : Shrinks f) (n : Nat) :
    ∀ i r acc l, manyLoop f n i acc = .ok r l → r.length ≤ i.length := by
  induction n with
  | zero => intro i r acc s h; cases h
  | succ n ih =>
    intro i r acc l h
    simp only [manyLoop] at h
    split at h
    · cases h; exact Nat.le_refl _
    · cases h
    · rename_i i1 a h2
      split at h
      · cases h
      · have := hf _ _ _ h2
        have := ih _ _ _ _ h
        omega

theorem pipes_shrinks {b : Parser Blk} (hb : Shrinks b) (n : Nat) :
    ∀ i r acc l, pipes b n i acc = .ok r l → r.length ≤ i.length := by
  induction n with
  | zero => intro i r acc s h; cases h; exact Nat.le_refl _
  | succ n ih =>
    intro i r acc l h
    simp only [pipes] at h
    split at h
    · obtain ⟨j, x, h1, h2⟩ := PR.bind_ok.1 h
      have := hb _ _ _ h1
      have := ih _ _ _ _ h2
      simp only [List.length_cons]
      omega
    · cases h; exact Nat.le_refl _

theorem expr_shrinks {b : Parser Blk} (hb : Shrinks b) : Shrinks (expr b) := by
  intro i r e h
  obtain ⟨j, x, h1, h2⟩ := PR.bind_ok.1 h
  obtain ⟨j2, bs, h3, h4⟩ := PR.bind_ok.1 h2
  have a1 := hb.ws _ _ _ h1
  have a2 := pipes_shrinks hb.ws _ _ _ _ _ h3
  split at h4
  · rename_i r' y h6
    cases h4
    have := hb.ws _ _ _ h6
    omega
  · cases h4
    omega

theorem arg_shrinks {k : Env} {b : Parser Blk} (hb : Shrinks b) : Shrinks (arg k b) := by
  intro i r a h
  unfold arg at h
  split at h
  · split at h
    · cases h
    · obtain ⟨j, e, h1, h2⟩ := PR.bind_ok.1 h
      obtain ⟨t, h3, rfl⟩ := PR.map_ok.1 h2
      obtain ⟨j2, e2, h4, h5⟩ := PR.bind_ok.1 (cut_ok h1)
      obtain ⟨_, h6, rfl⟩ := PR.map_ok.1 h5
      have := (expr_shrinks hb).ws _ _ _ h4
      have := chr_shrinks _ _ _ _ h6
      have := optTy_shrinks _ _ _ _ h3
      simp only [List.length_cons]
      omega
  · cases h
  · obtain ⟨s, h1, rfl⟩ := PR.map_ok.1 h
    have := opIdent_shrinks _ _ _ _ h1
    simp only [List.length_cons]
    omega
  · obtain ⟨j, c, h1, h2⟩ := PR.bind_ok.1 h
    have := opIdent_shrinks _ _ _ _ (cut_ok h1)
    split at h2
    · split at h2
      · cases h2
        simp only [List.length_cons]
        omega
      · cases h2
    · cases h2
  · split at h
    · cases h
    · split at h
      · rename_i r' s h1
        cases h
        rw [(num_sound h1).1]
        simp
      · split at h
        · obtain ⟨x, h1, rfl⟩ := PR.map_ok.1 h
          exact hb.ws _ _ _ h1
        · obtain ⟨s, h1, rfl⟩ := PR.map_ok.1 h
          exact ident_shrinks _ _ _ h1

theorem term_shrinks {k : Env} {p : Parser Arg} (hp : Shrinks p) : Shrinks (term k p) := by
  intro i r t h
  unfold term at h
  split at h
  · obtain ⟨s, h1, rfl⟩ := PR.map_ok.1 h
    obtain ⟨j, u, h2, h3⟩ := PR.bind_ok.1 h1
    have := tag_shrinks _ _ _ _ h2
    have := ident_shrinks _ _ _ h3
    omega
  · obtain ⟨a, h1, rfl⟩ := PR.map_ok.1 h
    obtain ⟨j, a0, h2, h3⟩ := PR.bind_ok.1 h1
    have := hp _ _ _ h2
    have := infixLoop_shrinks _ _ _ _ _ _ h3
    omega

theorem block_shrinks {k : Env} {p : Parser Arg} (hp : Shrinks p) : Shrinks (block k p) := by
  intro i r x h
  obtain ⟨i1, inTy, h1, h⟩ := PR.bind_ok.1 h
  obtain ⟨i2, o, h2, h⟩ := PR.bind_ok.1 h
  obtain ⟨i3, outTy, h3, h⟩ := PR.bind_ok.1 h
  obtain ⟨ts, h4, rfl⟩ := PR.map_ok.1 h
  have a1 := optTy_shrinks _ _ _ _ h1
  have a2 := op_shrinks _ _ _ _ h2
  have a3 := optTy_shrinks _ _ _ _ h3
  have a4 := manyLoop_shrinks (term_shrinks hp).ws _ _ _ _ _ h4
  have a5 := skip_length isMulti i1
  omega

theorem blockN_shrinks (k : Env) (n : Nat) : Shrinks (blockN k n) := by
  induction n with
  | zero => intro i r a h; cases h
  | succ n ih => exact block_shrinks (arg_shrinks ih)

theorem manyLoop_agree {α : Type} {N : Nat} {f g : Parser α} (hf : Shrinks f) (h : Agree N f g) (n : Nat) :
    ∀ (i : Str) acc, i.length ≤ N → manyLoop f n i acc = manyLoop g n i acc := by
  induction n with
  | zero => intro i acc _; rfl
  | succ n ih =>
    intro i acc hi
    simp only [manyLoop]
    rw [← h i hi]
    split
    · rfl
    · rfl
    · rename_i i1 a h1
      split
      · rfl
      · have := hf _ _ _ h1
        exact ih _ _ (by omega)

theorem pipes_agree {N : Nat} {f g : Parser Blk} (hf : Shrinks f) (h : Agree N f g) (n : Nat) :
    ∀ (i : Str) acc, i.length ≤ N → pipes f n i acc = pipes g n i acc := by
  induction n with
  | zero => intro i acc _; rfl
  | succ n ih =>
    intro i acc hi
    simp only [pipes]
    split
    · rename_i r
      simp only [List.length_cons] at hi
      rw [← h r (by omega)]
      cases h1 : f r with
      | err => rfl
      | fail => rfl
      | ok j x =>
        simp only [PR.bind]
        have := hf _ _ _ h1
        exact ih _ _ (by omega)
    · rfl

theorem expr_agree {N : Nat} {f g : Parser Blk} (hf : Shrinks f) (h : Agree N f g) : Agree N (expr f) (expr g) := by
  intro i hi
  simp only [expr]
  rw [← h.ws i hi]
  cases h1 : ws f i with
  | err => rfl
  | fail => rfl
  | ok j x =>
    have a1 := hf.ws _ _ _ h1
    simp only [PR.bind]
    rw [← pipes_agree hf.ws h.ws j.length j [x] (by omega)]
    cases h2 : pipes (ws f) j.length j [x] with
    | err => rfl
    | fail => rfl
    | ok j2 bs =>
      have a2 := pipes_shrinks hf.ws _ _ _ _ _ h2
      simp only
      rw [← h.ws j2 (by omega)]

theorem arg_agree {k : Env} {N : Nat} {f g : Parser Blk} (hf : Shrinks f) (h : Agree N f g) :
    Agree N (arg k f) (arg k g) := by
  intro i hi
  unfold arg
  split
  · rename_i r
    simp only [List.length_cons] at hi
    have : ws (expr f) r = ws (expr g) r := (expr_agree hf h).ws r (by omega)
    simp only [cut, this]
  · rfl
  · rfl
  · rfl
  · rw [h.ws i hi]

theorem term_agree {k : Env} {N : Nat} {f g : Parser Arg} (h : Agree N f g) : Agree N (term k f) (term k g) := by
  intro i hi
  unfold term
  rw [h i hi]

theorem block_agree {k : Env} {N : Nat} {f g : Parser Arg} (hf : Shrinks f) (h : Agree N f g) :
    Agree (N + 1) (block k f) (block k g) := by
  intro i hi
  unfold block
  cases h1 : optTy k i with
  | err => rfl
  | fail => rfl
  | ok i1 inTy =>
    simp only [PR.bind]
    have a1 := optTy_shrinks _ _ _ _ h1
    have a2 := skip_length isMulti i1
    cases h2 : op k (skip isMulti i1) with
    | err => rfl
    | fail => rfl
    | ok i2 o =>
      have a3 := op_shrinks _ _ _ _ h2
      simp only
      cases h3 : optTy k i2 with
      | err => rfl
      | fail => rfl
      | ok i3 outTy =>
        have a4 := optTy_shrinks _ _ _ _ h3
        simp only [many0]
        rw [manyLoop_agree (term_shrinks hf).ws (term_agree h).ws _ i3 [] (by omega)]

/-- A bound on the depth which is more than the length of the text makes no difference. -/
theorem blockN_enough (k : Env) (n m N : Nat) (hn : N < n) (hm : N < m) :
    Agree N (blockN k n) (blockN k m) := by
  induction n generalizing m N with
  | zero => omega
  | succ n ih =>
    cases m with
    | zero => omega
    | succ m =>
      cases N with
      | zero =>
        intro i hi
        have : i = [] := List.length_eq_zero_iff.1 (by omega)
        subst this
        simp [blockN, block, optTy, opt, chr, PR.bind, skip, op_nil]
      | succ N =>
        exact block_agree (arg_shrinks (blockN_shrinks k n))
          (arg_agree (blockN_shrinks k n) (ih m N (by omega) (by omega)))

/-- Reading an expression ends, whatever the text: allowing deeper nesting than the length of the text
changes nothing. -/
theorem expression_ends (k : Env) (i : Str) (n : Nat) (h : i.length < n) :
    noTrailing (expr (blockN k n)) i = expression k i := by
  have := expr_agree (blockN_shrinks k n) (blockN_enough k n (i.length + 1) i.length h (by omega)) i
    (Nat.le_refl _)
  simp only [expression, noTrailing, this]

end Verif.Parse
