import Verif.Model.Advice
import Verif.Props.Parse
import Verif.Props.ParseRound
/-! C102: the advice to annotate a type can be followed. -/
namespace Verif.Advice
open Verif.Parse Verif.Nom Verif.File

theorem optTy_none {k : Env} {i r : Str} (h : optTy k i = .ok r none) : r = i ∧ i.head? ≠ some ':' := by
  cases i with
  | nil => simp [optTy, opt, chr, PR.bind] at h; exact ⟨h, by simp⟩
  | cons c i =>
    by_cases hc : c = ':'
    · subst hc
      simp only [optTy, opt, chr, PR.bind, if_true, cut] at h
      generalize opIdent k.cls i = x at h
      cases x <;> simp at h
    · simp only [optTy, opt, chr, PR.bind, hc, if_false, PR.ok.injEq, and_true] at h
      exact ⟨h.symm, by simpa using hc⟩

theorem block_annotated {k : Env} (L : Laws k) {a : Parser Arg} {i r : Str} {o : Op} {out : Option Str} {ts : List Term}
    {T : Str} (hT : IsName k.cls T) (h : block k a (skip isMulti i) = .ok r (.mk none o out ts)) :
    block k a (':' :: T ++ ' ' :: i) = .ok r (.mk (some T) o out ts) := by
  have e : optTy k (':' :: T ++ ' ' :: i) = .ok (' ' :: i) (some T) := by
    refine optTy_app L (t := some T) hT (r := ' ' :: i) ?_ (by simp)
    intro c hc
    simp only [List.head?_cons, Option.some.injEq] at hc
    subst hc
    exact L.ident_off (by simp)
  unfold block at h ⊢
  rw [e]
  dsimp only [PR.bind] at h ⊢
  rw [skip_space]
  generalize hx : optTy k (skip isMulti i) = x at h
  cases x with
  | err => simp at h
  | fail => simp at h
  | ok i1 t =>
    dsimp only at h
    generalize hy : op k (skip isMulti i1) = y at h
    cases y with
    | err => simp at h
    | fail => simp at h
    | ok i2 o' =>
      dsimp only at h
      generalize hz : optTy k i2 = z at h
      cases z with
      | err => simp at h
      | fail => simp at h
      | ok i3 out' =>
        dsimp only at h
        generalize hw : many0 (ws (term k a)) i3 = w at h
        cases w with
        | err => simp [PR.map] at h
        | fail => simp [PR.map] at h
        | ok i4 ts' =>
          simp only [PR.map, PR.ok.injEq, Blk.mk.injEq] at h
          obtain ⟨rfl, rfl, rfl, rfl, rfl⟩ := h
          obtain ⟨rfl, _⟩ := optTy_none hx
          rw [skip_skip] at hy
          rw [hy]
          dsimp only
          rw [hz]
          dsimp only
          rw [hw]
          rfl

theorem pipes_first {b : Parser Blk} {x y : Blk} (n : Nat) : ∀ (i : Str) (acc : List Blk) (r : Str) (l : List Blk),
    pipes b n i (x :: acc) = .ok r l → ∃ l', l = x :: l' ∧ pipes b n i (y :: acc) = .ok r (y :: l') := by
  induction n with
  | zero => intro i acc r l h; simp only [pipes, PR.ok.injEq] at h ⊢; obtain ⟨rfl, rfl⟩ := h; exact ⟨acc, rfl, rfl, rfl⟩
  | succ n ih =>
    intro i acc r l h
    unfold pipes at h ⊢
    split at h
    · rename_i z
      generalize b z = w at h ⊢
      cases w with
      | err => simp [PR.bind] at h
      | fail => simp [PR.bind] at h
      | ok j v => exact ih j _ r l h
    · simp only [PR.ok.injEq] at h ⊢; obtain ⟨rfl, rfl⟩ := h; exact ⟨acc, rfl, rfl, rfl⟩

theorem expr_first {b : Parser Blk} {x y z : Blk} {s1 s2 r i : Str} {bs : List Blk} {u : Option Str}
    (h1 : ws b s1 = .ok r x) (h2 : ws b s2 = .ok r y) (h : expr b s1 = .ok i (.mk (z :: bs) u)) :
    z = x ∧ expr b s2 = .ok i (.mk (y :: bs) u) := by
  unfold expr at h ⊢
  rw [h1] at h
  rw [h2]
  dsimp only [PR.bind] at h ⊢
  generalize hp : pipes (ws b) r.length r [x] = p at h
  cases p with
  | err => simp at h
  | fail => simp at h
  | ok j l =>
    obtain ⟨l', rfl, e⟩ := pipes_first (y := y) r.length r [] j l hp
    rw [e]
    dsimp only at h ⊢
    generalize ws b j = w at h ⊢
    cases w <;> simp only [PR.ok.injEq, Expr.mk.injEq, List.cons_append, List.cons.injEq] at h ⊢ <;>
      (obtain ⟨rfl, ⟨rfl, rfl⟩, rfl⟩ := h; simp)

theorem ws_ok {α : Type} {p : Parser α} {i r : Str} {a : α} (h : ws p i = .ok r a) :
    ∃ r', p (skip isMulti i) = .ok r' a ∧ skip isMulti r' = r := by
  unfold ws at h
  generalize p (skip isMulti i) = x at h
  cases x with
  | err => simp [PR.bind] at h
  | fail => simp [PR.bind] at h
  | ok r' a' =>
    simp only [PR.bind, PR.ok.injEq] at h
    exact ⟨r', by rw [h.2], h.1⟩

theorem skip_colon (s : Str) : skip isMulti (':' :: s) = ':' :: s := skip_cons (by decide)

theorem arg_brace (k : Env) (b : Parser Blk) (r : Str) : arg k b ('{' :: r) =
    if (skip isMulti r).head? = some '}' then .fail
    else
      (cut (fun i => (ws (expr b) i).bind fun i e => (chr '}' i).map fun _ => e) r).bind fun i e =>
        (optTy k i).map fun t => .expr (e.setOut t) := by
  simp only [arg]

/-- C102. If an expression in braces is read, whose first command has no input type written, then what the message says is
read as well with any type put in, and as the same expression but with that type as its input. -/
theorem input_advice_in_braces {k : Env} (L : Laws k) {n : Nat} {text rest i T : Str} {o : Op} {out u : Option Str}
    {ts : List Term} {bs : List Blk} (hT : IsName k.cls T)
    (h : arg k (blockN k n) ('{' :: text ++ rest) = .ok i (.expr (.mk (.mk none o out ts :: bs) u))) :
    arg k (blockN k n) (inputAdvice T ('{' :: text) ++ rest) = .ok i (.expr (.mk (.mk (some T) o out ts :: bs) u)) := by
  have hs : inputAdvice T ('{' :: text) ++ rest = '{' :: (':' :: T ++ ' ' :: (text ++ rest)) := by
    simp [inputAdvice]
  rw [hs]
  rw [List.cons_append] at h
  generalize text ++ rest = s at h ⊢
  rw [arg_brace] at h ⊢
  split at h
  · simp at h
  · rw [if_neg (by rw [List.cons_append, skip_colon]; simp)]
    simp only [cut, PR.bind] at h ⊢
    generalize hx : ws (expr (blockN k n)) s = x at h
    cases x with
    | err => simp at h
    | fail => simp at h
    | ok j e =>
      obtain ⟨bs0, u0⟩ := e
      -- the blocks, from what was read
      have hb : bs0 = .mk none o out ts :: bs := by
        dsimp only at h
        generalize chr '}' j = c at h
        cases c with
        | err => simp [PR.map] at h
        | fail => simp [PR.map] at h
        | ok j' _ =>
          simp only [PR.map] at h
          generalize optTy k j' = t at h
          cases t with
          | err => simp at h
          | fail => simp at h
          | ok j2 t => simp only [PR.ok.injEq, Expr.setOut, Arg.expr.injEq, Expr.mk.injEq] at h; exact h.2.1
      subst hb
      obtain ⟨r', he, hr'⟩ := ws_ok hx
      -- the first block
      have hfirst : ∃ r x, ws (blockN k n) (skip isMulti s) = .ok r x := by
        unfold expr at he
        generalize ws (blockN k n) (skip isMulti s) = w at he ⊢
        cases w with
        | err => simp [PR.bind] at he
        | fail => simp [PR.bind] at he
        | ok r x => exact ⟨r, x, rfl⟩
      obtain ⟨r, x, hw⟩ := hfirst
      have hz := (expr_first (y := x) hw hw he).1
      subst hz
      obtain ⟨r1, hblk, hr1⟩ := ws_ok hw
      rw [skip_skip] at hblk
      cases n with
      | zero => simp [blockN] at hblk
      | succ n =>
        have hnew : ws (blockN k (n + 1)) (':' :: T ++ ' ' :: s) = .ok r (.mk (some T) o out ts) := by
          unfold ws
          rw [List.cons_append, skip_colon, ← List.cons_append,
            show blockN k (n + 1) (':' :: T ++ ' ' :: s) = _ from block_annotated L hT hblk]
          simp only [PR.bind, hr1]
        have he2 := (expr_first hw hnew he).2
        have hx2 : ws (expr (blockN k (n + 1))) (':' :: T ++ ' ' :: s) = .ok j (.mk (.mk (some T) o out ts :: bs) u0) := by
          unfold ws
          rw [List.cons_append, skip_colon, ← List.cons_append, he2]
          simp only [PR.bind, hr']
        simp only [hx2] at h ⊢
        generalize chr '}' j = c at h ⊢
        cases c with
        | err => simp [PR.map] at h
        | fail => simp [PR.map] at h
        | ok j' _ =>
          simp only [PR.map] at h ⊢
          generalize optTy k j' = t at h ⊢
          cases t with
          | err => simp at h
          | fail => simp at h
          | ok j2 t =>
            simp only [PR.ok.injEq, Expr.setOut, Arg.expr.injEq, Expr.mk.injEq] at h ⊢
            simp [h.1, h.2.2]

theorem op_no_brace {k : Env} (L : Laws k) {o : Op} (h : IsOp k.cls o) : (writeOp o).head? ≠ some '{' := by
  have hal : k.cls.alpha '{' = false := L.alpha_off (by simp)
  have hname : ∀ s r : Str, IsOpName k.cls s → (s ++ r).head? ≠ some '{' := by
    intro s r hs e
    obtain ⟨c, cs, rfl, hc⟩ := hs.head
    simp only [List.cons_append, List.head?_cons, Option.some.injEq] at e
    subst e
    rw [hal] at hc
    cases hc
  cases o with
  | single t =>
    rcases h with h | h
    · revert t
      simp only [writeOp]
      decide
    · simpa [writeOp] using hname t [] h
  | path rooted cs =>
    obtain ⟨rfl, h2, h3⟩ := h
    cases cs with
    | nil => simp at h2
    | cons s ss =>
      simp only [writeOp, Bool.false_eq_true, if_false, List.nil_append, join_cons]
      exact hname s _ (h3 s (by simp))

/-- C102. The same for a command that stands as an argument without braces, written in the form of C51: the message puts
the braces round it. -/
theorem input_advice_without_braces {k : Env} (L : Laws k) {n : Nat} {T : Str} {o : Op} {out : Option Str} {ts : List Term}
    (hT : IsName k.cls T) (hg : GoodB k (.mk none o out ts)) (hn : depthB (.mk none o out ts) ≤ n) {rest : Str}
    (hr : rest = [] ∨ ∃ z, rest = ' ' :: z) :
    term k (arg k (blockN k n)) (inputAdvice T (writeB (.mk none o out ts)) ++ rest) =
      .ok rest (.arg (.expr (.mk [.mk (some T) o out ts] none))) := by
  have hg' : GoodT k (.arg (.expr (.mk [.mk (some T) o out ts] none))) := ⟨by simp, ⟨⟨hT, hg.2⟩, trivial⟩, trivial⟩
  have h := roundT L _ hg' n (by simpa [depthT, depthA, depthE, depthBs, depthB] using hn) rest hr
  have e : inputAdvice T (writeB (.mk none o out ts)) = '{' :: writeB (.mk (some T) o out ts) ++ [' ', '}'] := by
    obtain ⟨c, cs, e, _⟩ := IsOp.head L hg.2.1
    unfold inputAdvice
    split
    · rename_i s hs
      exfalso
      apply op_no_brace L hg.2.1
      simp only [writeB, List.nil_append, e, List.cons_append, List.cons.injEq] at hs
      rw [e, hs.1]
      rfl
    · simp [writeB]
  have e2 : ∀ s : Str, (skip isMulti (' ' :: s)) = skip isMulti s := skip_space
  rw [e]
  have e3 : writeT (.arg (.expr (.mk [.mk (some T) o out ts] none))) ++ rest =
      '{' :: ' ' :: (writeB (.mk (some T) o out ts) ++ [' ', '}'] ++ rest) := by
    simp [writeT, writeA, writeE, writeBs, writeTy]
  rw [e3] at h
  rw [← h]
  simp only [term, List.isPrefixOf, List.cons_append, List.append_assoc, arg_brace, e2, ws, cut]
  rfl

/-- C102. A command's output: the type goes behind the operator, and what followed it follows.
Partial: what follows starts with a blank, as in `op:<type> ...`. -/
theorem output_advice_partial {k : Env} (L : Laws k) {n : Nat} {T rest i : Str} {o : Op} {ts : List Term} {blk : Str}
    (hT : IsName k.cls T) (ho : IsOp k.cls o) (hd : o ≠ .single ['.']) (hr : rest = [] ∨ ∃ z, rest = ' ' :: z)
    (h : blockN k (n + 1) (writeOp o ++ rest) = .ok i (.mk none o none ts)) :
    blockN k (n + 1) (outputAdvice T (writeOp o) blk ++ rest) = .ok i (.mk none o (some T) ts) := by
  have hdot : writeOp o ≠ ['.'] := by
    cases o with
    | single t => intro e; exact hd (by rw [show t = ['.'] from e])
    | path rooted cs =>
      obtain ⟨rfl, h2, h3⟩ := ho
      match cs, h2, h3 with
      | s :: t :: cs, _, h3 =>
        obtain ⟨c, z, e, hc⟩ := (h3 s (by simp)).head
        intro e'
        simp only [writeOp, Bool.false_eq_true, if_false, List.nil_append, join_cons, e, List.cons_append, List.cons.injEq] at e'
        rw [e'.1, L.alpha_off (by simp)] at hc
        cases hc
  obtain ⟨c, cs, e, e1, e2, e3⟩ := IsOp.head L ho
  have hf : OpFol rest := by
    intro d ds hd
    rcases hr with rfl | ⟨z, rfl⟩
    · cases hd
    · simp only [List.cons.injEq] at hd; exact Or.inl hd.1.symm
  have hf' : OpFol (':' :: T ++ rest) := by
    intro d ds hd
    simp only [List.cons_append, List.cons.injEq] at hd
    refine Or.inr ⟨hd.1.symm, ?_⟩
    obtain ⟨⟨x, xs, rfl, hx⟩, _⟩ := hT
    rw [← hd.2]
    simp only [List.cons_append, List.head?_cons, ne_eq, Option.some.injEq]
    intro ex
    rw [ex, L.alpha_off (by simp)] at hx
    cases hx
  have hoff : Off k.cls.ident rest ∧ rest.head? ≠ some ':' := by
    rcases hr with rfl | ⟨z, rfl⟩
    · exact ⟨(by intro c hc; cases hc), by simp⟩
    · refine ⟨?_, by simp⟩
      intro c hc
      simp only [List.head?_cons, Option.some.injEq] at hc
      subst hc
      exact L.ident_off (by simp)
  have hin : ∀ r, optTy k (writeOp o ++ r) = .ok (writeOp o ++ r) none := by
    intro r
    rw [e]
    simp [optTy, opt, chr, PR.bind, e3]
  have hsk : ∀ r, skip isMulti (writeOp o ++ r) = writeOp o ++ r := by
    intro r
    rw [e, List.cons_append, skip_cons e1]
  have hty := optTy_app L (t := some T) hT hoff.1 hoff.2
  have hty0 := optTy_app L (t := none) trivial hoff.1 hoff.2
  simp only [writeTy, List.nil_append] at hty hty0
  rw [outputAdvice, if_neg hdot]
  simp only [List.append_assoc]
  simp only [blockN, block, hin, PR.bind, hsk, op_app L ho hf, op_app L ho hf', hty, hty0] at h ⊢
  generalize many0 (ws (term k (arg k (blockN k n)))) rest = w at h ⊢
  cases w with
  | err => simp [PR.map] at h
  | fail => simp [PR.map] at h
  | ok r ts' =>
    simp only [PR.map, PR.ok.injEq, Blk.mk.injEq] at h ⊢
    obtain ⟨rfl, _, _, _, rfl⟩ := h
    simp

/-- C102. For a dot, the type goes behind what is after the dot. -/
theorem output_advice_dot {k : Env} (L : Laws k) {n : Nat} {T rest rhs : Str} {lhs : Arg} (hT : IsName k.cls T)
    (hg : GoodA k (.dot lhs rhs none)) (hn : depthA (.dot lhs rhs none) ≤ n) (hr : rest = [] ∨ ∃ z, rest = ' ' :: z) :
    term k (arg k (blockN k n)) (outputAdvice T ['.'] (writeA (.dot lhs rhs none)) ++ rest) =
      .ok rest (.arg (.dot lhs rhs (some T))) := by
  have hg' : GoodT k (.arg (.dot lhs rhs (some T))) := ⟨hg.1, hg.2.1, hg.2.2.1, hg.2.2.2.1, hT⟩
  have h := roundT L _ hg' n (by simpa [depthT, depthA] using hn) rest hr
  simpa [writeT, writeA, writeTy, outputAdvice] using h

/-- **The code violates C102**: the advice for `$x.y`, which is an expression as well, cannot be read: in braces a
command is expected. -/
theorem input_advice_for_a_dot :
    (expression plain "ls $x.y".toList).isOk = true ∧
    inputAdvice "Num".toList "$x.y".toList = "{:Num $x.y }".toList ∧
    (expression plain ("ls ".toList ++ inputAdvice "Num".toList "$x.y".toList)).isOk = false := by decide +kernel

-- the hypotheses can be met
example : IsName plain.cls "Num".toList ∧ Laws plain ∧
    arg plain (blockN plain 3) "{ foo 3 | bar }:Bool x".toList = .ok " x".toList (.expr (.mk (.mk none (.single "foo".toList) none
      [.arg (.num "3".toList)] :: [.mk none (.single "bar".toList) none []]) (some "Bool".toList))) ∧
    inputAdvice "Num".toList "{ foo 3 | bar }".toList = "{:Num  foo 3 | bar }".toList := by
  refine ⟨plain_name (by decide), plain_laws, ?_, by decide +kernel⟩
  have h : (match arg plain (blockN plain 3) "{ foo 3 | bar }:Bool x".toList with
      | .ok r a => decide (r = " x".toList) && eqA a (.expr (.mk (.mk none (.single "foo".toList) none
        [.arg (.num "3".toList)] :: [.mk none (.single "bar".toList) none []]) (some "Bool".toList)))
      | _ => false) = true := by decide +kernel
  split at h
  · rename_i r a e
    simp only [Bool.and_eq_true, decide_eq_true_eq] at h
    rw [e, h.1, eqA_eq _ _ h.2]
  · cases h

example : GoodB plain (.mk none (.single "eq".toList) none [.arg (.num "3".toList)]) ∧
    inputAdvice "Num".toList (writeB (.mk none (.single "eq".toList) none [.arg (.num "3".toList)])) =
      "{:Num eq 3 }".toList ∧ outputAdvice "Num".toList "eq".toList "eq 3".toList = "eq:Num".toList := by
  refine ⟨⟨trivial, Or.inr ⟨["eq".toList], by simp, by simpa using plain_name (by decide), by simp [join]⟩, trivial,
    ⟨by decide, by decide⟩, trivial⟩, by decide +kernel, by decide +kernel⟩

example : GoodA plain (.dot (.var "x".toList) "y".toList none) ∧
    outputAdvice "Num".toList ['.'] (writeA (.dot (.var "x".toList) "y".toList none)) = "$x.\"y\":Num".toList := by
  exact ⟨⟨plain_name (by decide), by simp, by simp, by unfold Quotable; decide, trivial⟩, by decide +kernel⟩

end Verif.Advice
