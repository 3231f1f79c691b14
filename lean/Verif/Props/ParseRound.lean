import Verif.Lemmas.ParseExt
/-! Expressions in canonical form are read back as they were written. -/
namespace Verif.Parse
open Verif.Nom Verif.File
set_option linter.unusedSectionVars false

/-- What follows a term: nothing or a space. -/
def SFol (R : Str) : Prop := R = [] ∨ ∃ z, R = ' ' :: z

/-- What follows an argument: also a dot, unless it is a number or a bare word. -/
def AFol (a : Arg) (X : Str) : Prop :=
  X = [] ∨ (∃ z, X = ' ' :: z) ∨
    ((∃ z, X = '.' :: z) ∧ (∀ s, a ≠ .num s) ∧ ∀ s, a = .ident s → Quotable s)

/-- What follows a block: after white space, the end, a pipe or a closing brace. -/
def BFol (R : Str) : Prop :=
  SFol R ∧ (skip isMulti R = [] ∨ (∃ z, skip isMulti R = '|' :: z) ∨ ∃ z, skip isMulti R = '}' :: z)

/-- What follows an expression: after white space, the end or a closing brace. -/
def EFol (R : Str) : Prop := SFol R ∧ (skip isMulti R = [] ∨ ∃ z, skip isMulti R = '}' :: z)

def RoundB (k : Env) (n : Nat) (b : Blk) : Prop :=
  ∀ R, BFol R → ∃ r1, blockN k n (writeB b ++ R) = .ok r1 b ∧ skip isMulti r1 = skip isMulti R

def RoundT (k : Env) (n : Nat) (t : Term) : Prop :=
  ∀ R, SFol R → term k (arg k (blockN k n)) (writeT t ++ R) = .ok R t

def RoundA (k : Env) (n : Nat) (a : Arg) : Prop :=
  ∀ X, AFol a X → ∃ m, X.length ≤ m ∧
    ((arg k (blockN k n) (writeA a ++ X)).bind fun i a => infixLoop k i.length i a) = infixLoop k m X a

mutual
/-- How deep blocks are nested. -/
def depthBs : List Blk → Nat
  | [] => 0
  | b :: bs => max (depthB b) (depthBs bs)
def depthB : Blk → Nat
  | .mk _ _ _ ts => depthTs ts + 1
def depthTs : List Term → Nat
  | [] => 0
  | t :: ts => max (depthT t) (depthTs ts)
def depthT : Term → Nat
  | .flag _ => 0
  | .arg a => depthA a
def depthA : Arg → Nat
  | .ident _ => 0
  | .num _ => 0
  | .pound _ => 0
  | .var _ => 0
  | .expr e => depthE e
  | .dot lhs _ _ => depthA lhs
def depthE : Expr → Nat
  | .mk bs _ => depthBs bs
end

section
variable {k : Env} (L : Laws k)
include L

theorem IsOp.head {o : Op} (h : IsOp k.cls o) :
    ∃ c cs, writeOp o = c :: cs ∧ isMulti c = false ∧ c ≠ '}' ∧ c ≠ ':' := by
  have hal : ∀ c, k.cls.alpha c = true → isMulti c = false ∧ c ≠ '}' ∧ c ≠ ':' := by
    intro c hc
    have key : ∀ d ∈ [' ', '\t', '\r', '\n', '}', ':'], c ≠ d := by
      intro d hd e
      subst e
      rw [L.alpha_off (by simp only [List.mem_cons, List.not_mem_nil, or_false] at hd ⊢; grind)] at hc
      cases hc
    simp only [List.mem_cons, List.not_mem_nil, or_false, forall_eq_or_imp, forall_eq] at key
    obtain ⟨a, b, c, d, e, f⟩ := key
    simp [isMulti, a, b, c, d, e, f]
  cases o with
  | single t =>
    rcases h with h | h
    · simp only [specOps, List.mem_cons, List.not_mem_nil, or_false] at h
      rcases h with rfl | rfl | rfl | rfl | rfl | rfl | rfl | rfl | rfl | rfl | rfl | rfl | rfl | rfl <;>
        exact ⟨_, _, rfl, by decide, by decide, by decide⟩
    · obtain ⟨c, cs, e, hc⟩ := h.head
      exact ⟨c, cs, e, hal c hc⟩
  | path rooted cs =>
    obtain ⟨rfl, h2, h3⟩ := h
    cases cs with
    | nil => simp at h2
    | cons s ss =>
      obtain ⟨c, cs, e, hc⟩ := (h3 s (by simp)).head
      refine ⟨c, cs ++ ss.flatMap (['/'] ++ ·), ?_, hal c hc⟩
      simp only [writeOp, Bool.false_eq_true, if_false, List.nil_append]
      rw [join_cons, e]
      rfl

theorem writeB_head {b : Blk} (h : GoodB k b) : ∃ c cs, writeB b = c :: cs ∧ isMulti c = false ∧ c ≠ '}' := by
  cases b with
  | mk inTy o outTy ts =>
    obtain ⟨h1, h2, h3, h4⟩ := h
    cases inTy with
    | none =>
      obtain ⟨c, cs, e, h5, h6, _⟩ := IsOp.head L h2
      simp only [writeB, List.nil_append, e, List.cons_append]
      exact ⟨_, _, rfl, h5, h6⟩
    | some t => exact ⟨':', _, rfl, by decide, by decide⟩

theorem multi_break {c : Char} (h : breakon c = false) : isMulti c = false := by
  cases h2 : isMulti c with
  | false => rfl
  | true =>
    simp only [isMulti, Bool.or_eq_true, beq_iff_eq] at h2
    rcases h2 with ((rfl | rfl) | rfl) | rfl <;> exact absurd h (by decide)

theorem writeA_head {a : Arg} (h : GoodA k a) :
    ∃ c cs, writeA a = c :: cs ∧ isMulti c = false ∧ ¬ ['-', '-'] <+: writeA a := by
  cases a with
  | ident s =>
    simp only [writeA, writeWord]
    split
    · rename_i hb
      obtain ⟨⟨h1, h2, _, _⟩, _, _, h3, _⟩ := h.resolve_left (fun h => h hb)
      cases s with
      | nil => exact absurd rfl h1
      | cons c cs => exact ⟨c, cs, rfl, multi_break L (h2 c (by simp)), h3⟩
    · obtain ⟨q, r, e, rfl | rfl⟩ := quote_head s <;> simp only [e] <;>
        exact ⟨_, _, rfl, by decide, by simp⟩
  | num s =>
    obtain ⟨h1, h2, h3, h4, h5, h6⟩ := h
    cases s with
    | nil => exact absurd rfl h2
    | cons c cs => exact ⟨c, cs, rfl, multi_break L (h3 c (by simp)), h6⟩
  | pound c => exact ⟨_, _, rfl, by decide, by simp [writeA]⟩
  | var s => exact ⟨_, _, rfl, by decide, by simp [writeA]⟩
  | expr e => exact ⟨_, _, rfl, by decide, by simp [writeA]⟩
  | dot lhs rhs out =>
    obtain ⟨h1, h2, h3, _, _⟩ := h
    obtain ⟨c, cs, e, h4, h5⟩ := writeA_head h1
    refine ⟨c, cs ++ '.' :: quote rhs ++ writeTy out, by simp [writeA, e], h4, ?_⟩
    simp only [writeA]
    intro h6
    cases lhs with
    | num s => exact h2 s rfl
    | ident s =>
      have hb : ¬ ('"' ∈ s ∧ '\'' ∈ s) := h3 s rfl
      simp only [writeA, writeWord, if_neg hb] at h6
      obtain ⟨q, r, e, rfl | rfl⟩ := quote_head s <;> simp [e] at h6
    | pound c => simp [writeA] at h6
    | var c => simp [writeA] at h6
    | expr c => simp [writeA] at h6
    | dot l r o =>
      simp only [e] at h5 h6
      cases cs with
      | nil => simp at h6
      | cons d ds =>
        apply h5
        obtain ⟨z, hz⟩ := h6
        simp only [List.cons_append, List.nil_append, List.cons.injEq] at hz
        refine ⟨ds, ?_⟩
        rw [← hz.1, ← hz.2.1]
        rfl

theorem writeT_head {t : Term} (h : GoodT k t) : ∃ c cs, writeT t = c :: cs ∧ isMulti c = false := by
  cases t with
  | flag s => exact ⟨_, _, rfl, by decide⟩
  | arg a =>
    obtain ⟨c, cs, e, h1, _⟩ := writeA_head L h
    exact ⟨c, cs, e, h1⟩

theorem skip_head {s r : Str} (h : ∃ c cs, s = c :: cs ∧ isMulti c = false) : skip isMulti (s ++ r) = s ++ r := by
  obtain ⟨c, cs, rfl, h⟩ := h
  exact skip_cons h

/-- No term starts at the end, a pipe or a closing brace. -/
theorem term_stops (b : Parser Blk) {r : Str} (h : r = [] ∨ (∃ z, r = '|' :: z) ∨ ∃ z, r = '}' :: z) :
    term k (arg k b) r = .err := by
  rcases h with rfl | ⟨z, rfl⟩ | ⟨z, rfl⟩
  · simp [term, arg, breakonS, num, takeTill1, takeWhile1, PR.bind, knownOp, op_nil, ident, PR.map]
  · simp [term, arg, breakonS, breakon, PR.bind, PR.map]
  · simp [term, arg, breakonS, breakon, PR.bind, PR.map]

/-- The terms of a block. -/
theorem terms_round {n : Nat} {ts : List Term} (hg : ∀ t ∈ ts, GoodT k t) (hr : ∀ t ∈ ts, RoundT k n t) {R : Str}
    (hR : BFol R) (m : Nat) (hm : ts.length < m) (i : Str)
    (hi : skip isMulti i = skip isMulti (writeTs ts ++ R)) (acc : List Term) :
    ∃ r1, manyLoop (ws (term k (arg k (blockN k n)))) m i acc = .ok r1 (acc ++ ts) ∧
      skip isMulti r1 = skip isMulti R := by
  induction ts generalizing m i acc with
  | nil =>
    cases m with
    | zero => omega
    | succ m =>
      refine ⟨i, ?_, by simpa [writeTs] using hi⟩
      have h1 := term_stops L (blockN k n) hR.2
      have : ws (term k (arg k (blockN k n))) i = .err := by
        simp only [ws, hi, writeTs, List.nil_append, h1, PR.bind]
      simp [manyLoop, this]
  | cons t ts ih =>
    cases m with
    | zero => omega
    | succ m =>
      have hf : SFol (writeTs ts ++ R) := by
        cases ts with
        | nil => simpa [writeTs] using hR.1
        | cons u us => exact Or.inr ⟨_, rfl⟩
      have h1 := hr t (by simp) _ hf
      have h2 : skip isMulti i = writeT t ++ (writeTs ts ++ R) := by
        rw [hi]
        simp only [writeTs, List.cons_append, List.append_assoc]
        rw [skip_space]
        exact skip_head L (writeT_head L (hg t (by simp)))
      have h3 : ws (term k (arg k (blockN k n))) i = .ok (skip isMulti (writeTs ts ++ R)) t := by
        simp only [ws, h2, h1, PR.bind]
      have h4 : (skip isMulti (writeTs ts ++ R)).length ≠ i.length := by
        have a1 := skip_length isMulti i
        have a2 := skip_length isMulti (writeTs ts ++ R)
        rw [h2] at a1
        obtain ⟨c, cs, e, _⟩ := writeT_head L (hg t (by simp))
        rw [e] at a1
        simp only [List.length_append, List.length_cons] at a1 a2
        omega
      obtain ⟨r1, h5, h6⟩ := ih (fun t ht => hg t (by simp [ht])) (fun t ht => hr t (by simp [ht])) m
        (by simpa using hm) (skip isMulti (writeTs ts ++ R)) (skip_skip _ _) (acc ++ [t])
      refine ⟨r1, ?_, h6⟩
      simp only [manyLoop, h3, if_neg h4]
      rw [h5]
      simp

theorem writeTs_length {ts : List Term} : ts.length ≤ (writeTs ts).length := by
  induction ts with
  | nil => simp
  | cons t ts ih => simp only [writeTs, List.length_append, List.length_cons]; omega

theorem sfol_off {R : Str} (h : SFol R) : Off k.cls.ident R ∧ R.head? ≠ some ':' ∧ OpFol R := by
  rcases h with rfl | ⟨z, rfl⟩
  · simp [Off, OpFol]
  · refine ⟨?_, by simp, ?_⟩
    · intro c hc
      simp at hc
      subst hc
      exact L.ident_off (by simp)
    · intro c cs e
      cases e
      exact Or.inl rfl

theorem IsName.notColon {s : Str} (h : IsName k.cls s) (r : Str) : (s ++ r).head? ≠ some ':' := by
  obtain ⟨⟨c, cs, rfl, hc⟩, _⟩ := h
  simp only [List.cons_append, List.head?_cons]
  intro e
  cases e
  rw [L.alpha_off (by simp)] at hc
  cases hc

/-- A block. -/
theorem block_round {n : Nat} {inTy : Option Str} {o : Op} {outTy : Option Str} {ts : List Term}
    (hg : GoodB k (.mk inTy o outTy ts)) (hgt : ∀ t ∈ ts, GoodT k t) (hr : ∀ t ∈ ts, RoundT k n t) :
    RoundB k (n + 1) (.mk inTy o outTy ts) := by
  obtain ⟨g1, g2, g3, g4⟩ := hg
  intro R hR
  have hf : SFol (writeTs ts ++ R) := by
    cases ts with
    | nil => simpa [writeTs] using hR.1
    | cons u us => exact Or.inr ⟨_, rfl⟩
  obtain ⟨f1, f2, f3⟩ := sfol_off L hf
  have e1 : optTy k (writeTy outTy ++ (writeTs ts ++ R)) = .ok (writeTs ts ++ R) outTy := optTy_app L g3 f1 f2
  have hof : OpFol (writeTy outTy ++ (writeTs ts ++ R)) := by
    cases outTy with
    | none => simpa [writeTy] using f3
    | some t =>
      intro c cs e
      simp only [writeTy, List.cons_append, List.cons.injEq] at e
      refine Or.inr ⟨e.1.symm, ?_⟩
      rw [← e.2]
      exact IsName.notColon L g3 _
  have e2 : op k (writeOp o ++ (writeTy outTy ++ (writeTs ts ++ R))) =
      .ok (writeTy outTy ++ (writeTs ts ++ R)) o := op_app L g2 hof
  obtain ⟨c, cs, e3, e4, e5, e5'⟩ := IsOp.head L g2
  have e6 : skip isMulti (writeOp o ++ (writeTy outTy ++ (writeTs ts ++ R))) =
      writeOp o ++ (writeTy outTy ++ (writeTs ts ++ R)) := skip_head L ⟨c, cs, e3, e4⟩
  obtain ⟨r1, e7, e8⟩ := terms_round L hgt hr hR ((writeTs ts ++ R).length + 1)
    (by have := writeTs_length L (ts := ts); rw [List.length_append]; omega) (writeTs ts ++ R) rfl []
  refine ⟨r1, ?_, e8⟩
  have e9 : ∃ j, optTy k (writeB (.mk inTy o outTy ts) ++ R) = .ok j inTy ∧
      skip isMulti j = writeOp o ++ (writeTy outTy ++ (writeTs ts ++ R)) := by
    cases inTy with
    | none =>
      refine ⟨_, ?_, e6⟩
      have hc : c ≠ ':' := e5'
      have := optTy_app (k := k) L (t := none) trivial
        (r := writeOp o ++ (writeTy outTy ++ (writeTs ts ++ R)))
      simp only [writeB, List.nil_append, List.append_assoc, e3, List.cons_append]
      simp [optTy, opt, chr, hc, PR.bind]
    | some t =>
      refine ⟨' ' :: (writeOp o ++ (writeTy outTy ++ (writeTs ts ++ R))), ?_, by rw [skip_space]; exact e6⟩
      have : optTy k (writeTy (some t) ++ (' ' :: (writeOp o ++ (writeTy outTy ++ (writeTs ts ++ R))))) = _ :=
        optTy_app L (t := some t) g1 (by
          intro c hc
          simp at hc
          subst hc
          exact L.ident_off (by simp)) (by simp)
      simpa [writeTy, writeB] using this
  obtain ⟨j, e10, e11⟩ := e9
  simp only [blockN, block, e10, PR.bind, e11, e2, e1, many0, e7, PR.map]
  simp

/-- The blocks after pipes. -/
theorem pipes_round {n : Nat} {bs : List Blk} (hg : ∀ b ∈ bs, GoodB k b) (hr : ∀ b ∈ bs, RoundB k n b) {R : Str}
    (hR : EFol R) (m : Nat) (hm : bs.length ≤ m) (acc : List Blk) :
    pipes (ws (blockN k n)) m (skip isMulti (bs.flatMap (fun b => [' ', '|', ' '] ++ writeB b) ++ R)) acc =
      .ok (skip isMulti R) (acc ++ bs) := by
  induction bs generalizing m acc with
  | nil =>
    simp only [List.flatMap_nil, List.nil_append, List.append_nil]
    cases m with
    | zero => rfl
    | succ m =>
      rcases hR.2 with h | ⟨z, h⟩ <;> rw [h] <;> rfl
  | cons b bs ih =>
    cases m with
    | zero => simp at hm
    | succ m =>
      have e1 : skip isMulti ((b :: bs).flatMap (fun b => [' ', '|', ' '] ++ writeB b) ++ R) =
          '|' :: ' ' :: (writeB b ++ (bs.flatMap (fun b => [' ', '|', ' '] ++ writeB b) ++ R)) := by
        simp only [List.flatMap_cons, List.cons_append, List.nil_append, List.append_assoc]
        rw [skip_space]
        exact skip_cons (by decide)
      have hf : BFol (bs.flatMap (fun b => [' ', '|', ' '] ++ writeB b) ++ R) := by
        cases bs with
        | nil =>
          simp only [List.flatMap_nil, List.nil_append]
          exact ⟨hR.1, hR.2.elim Or.inl (fun h => Or.inr (Or.inr h))⟩
        | cons u us =>
          refine ⟨Or.inr ⟨_, rfl⟩, Or.inr (Or.inl ?_)⟩
          simp only [List.flatMap_cons, List.cons_append, List.nil_append, List.append_assoc]
          rw [skip_space]
          exact ⟨_, skip_cons (by decide)⟩
      obtain ⟨r1, e2, e3⟩ := hr b (by simp) _ hf
      obtain ⟨c, cs, e4, e5, _⟩ := writeB_head L (hg b (by simp))
      have e6 : ws (blockN k n) (' ' :: (writeB b ++ (bs.flatMap (fun b => [' ', '|', ' '] ++ writeB b) ++ R))) =
          .ok (skip isMulti (bs.flatMap (fun b => [' ', '|', ' '] ++ writeB b) ++ R)) b := by
        simp only [ws]
        rw [skip_space, skip_head L ⟨c, cs, e4, e5⟩]
        simp only [e2, PR.bind, e3]
      rw [e1]
      simp only [pipes, e6, PR.bind]
      rw [ih (fun b hb => hg b (by simp [hb])) (fun b hb => hr b (by simp [hb])) m (by simpa using hm)]
      simp

omit L in
theorem writeBs_cons (b : Blk) (bs : List Blk) :
    writeBs (b :: bs) = writeB b ++ bs.flatMap (fun b => [' ', '|', ' '] ++ writeB b) := by
  induction bs generalizing b with
  | nil => simp [writeBs]
  | cons c cs ih => simp [writeBs, ih]

/-- No block starts at the end or a closing brace. -/
theorem block_stops (n : Nat) {r : Str} (h : r = [] ∨ ∃ z, r = '}' :: z) : ws (blockN k n) r = .err := by
  cases n with
  | zero => simp [ws, blockN, PR.bind]
  | succ n =>
    rcases h with rfl | ⟨z, rfl⟩
    · simp [ws, skip, blockN, block, optTy, opt, chr, PR.bind, op_nil]
    · have : op k ('}' :: z) = .err := op_none L (by simp) z
      simp [ws, skip, isMulti, blockN, block, optTy, opt, chr, PR.bind, this]

/-- An expression. -/
theorem expr_round {n : Nat} {bs : List Blk} (hne : bs ≠ []) (hg : ∀ b ∈ bs, GoodB k b)
    (hr : ∀ b ∈ bs, RoundB k n b) {R : Str} (hR : EFol R) :
    expr (blockN k n) (writeBs bs ++ R) = .ok (skip isMulti R) (.mk bs none) := by
  cases bs with
  | nil => exact absurd rfl hne
  | cons b bs =>
    have hf : BFol (bs.flatMap (fun b => [' ', '|', ' '] ++ writeB b) ++ R) := by
      cases bs with
      | nil =>
        simp only [List.flatMap_nil, List.nil_append]
        exact ⟨hR.1, hR.2.elim Or.inl (fun h => Or.inr (Or.inr h))⟩
      | cons u us =>
        refine ⟨Or.inr ⟨_, rfl⟩, Or.inr (Or.inl ?_)⟩
        simp only [List.flatMap_cons, List.cons_append, List.nil_append, List.append_assoc]
        rw [skip_space]
        exact ⟨_, skip_cons (by decide)⟩
    obtain ⟨r1, e2, e3⟩ := hr b (by simp) _ hf
    obtain ⟨c, cs, e4, e5, _⟩ := writeB_head L (hg b (by simp))
    have e6 : ws (blockN k n) (writeBs (b :: bs) ++ R) =
        .ok (skip isMulti (bs.flatMap (fun b => [' ', '|', ' '] ++ writeB b) ++ R)) b := by
      simp only [ws]
      rw [writeBs_cons, List.append_assoc, skip_head L ⟨c, cs, e4, e5⟩]
      simp only [e2, PR.bind, e3]
    have hlen : bs.length ≤ (skip isMulti (bs.flatMap (fun b => [' ', '|', ' '] ++ writeB b) ++ R)).length := by
      cases bs with
      | nil => simp
      | cons u us =>
        simp only [List.flatMap_cons, List.cons_append, List.nil_append, List.append_assoc]
        rw [skip_space, skip_cons (by decide)]
        have : ∀ us : List Blk, us.length ≤ (us.flatMap (fun b => ' ' :: '|' :: ' ' :: writeB b)).length := by
          intro us
          induction us with
          | nil => simp
          | cons u us ih => simp only [List.flatMap_cons, List.length_append, List.length_cons]; omega
        have := this us
        simp only [List.length_cons, List.length_append]
        omega
    have e7 := pipes_round L (fun b hb => hg b (by simp [hb])) (fun b hb => hr b (by simp [hb])) hR _ hlen [b]
    have e8 := block_stops L n hR.2
    simp only [expr, e6, PR.bind, e7, e8]
    simp

theorem infix_stops {X : Str} (h : SFol X) (m : Nat) (a : Arg) : infixLoop k m X a = .ok X a := by
  cases m with
  | zero => rfl
  | succ m => rcases h with rfl | ⟨z, rfl⟩ <;> rfl

theorem afol_off {a : Arg} {X : Str} (h : AFol a X) : Off k.cls.ident X ∧ X.head? ≠ some ':' := by
  rcases h with rfl | ⟨z, rfl⟩ | ⟨⟨z, rfl⟩, _⟩
  · simp [Off]
  · exact ⟨by intro c hc; simp at hc; subst hc; exact L.ident_off (by simp), by simp⟩
  · exact ⟨by intro c hc; simp at hc; subst hc; exact L.ident_off (by simp), by simp⟩

/-- One dot. -/
theorem infix_step {lhs : Arg} {rhs : Str} {out : Option Str} (h1 : Quotable rhs) (h2 : IsTy k.cls out) {X : Str}
    (hX : Off k.cls.ident X ∧ X.head? ≠ some ':') (m : Nat) :
    infixLoop k (m + 1) ('.' :: quote rhs ++ writeTy out ++ X) lhs = infixLoop k m X (.dot lhs rhs out) := by
  have e1 : infixRhs k (quote rhs ++ (writeTy out ++ X)) = .ok (writeTy out ++ X) rhs := rhs_app h1 _
  have e2 : optTy k (writeTy out ++ X) = .ok X out := optTy_app L h2 hX.1 hX.2
  simp only [infixLoop, List.cons_append, List.append_assoc, cut, e1, PR.bind, e2]

theorem base_round {a : Arg} {n : Nat} {X : Str}
    (h : arg k (blockN k n) (writeA a ++ X) = .ok X a) : ∃ m, X.length ≤ m ∧
    ((arg k (blockN k n) (writeA a ++ X)).bind fun i a => infixLoop k i.length i a) = infixLoop k m X a :=
  ⟨X.length, Nat.le_refl _, by rw [h]; rfl⟩

theorem sfol_break {X : Str} (h : SFol X) : Off (fun c => !breakon c) X := by
  rcases h with rfl | ⟨z, rfl⟩
  · simp [Off]
  · intro c hc; simp at hc; subst hc; decide

theorem ident_round {s : Str} (h : IsArgWord k s) (n : Nat) : RoundA k n (.ident s) := by
  intro X hX
  apply base_round L
  by_cases hb : '"' ∈ s ∧ '\'' ∈ s
  · obtain ⟨hw, c1, c2, _, hn, hk⟩ := h.resolve_left (fun h => h hb)
    have hoff : Off (fun c => !breakon c) X := by
      rcases hX with h | h | ⟨_, _, h⟩
      · exact sfol_break L (Or.inl h)
      · exact sfol_break L (Or.inr h)
      · exact absurd hb (h s rfl)
    have h1 := word_app (Or.inr hw) (r := X) (Or.inr hoff)
    have hko : knownOp k (s ++ X) = false := by rw [knownOp_local L X hb.1, hk]
    have hnum : num k (s ++ X) = .err := by
      have e1 : takeTill1 breakon (s ++ X) = .ok X s :=
        takeWhile1_app (fun c hc => by simp [hw.2.1 c hc]) hw.1 hoff
      simp [num, e1, PR.bind, hn]
    simp only [writeA, writeWord, if_pos hb] at h1 ⊢
    cases s with
    | nil => exact absurd rfl hw.1
    | cons c cs =>
      have hbr := hw.2.1 c (by simp)
      have c3 : c ≠ '{' := by intro e; subst e; exact absurd hbr (by decide)
      have c4 : c ≠ ':' := by intro e; subst e; exact absurd hbr (by decide)
      simp only [List.cons_append] at h1 hko hnum ⊢
      unfold arg
      split
      · rename_i e; cases e; exact absurd rfl c3
      · rename_i e; cases e; exact absurd rfl c4
      · rename_i e; cases e; simp at c1
      · rename_i e; cases e; simp at c2
      · simp [breakonS, hbr, hnum, hko, h1, PR.map]
  · have h1 := ident_app (s := s) hb X
    obtain ⟨q, r, e, hq⟩ := quote_head s
    have hop : op k (q :: (r ++ X)) = .err := op_none L (by rcases hq with rfl | rfl <;> simp) _
    have hko : knownOp k (q :: (r ++ X)) = false := by simp [knownOp, hop]
    have hnum : num k (q :: (r ++ X)) = .err := by
      have hb : breakon q = false := by rcases hq with rfl | rfl <;> decide
      simp only [num, takeTill1, takeWhile1, List.takeWhile_cons, hb, Bool.not_false, if_true,
        List.isEmpty_cons, Bool.false_eq_true, if_false, PR.bind, L.num q _ hq]
    simp only [writeA, writeWord, if_neg hb, e, List.cons_append] at h1 ⊢
    rcases hq with rfl | rfl <;>
      simp [arg, breakonS, show breakon '"' = false by decide, show breakon '\'' = false by decide, hnum, hko, h1,
        PR.map]

theorem num_round {s : Str} (h : IsNum k s) (n : Nat) : RoundA k n (.num s) := by
  intro X hX
  apply base_round L
  obtain ⟨h1, h2, h3, h4, h5, h6⟩ := h
  have hoff : Off (fun c => !breakon c) X := by
    rcases hX with rfl | ⟨z, rfl⟩ | ⟨_, h⟩
    · simp [Off]
    · intro c hc; simp at hc; subst hc; decide
    · exact absurd rfl (h.1 s)
  have e1 : takeTill1 breakon (s ++ X) = .ok X s :=
    takeWhile1_app (fun c hc => by simp [h3 c hc]) h2 hoff
  have e2 : num k (s ++ X) = .ok X s := by simp [num, e1, PR.bind, h1]
  cases s with
  | nil => exact absurd rfl h2
  | cons c cs =>
    have hb := h3 c (by simp)
    have c1 : c ≠ '$' := by simpa using h4
    have c2 : c ≠ '#' := by simpa using h5
    have c3 : c ≠ '{' := by intro e; subst e; exact absurd hb (by decide)
    have c4 : c ≠ ':' := by intro e; subst e; exact absurd hb (by decide)
    simp only [List.cons_append] at e2
    simp only [writeA, List.cons_append]
    unfold arg
    split
    · rename_i e; cases e; exact absurd rfl c3
    · rename_i e; cases e; exact absurd rfl c4
    · rename_i e; cases e; exact absurd rfl c1
    · rename_i e; cases e; exact absurd rfl c2
    · simp [breakonS, hb, e2]

theorem pound_round {c : Char} (h1 : k.cls.alpha c = true) (h2 : c.utf8Size = 1) (n : Nat) :
    RoundA k n (.pound c) := by
  intro X hX
  apply base_round L
  have hn : IsName k.cls [c] := ⟨⟨c, [], rfl, h1⟩, by simp [Classes.ident, L.alnum c h1]⟩
  have e1 := opIdent_app hn (afol_off L hX).1
  simp only [List.cons_append, List.nil_append] at e1
  simp [writeA, arg, cut, e1, PR.bind, h2]

theorem var_round {s : Str} (h : IsName k.cls s) (n : Nat) : RoundA k n (.var s) := by
  intro X hX
  apply base_round L
  have e1 := opIdent_app h (afol_off L hX).1
  simp [writeA, arg, e1, PR.map]

theorem braces_round {n : Nat} {bs : List Blk} {out : Option Str} (hne : bs ≠ []) (hg : ∀ b ∈ bs, GoodB k b)
    (hr : ∀ b ∈ bs, RoundB k n b) (ho : IsTy k.cls out) : RoundA k n (.expr (.mk bs out)) := by
  intro X hX
  apply base_round L
  obtain ⟨f1, f2⟩ := afol_off L hX
  have hR : EFol (' ' :: '}' :: (writeTy out ++ X)) := by
    refine ⟨Or.inr ⟨_, rfl⟩, Or.inr ?_⟩
    rw [skip_space]
    exact ⟨_, skip_cons (by decide)⟩
  have e0 : skip isMulti (' ' :: '}' :: (writeTy out ++ X)) = '}' :: (writeTy out ++ X) := by
    rw [skip_space]
    exact skip_cons (by decide)
  have e1 := expr_round L hne hg hr hR
  rw [e0] at e1
  have e2 : optTy k (writeTy out ++ X) = .ok X out := optTy_app L ho f1 f2
  have e3 : ∃ c cs, writeBs bs = c :: cs ∧ isMulti c = false ∧ c ≠ '}' := by
    cases bs with
    | nil => exact absurd rfl hne
    | cons b bs =>
      obtain ⟨c, cs, e, h1, h2⟩ := writeB_head L (hg b (by simp))
      rw [writeBs_cons, e]
      exact ⟨_, _, rfl, h1, h2⟩
  obtain ⟨c, cs, e4, e5, e6⟩ := e3
  have e7 : skip isMulti (' ' :: (writeBs bs ++ ' ' :: '}' :: (writeTy out ++ X))) =
      writeBs bs ++ ' ' :: '}' :: (writeTy out ++ X) := by
    rw [skip_space]
    exact skip_head L ⟨c, cs, e4, e5⟩
  have e8 : (writeBs bs ++ ' ' :: '}' :: (writeTy out ++ X)).head? ≠ some '}' := by
    rw [e4]
    simpa using e6
  have e9 : ws (expr (blockN k n)) (' ' :: (writeBs bs ++ ' ' :: '}' :: (writeTy out ++ X))) =
      .ok ('}' :: (writeTy out ++ X)) (.mk bs none) := by
    simp only [ws, e7, e1, PR.bind]
    rw [skip_cons (by decide)]
  simp only [writeA, writeE, List.cons_append, List.append_assoc, arg, e7, if_neg e8]
  simp only [cut, e9, PR.bind, chr, if_true, PR.map, e2, Expr.setOut]

mutual
theorem goodTs_mem : (ts : List Term) → GoodTs k ts → ∀ t ∈ ts, GoodT k t
  | [], _, t, ht => by cases ht
  | u :: us, h, t, ht => by
    rcases List.mem_cons.1 ht with rfl | ht
    · exact h.1
    · exact goodTs_mem us h.2 t ht
end

theorem goodBs_mem : (bs : List Blk) → GoodBs k bs → ∀ b ∈ bs, GoodB k b
  | [], _, t, ht => by cases ht
  | u :: us, h, t, ht => by
    rcases List.mem_cons.1 ht with rfl | ht
    · exact h.1
    · exact goodBs_mem us h.2 t ht

mutual
theorem roundBs : (bs : List Blk) → GoodBs k bs → ∀ n, depthBs bs ≤ n → ∀ b ∈ bs, RoundB k n b
  | [], _, _, _, b, hb => by cases hb
  | u :: us, hg, n, hn, b, hb => by
    simp only [depthBs] at hn
    rcases List.mem_cons.1 hb with e | hb
    · rw [e]
      exact roundB u hg.1 n (by omega)
    · exact roundBs us hg.2 n (by omega) b hb
theorem roundB : (b : Blk) → GoodB k b → ∀ n, depthB b ≤ n → RoundB k n b
  | .mk inTy o outTy ts, hg, n, hn => by
    simp only [depthB] at hn
    cases n with
    | zero => omega
    | succ n =>
      exact block_round L hg (goodTs_mem L ts hg.2.2.2) (roundTs ts hg.2.2.2 n (by omega))
theorem roundTs : (ts : List Term) → GoodTs k ts → ∀ n, depthTs ts ≤ n → ∀ t ∈ ts, RoundT k n t
  | [], _, _, _, b, hb => by cases hb
  | u :: us, hg, n, hn, b, hb => by
    simp only [depthTs] at hn
    rcases List.mem_cons.1 hb with e | hb
    · rw [e]
      exact roundT u hg.1 n (by omega)
    · exact roundTs us hg.2 n (by omega) b hb
theorem roundT : (t : Term) → GoodT k t → ∀ n, depthT t ≤ n → RoundT k n t
  | .flag s, hg, n, _ => by
    intro R hR
    have := flag_app hg (sfol_break L hR)
    simp only [List.cons_append] at this
    simp [term, writeT, List.isPrefixOf, this, PR.map]
  | .arg a, hg, n, hn => by
    intro R hR
    obtain ⟨m, hm, e⟩ := roundA a hg n hn R (hR.elim Or.inl (fun h => Or.inr (Or.inl h)))
    obtain ⟨c, cs, e1, _, e2⟩ := writeA_head L hg
    have e3 : ['-', '-'].isPrefixOf (writeA a ++ R) = false := by
      cases h : ['-', '-'].isPrefixOf (writeA a ++ R) with
      | false => rfl
      | true =>
        exfalso
        rw [List.isPrefixOf_iff_prefix] at h
        apply e2
        rw [e1] at h ⊢
        cases cs with
        | nil =>
          exfalso
          rcases hR with rfl | ⟨z, rfl⟩ <;> simp at h
        | cons d ds =>
          obtain ⟨z, hz⟩ := h
          simp only [List.cons_append, List.nil_append, List.cons.injEq] at hz
          exact ⟨ds, by rw [← hz.1, ← hz.2.1]; rfl⟩
    simp only [term, writeT, e3, Bool.false_eq_true, if_false, e, infix_stops L hR m a, PR.map]
theorem roundA : (a : Arg) → GoodA k a → ∀ n, depthA a ≤ n → RoundA k n a
  | .ident s, hg, n, _ => ident_round L hg n
  | .num s, hg, n, _ => num_round L hg n
  | .pound c, hg, n, _ => pound_round L hg.1 hg.2 n
  | .var s, hg, n, _ => var_round L hg n
  | .expr (.mk bs out), hg, n, hn =>
    braces_round L hg.1 (goodBs_mem L bs hg.2.1) (roundBs bs hg.2.1 n hn) hg.2.2
  | .dot lhs rhs out, hg, n, hn => by
    intro X hX
    obtain ⟨m, hm, e⟩ := roundA lhs hg.1 n hn ('.' :: quote rhs ++ writeTy out ++ X)
      (Or.inr (Or.inr ⟨⟨_, rfl⟩, hg.2.1, hg.2.2.1⟩))
    cases m with
    | zero => simp at hm
    | succ m =>
      refine ⟨m, ?_, ?_⟩
      · simp only [List.length_append, List.length_cons] at hm; omega
      · rw [infix_step L hg.2.2.2.1 hg.2.2.2.2 (afol_off L hX) m] at e
        simpa [writeA] using e
end

mutual
theorem depthBs_le : (bs : List Blk) → GoodBs k bs → depthBs bs ≤ (writeBs bs).length
  | [], _ => by simp [depthBs]
  | [b], h => by
    have := depthB_le b h.1
    simp only [depthBs, writeBs]
    omega
  | b :: c :: bs, h => by
    have h1 := depthB_le b h.1
    have h2 := depthBs_le (c :: bs) h.2
    rw [depthBs, writeBs]
    simp only [List.length_append, List.length_cons, List.length_nil]
    · omega
    · simp
theorem depthB_le : (b : Blk) → GoodB k b → depthB b ≤ (writeB b).length
  | .mk inTy o outTy ts, h => by
    have h1 := depthTs_le ts h.2.2.2
    obtain ⟨c, cs, e, _⟩ := IsOp.head L h.2.1
    simp only [depthB, writeB, List.length_append, e, List.length_cons]
    omega
theorem depthTs_le : (ts : List Term) → GoodTs k ts → depthTs ts ≤ (writeTs ts).length
  | [], _ => by simp [depthTs]
  | t :: ts, h => by
    have h1 := depthT_le t h.1
    have h2 := depthTs_le ts h.2
    simp only [depthTs, writeTs, List.length_append, List.length_cons]
    omega
theorem depthT_le : (t : Term) → GoodT k t → depthT t ≤ (writeT t).length
  | .flag _, _ => by simp [depthT]
  | .arg a, h => by
    have := depthA_le a h
    simpa only [depthT, writeT] using this
theorem depthA_le : (a : Arg) → GoodA k a → depthA a ≤ (writeA a).length
  | .ident _, _ => by simp [depthA]
  | .num _, _ => by simp [depthA]
  | .pound _, _ => by simp [depthA]
  | .var _, _ => by simp [depthA]
  | .expr (.mk bs out), h => by
    have := depthBs_le bs h.2.1
    simp only [depthA, depthE, writeA, writeE, List.length_append, List.length_cons]
    omega
  | .dot lhs rhs out, h => by
    have := depthA_le lhs h.1
    simp only [depthA, writeA, List.length_append]
    omega
end

/-- An expression in canonical form, nested to any depth, is read back as it was written. -/
theorem expression_round_trip (e : Expr) (hg : GoodE k e) :
    expression k (write e) = .ok [] (e.setOut none) := by
  cases e with
  | mk bs out =>
    obtain ⟨h1, h2, h3⟩ := hg
    have := depthBs_le L bs h2
    have e1 := expr_round L h1 (goodBs_mem L bs h2) (roundBs L bs h2 ((writeBs bs).length + 1) (by omega))
      (R := []) ⟨Or.inl rfl, Or.inl rfl⟩
    simp only [List.append_nil] at e1
    simp only [expression, write, noTrailing, e1, PR.bind]
    rfl

end

end Verif.Parse
