import Verif.Spec.Parse
import Verif.Lemmas.Nom
/-! The parsers for names, types, operators and words read what is written in canonical form. -/
namespace Verif.Parse
open Verif.Nom Verif.File

set_option linter.unusedSectionVars false

/-- The text does not go on with such a character. -/
def Off (p : Char → Bool) (r : Str) : Prop := ∀ c, r.head? = some c → p c = false

theorem skip_cons {c : Char} {i : Str} (h : isMulti c = false) : skip isMulti (c :: i) = c :: i := by
  simp [skip, h]

theorem skip_off {p : Char → Bool} {i : Str} (h : Off p i) : skip p i = i := by
  cases i with
  | nil => rfl
  | cons c i => simp [skip, h c rfl]

theorem skip_off' (p : Char → Bool) (i : Str) : Off p (skip p i) := by
  intro c hc
  unfold skip at hc
  induction i with
  | nil => simp at hc
  | cons d i ih =>
    rw [List.dropWhile_cons] at hc
    split at hc
    · exact ih hc
    · simp only [List.head?_cons, Option.some.injEq] at hc
      subst hc
      rename_i h
      simpa using h

theorem skip_skip (p : Char → Bool) (i : Str) : skip p (skip p i) = skip p i := skip_off (skip_off' p i)

theorem skip_space (i : Str) : skip isMulti (' ' :: i) = skip isMulti i := by simp [skip, isMulti]

theorem skip_length (p : Char → Bool) (i : Str) : (skip p i).length ≤ i.length := by
  unfold skip
  exact (List.dropWhile_suffix p).length_le

theorem takeWhile_app {p : Char → Bool} {s r : Str} (hs : ∀ c ∈ s, p c = true) (hr : Off p r) :
    (s ++ r).takeWhile p = s ∧ (s ++ r).dropWhile p = r := by
  induction s with
  | nil =>
    cases r with
    | nil => simp
    | cons c r => simp [hr c rfl]
  | cons c s ih =>
    have hc := hs c (by simp)
    have := ih (fun d hd => hs d (by simp [hd]))
    simp [hc, this]

theorem takeWhile1_app {p : Char → Bool} {s r : Str} (hs : ∀ c ∈ s, p c = true) (hne : s ≠ []) (hr : Off p r) :
    takeWhile1 p (s ++ r) = .ok r s := by
  obtain ⟨h1, h2⟩ := takeWhile_app hs hr
  unfold takeWhile1
  rw [h1, h2]
  simp [hne]

theorem opIdent_app {k : Classes} {s r : Str} (h : IsName k s) (hr : Off k.ident r) :
    opIdent k (s ++ r) = .ok r s := by
  obtain ⟨⟨c, cs, rfl, hc⟩, hall⟩ := h
  have := takeWhile1_app hall (by simp) hr
  simp only [List.cons_append] at this
  simp [opIdent, hc, this]

theorem opIdent_none {k : Classes} {r : Str} (hr : Off k.alpha r) : opIdent k r = .err := by
  cases r with
  | nil => rfl
  | cons c r => simp [opIdent, hr c rfl]

theorem join_cons (sep s : Str) (ss : List Str) : join sep (s :: ss) = s ++ ss.flatMap (sep ++ ·) := by
  induction ss generalizing s with
  | nil => simp [join]
  | cons t ts ih => simp [join, ih]

section
variable {k : Env} (L : Laws k)
include L

theorem Laws.ident_off {c : Char} (h : c ∈ [' ', '\t', '\r', '\n', '"', '\'', '.', ':', '/', '{', '}', '|', '(',
    ')', '<', '>', '$', '#', '\\', '+', '*', '×', '÷', '=', '!']) : k.cls.ident c = false := by
  have h1 := L.punct c (by
    simp only [List.mem_cons, List.not_mem_nil, or_false] at h ⊢
    grind)
  simp only [Classes.ident, h1, Bool.false_or, Bool.or_eq_false_iff, beq_eq_false_iff_ne]
  simp only [List.mem_cons, List.not_mem_nil, or_false] at h
  constructor <;> intro e <;> subst e <;> simp at h

theorem Laws.alpha_off {c : Char} (h : c ∈ [' ', '\t', '\r', '\n', '"', '\'', '.', ':', '/', '{', '}', '|', '(', ')',
    '<', '>', '$', '#', '\\', '+', '*', '×', '÷', '=', '!', '-', '_']) : k.cls.alpha c = false := by
  have h1 := L.punct c h
  cases h2 : k.cls.alpha c with
  | false => rfl
  | true => rw [L.alnum c h2] at h1; cases h1

theorem opTail_app {ss : List Str} (hs : ∀ n ∈ ss, IsName k.cls n) {r : Str} (hr : Off k.cls.ident r)
    (hc : ¬ [':', ':'] <+: r) (n : Nat) (hn : ss.length ≤ n) (acc : Str) :
    opTail k n (ss.flatMap ([':', ':'] ++ ·) ++ r) acc = .ok r (acc ++ ss.flatMap ([':', ':'] ++ ·)) := by
  induction ss generalizing n acc with
  | nil =>
    simp only [List.flatMap_nil, List.nil_append, List.append_nil]
    cases n with
    | zero => rfl
    | succ n =>
      have : tag [':', ':'] r = .err := by
        unfold tag
        rw [if_neg]
        rw [List.isPrefixOf_iff_prefix]
        exact hc
      simp [opTail, this, PR.bind]
  | cons s ss ih =>
    cases n with
    | zero => simp at hn
    | succ n =>
      have hoff : Off k.cls.ident (ss.flatMap ([':', ':'] ++ ·) ++ r) := by
        cases ss with
        | nil => simpa using hr
        | cons t ts =>
          intro c hc'
          simp at hc'
          subst hc'
          exact L.ident_off (by simp)
      have h1 := opIdent_app (hs s (by simp)) hoff
      have h2 : tag [':', ':'] ([':', ':'] ++ (s ++ (ss.flatMap ([':', ':'] ++ ·) ++ r))) =
          .ok (s ++ (ss.flatMap ([':', ':'] ++ ·) ++ r)) () := tag_ok.2 rfl
      have e : (s :: ss).flatMap ([':', ':'] ++ ·) ++ r =
          [':', ':'] ++ (s ++ (ss.flatMap ([':', ':'] ++ ·) ++ r)) := by simp
      rw [e]
      simp only [opTail, h2, PR.bind, h1]
      rw [ih (fun n hn => hs n (by simp [hn])) n (by simpa using hn)]
      simp

theorem flatMap_length {ss : List Str} (sep : Str) (h : 1 ≤ sep.length) :
    ss.length ≤ (ss.flatMap (sep ++ ·)).length := by
  induction ss with
  | nil => simp
  | cons s ss ih => simp only [List.flatMap_cons, List.length_append, List.length_cons]; omega

theorem opName_app {s r : Str} (hs : IsOpName k.cls s) (hr : Off k.cls.ident r) (hc : ¬ [':', ':'] <+: r) :
    opName k (s ++ r) = .ok r s := by
  obtain ⟨ss, hne, hall, rfl⟩ := hs
  cases ss with
  | nil => exact absurd rfl hne
  | cons s ss =>
    rw [join_cons]
    have hoff : Off k.cls.ident (ss.flatMap ([':', ':'] ++ ·) ++ r) := by
      cases ss with
      | nil => simpa using hr
      | cons t ts =>
        intro c hc'
        simp at hc'
        subst hc'
        exact L.ident_off (by simp)
    have h1 := opIdent_app (hall s (by simp)) hoff
    have h2 := opTail_app L (ss := ss) (fun n hn => hall n (by simp [hn])) hr hc
      (ss.flatMap ([':', ':'] ++ ·) ++ r).length
      (by
        have := flatMap_length L (ss := ss) [':', ':'] (by simp)
        rw [List.length_append]; omega) s
    simp only [opName, List.append_assoc, h1, PR.bind]
    exact h2

theorem pathTail_app {cs : List Str} (hs : ∀ n ∈ cs, IsOpName k.cls n) {r : Str} (hr : Off k.cls.ident r)
    (hc : ¬ [':', ':'] <+: r) (hsl : r.head? ≠ some '/') (n : Nat) (hn : cs.length ≤ n) (acc : List Str) :
    sepLoop (tag ['/']) (opName k) n (cs.flatMap (['/'] ++ ·) ++ r) acc = .ok r (acc ++ cs) := by
  induction cs generalizing n acc with
  | nil =>
    simp only [List.flatMap_nil, List.nil_append, List.append_nil]
    cases n with
    | zero => rfl
    | succ n =>
      have : tag ['/'] r = .err := by
        cases r with
        | nil => simp [tag]
        | cons c r =>
          have : c ≠ '/' := by simpa using hsl
          simp [tag, this.symm]
      simp [sepLoop, this]
  | cons s ss ih =>
    cases n with
    | zero => simp at hn
    | succ n =>
      have hoff : Off k.cls.ident (ss.flatMap (['/'] ++ ·) ++ r) ∧ ¬ [':', ':'] <+: ss.flatMap (['/'] ++ ·) ++ r := by
        cases ss with
        | nil => simpa using ⟨hr, hc⟩
        | cons t ts =>
          constructor
          · intro c hc'
            simp at hc'
            subst hc'
            exact L.ident_off (by simp)
          · simp
      have h1 := opName_app L (hs s (by simp)) hoff.1 hoff.2
      have h2 : tag ['/'] (['/'] ++ (s ++ (ss.flatMap (['/'] ++ ·) ++ r))) =
          .ok (s ++ (ss.flatMap (['/'] ++ ·) ++ r)) () := tag_ok.2 rfl
      have e : (s :: ss).flatMap (['/'] ++ ·) ++ r =
          ['/'] ++ (s ++ (ss.flatMap (['/'] ++ ·) ++ r)) := by simp
      rw [e]
      simp only [sepLoop, h2, h1]
      rw [if_neg (by simp)]
      rw [ih (fun n hn => hs n (by simp [hn])) n (by simpa using hn)]
      simp

end

/-- What may follow an operator: nothing, a space, or a colon which is not a double one. -/
def OpFol (r : Str) : Prop :=
  ∀ c cs, r = c :: cs → c = ' ' ∨ (c = ':' ∧ cs.head? ≠ some ':')

theorem IsOpName.head {k : Classes} {s : Str} (h : IsOpName k s) : ∃ c cs, s = c :: cs ∧ k.alpha c = true := by
  obtain ⟨ss, hne, hall, rfl⟩ := h
  cases ss with
  | nil => exact absurd rfl hne
  | cons s ss =>
    obtain ⟨c, cs, e, h⟩ := (hall s (by simp)).1
    rw [join_cons, e]
    exact ⟨c, _, rfl, h⟩

section
variable {k : Env} (L : Laws k)
include L

theorem OpFol.spec {r : Str} (h : OpFol r) :
    Off k.cls.ident r ∧ ¬ [':', ':'] <+: r ∧ r.head? ≠ some '/' ∧ r.head? ≠ some '=' := by
  cases r with
  | nil => simp [Off]
  | cons c cs =>
    rcases h c cs rfl with rfl | ⟨rfl, h2⟩
    · refine ⟨?_, by simp, by simp, by simp⟩
      intro c hc
      simp at hc
      subst hc
      exact L.ident_off (by simp)
    · refine ⟨?_, ?_, by simp, by simp⟩
      · intro c hc
        simp at hc
        subst hc
        exact L.ident_off (by simp)
      · intro hp
        obtain ⟨z, hz⟩ := hp
        simp only [List.cons_append, List.nil_append, List.cons.injEq, true_and] at hz
        rw [← hz] at h2
        simp at h2

theorem specOp_none {c : Char} (h : k.cls.alpha c = true) (i : Str) : specOp (c :: i) = .err := by
  have : ∀ d ∈ ['\\', '+', '-', '*', '×', '/', '÷', '=', '!', '>', '<', '.'], d ≠ c := by
    intro d hd e
    subst e
    have := L.alpha_off (c := d) (by
      simp only [List.mem_cons, List.not_mem_nil, or_false] at hd ⊢
      grind)
    rw [h] at this
    cases this
  simp only [List.mem_cons, List.not_mem_nil, or_false, forall_eq_or_imp, forall_eq] at this
  obtain ⟨a1, a2, a3, a4, a5, a6, a7, a8, a9, a10, a11, a12⟩ := this
  simp [specOp, specOps, a1, a2, a3, a4, a5, a6, a7, a8, a9, a10, a11, a12]

theorem path_app {cs : List Str} (hne : cs ≠ []) (hs : ∀ n ∈ cs, IsOpName k.cls n) {r : Str} (hr : OpFol r) :
    path k (join ['/'] cs ++ r) = .ok r (false, cs) := by
  obtain ⟨o1, o2, o3, _⟩ := hr.spec L
  cases cs with
  | nil => exact absurd rfl hne
  | cons s ss =>
    have hoff : Off k.cls.ident (ss.flatMap (['/'] ++ ·) ++ r) ∧ ¬ [':', ':'] <+: ss.flatMap (['/'] ++ ·) ++ r := by
      cases ss with
      | nil => simpa using ⟨o1, o2⟩
      | cons t ts =>
        constructor
        · intro c hc'
          simp at hc'
          subst hc'
          exact L.ident_off (by simp)
        · simp
    have h1 := opName_app L (hs s (by simp)) hoff.1 hoff.2
    have h2 := pathTail_app L (cs := ss) (fun n hn => hs n (by simp [hn])) o1 o2 o3
      (ss.flatMap (['/'] ++ ·) ++ r).length
      (by
        have := flatMap_length L (ss := ss) ['/'] (by simp)
        rw [List.length_append]; omega) [s]
    obtain ⟨c, cs, e, hc⟩ := (hs s (by simp)).head
    have hroot : (tag ['/'] (join ['/'] (s :: ss) ++ r)).isOk = false := by
      rw [join_cons, e]
      have : c ≠ '/' := by
        intro e
        subst e
        rw [L.alpha_off (by simp)] at hc
        cases hc
      simp [tag, this.symm, PR.isOk]
    unfold path
    simp only [hroot, Bool.false_eq_true, if_false]
    rw [join_cons]
    simp only [sepList1, List.append_assoc, h1, PR.bind, h2, pathEnd]
    split
    · simp at o3
    · simp

theorem op_app {o : Op} (h : IsOp k.cls o) {r : Str} (hr : OpFol r) : op k (writeOp o ++ r) = .ok r o := by
  obtain ⟨o1, o2, o3, o4⟩ := hr.spec L
  cases o with
  | single t =>
    rcases h with h | h
    · have : specOp (t ++ r) = .ok r t := by
        simp only [specOps, List.mem_cons, List.not_mem_nil, or_false] at h
        rcases h with rfl | rfl | rfl | rfl | rfl | rfl | rfl | rfl | rfl | rfl | rfl | rfl | rfl | rfl <;>
          first
            | (simp [specOp, specOps, List.isPrefixOf]; done)
            | (cases r with
                | nil => simp [specOp, specOps, List.isPrefixOf]
                | cons d r =>
                  have : '=' ≠ d := by intro e; subst e; simp at o4
                  simp [specOp, specOps, List.isPrefixOf, this])
      simp [op, writeOp, this]
    · obtain ⟨c, cs, e, hc⟩ := h.head
      have h1 : specOp (t ++ r) = .err := by rw [e]; exact specOp_none L hc _
      have h2 := path_app L (cs := [t]) (by simp) (by simpa using h) hr
      simp only [join] at h2
      simp [op, writeOp, h1, h2, PR.map]
  | path rooted cs =>
    obtain ⟨rfl, h2, h3⟩ := h
    cases cs with
    | nil => simp at h2
    | cons s ss =>
      cases ss with
      | nil => simp at h2
      | cons t ts =>
        obtain ⟨c, cs, e, hc⟩ := (h3 s (by simp)).head
        have h1 : specOp (join ['/'] (s :: t :: ts) ++ r) = .err := by
          rw [join_cons, e]; exact specOp_none L hc _
        have h2 := path_app L (cs := s :: t :: ts) (by simp) h3 hr
        simp [op, writeOp, h1, h2, PR.map]

theorem optTy_app {t : Option Str} (h : IsTy k.cls t) {r : Str} (hr : Off k.cls.ident r)
    (hc : r.head? ≠ some ':') : optTy k (writeTy t ++ r) = .ok r t := by
  cases t with
  | none =>
    cases r with
    | nil => simp [optTy, writeTy, opt, chr, PR.bind]
    | cons c r =>
      have : c ≠ ':' := by simpa using hc
      simp [optTy, writeTy, opt, chr, PR.bind, this]
  | some t => simp [optTy, writeTy, opt, chr, PR.bind, cut, opIdent_app h hr]

omit L in
theorem wrapped_app {q : Char} {s r : Str} (h : q ∉ s) : wrapped q (q :: s ++ q :: r) = .ok r s := by
  have : Off (· != q) (q :: r) := by intro c hc; simp at hc; simp [← hc]
  obtain ⟨h1, h2⟩ := takeWhile_app (p := (· != q)) (s := s) (r := q :: r)
    (fun c hc => by simp only [bne_iff_ne, ne_eq]; intro e; subst e; exact h hc) this
  simp [wrapped, chr, PR.bind, h1, h2, PR.map]

omit L in
theorem ident_app {s : Str} (h : Quotable s) (r : Str) : ident (quote s ++ r) = .ok r s := by
  unfold quote
  split
  · have := wrapped_app (q := '\'') (s := s) (r := r) (fun h' => h ⟨by assumption, h'⟩)
    simpa [ident] using this
  · have := wrapped_app (q := '"') (s := s) (r := r) (by assumption)
    simpa [ident] using this

omit L in
theorem quote_head (s : Str) : ∃ q r, quote s = q :: r ∧ (q = '"' ∨ q = '\'') := by
  unfold quote
  split
  · exact ⟨_, _, rfl, Or.inr rfl⟩
  · exact ⟨_, _, rfl, Or.inl rfl⟩

omit L in
theorem rhs_app {s : Str} (h : Quotable s) (r : Str) : infixRhs k (quote s ++ r) = .ok r s := by
  have := ident_app h r
  obtain ⟨q, z, e, rfl | rfl⟩ := quote_head s <;> rw [e] at this ⊢ <;> exact this

omit L in
theorem word_app {s : Str} (h : IsWord s) {r : Str} (hr : Quotable s ∨ Off (fun c => !breakon c) r) :
    ident (writeWord s ++ r) = .ok r s := by
  unfold writeWord
  split
  · rename_i hb
    have hq : ¬ Quotable s := fun h => h hb
    obtain ⟨h1, h2, h3, h4⟩ := h.resolve_left hq
    have e1 : takeTill1 breakon (s ++ r) = .ok r s :=
      takeWhile1_app (fun c hc => by simp [h2 c hc]) h1 (hr.resolve_left hq)
    cases s with
    | nil => exact absurd rfl h1
    | cons c cs =>
      have c1 : c ≠ ':' := by intro e; subst e; exact absurd (h2 ':' (by simp)) (by decide)
      have c2 : c ≠ '"' := by simpa using h3
      have c3 : c ≠ '\'' := by simpa using h4
      simp only [List.cons_append] at e1 ⊢
      unfold ident
      split
      · rename_i e; cases e; exact absurd rfl c1
      · rename_i e; cases e; exact absurd rfl c2
      · rename_i e; cases e; exact absurd rfl c3
      · exact e1
  · rename_i hb
    exact ident_app hb r

omit L in
theorem flag_app {s : Str} (h : IsWord s) {r : Str} (hr : Off (fun c => !breakon c) r) :
    flag ('-' :: '-' :: writeWord s ++ r) = .ok r s := by
  have : tag ['-', '-'] ('-' :: '-' :: writeWord s ++ r) = .ok (writeWord s ++ r) () := tag_ok.2 rfl
  simp only [flag, this, PR.bind]
  exact word_app h (Or.inr hr)

theorem op_none {c : Char} (h : c ∈ ['"', '\'', '{', '}', '|', '$', '#', ':', '(', ')', ' ']) (i : Str) :
    op k (c :: i) = .err := by
  have h1 : specOp (c :: i) = .err := by
    simp only [List.mem_cons, List.not_mem_nil, or_false] at h
    rcases h with rfl | rfl | rfl | rfl | rfl | rfl | rfl | rfl | rfl | rfl | rfl <;>
      simp [specOp, specOps, List.isPrefixOf]
  have h2 : k.cls.alpha c = false := L.alpha_off (by
    simp only [List.mem_cons, List.not_mem_nil, or_false] at h ⊢
    grind)
  have h3 : c ≠ '/' := by intro e; subst e; simp at h
  have h4 : opName k (c :: i) = .err := by simp [opName, opIdent, h2, PR.bind]
  simp [op, h1, path, tag, h3.symm, PR.isOk, sepList1, h4, PR.bind, PR.map]

omit L in
theorem op_nil : op k [] = .err := by
  simp [op, specOp, specOps, path, tag, PR.isOk, sepList1, opName, opIdent, PR.bind, PR.map]

end

end Verif.Parse
