import Verif.Lemmas.TagsNom
/-! The parser with tags follows the parser with texts, and the tags stand in order and inside each other. -/
namespace Verif.Tags
open Verif.Nom Verif.File
open Verif.Parse (Env Str ws many0 many1 sepList0 manyLoop specOp knownOp opIdent_sound)

/-- The character before a position. -/
def before (w : Str) (p : Nat) : Option Char := (takeBytes p w).bind List.getLast?

/-- Where a part stands with the characters which belong to it. -/
def outer (w : Str) (n : Node) : Span :=
  match n.ty with
  | .var => ⟨n.tag.start - 1, n.tag.stop⟩
  | .flag =>
    if isQuote (before w n.tag.start) then ⟨n.tag.start - 3, n.tag.stop + 1⟩ else ⟨n.tag.start - 2, n.tag.stop⟩
  | _ => n.tag

/-- A part stands between two positions. -/
structure Stands (w : Str) (lo hi : Nat) (n : Node) : Prop where
  low : lo ≤ (outer w n).start
  start : (outer w n).start ≤ n.tag.start
  ne : n.tag.start ≤ n.tag.stop
  stop : n.tag.stop ≤ (outer w n).stop
  high : (outer w n).stop ≤ hi
  lt : n.tag.start < hi
  bd1 : Bd w (outer w n).start
  bd2 : Bd w (outer w n).stop
  bd3 : Bd w n.tag.start
  bd4 : Bd w n.tag.stop
  text : ∀ t, n.tag.str w = some t → ∃ s ∈ written n.ty t, (outer w n).str w = some s

theorem written_plain {ty : NodeType} (h1 : ty ≠ .var) (h2 : ty ≠ .flag) (t : Str) : written ty t = [t] := by
  cases ty <;> first | rfl | exact absurd rfl h1 | exact absurd rfl h2

theorem text_plain {w : Str} {ty : NodeType} (h1 : ty ≠ .var) (h2 : ty ≠ .flag) {t : Span} :
    ∀ x, t.str w = some x → ∃ s ∈ written ty x, t.str w = some s :=
  fun x h => ⟨x, by rw [written_plain h1 h2]; exact List.mem_singleton.2 rfl, h⟩

/-- Parts stand one after the other between two positions. -/
inductive Chain (w : Str) : Nat → Nat → List Node → Prop
  | nil {lo hi} : lo ≤ hi → Chain w lo hi []
  | cons {lo mid hi n ns} : Stands w lo mid n → Chain w mid hi ns → Chain w lo hi (n :: ns)

theorem Stands.le {w : Str} {lo hi : Nat} {n : Node} (h : Stands w lo hi n) : lo ≤ hi := by
  have := h.low; have := h.start; have := h.lt; omega

theorem Stands.mono {w : Str} {lo hi lo' hi' : Nat} {n : Node} (h : Stands w lo hi n) (h1 : lo' ≤ lo) (h2 : hi ≤ hi') : Stands w lo' hi' n :=
  ⟨Nat.le_trans h1 h.low, h.start, h.ne, h.stop, Nat.le_trans h.high h2, Nat.lt_of_lt_of_le h.lt h2, h.bd1, h.bd2, h.bd3, h.bd4, h.text⟩

theorem Chain.le {w : Str} {lo hi : Nat} {ns : List Node} (h : Chain w lo hi ns) : lo ≤ hi := by
  induction h with
  | nil h => exact h
  | cons h _ ih => have := h.le; omega

theorem Chain.mono_lo {w : Str} {lo hi : Nat} {ns : List Node} (h : Chain w lo hi ns) {lo' : Nat} (h1 : lo' ≤ lo) : Chain w lo' hi ns := by
  cases h with
  | nil h => exact .nil (by omega)
  | cons h h2 => exact .cons (h.mono h1 (Nat.le_refl _)) h2

theorem Chain.append {w : Str} {lo mid hi : Nat} {ns ms : List Node} (h : Chain w lo mid ns) (h2 : Chain w mid hi ms) : Chain w lo hi (ns ++ ms) := by
  induction h with
  | nil h => exact h2.mono_lo h
  | cons h _ ih => exact .cons h (ih h2)

theorem Chain.mono {w : Str} {lo hi : Nat} {ns : List Node} (h : Chain w lo hi ns) {lo' hi' : Nat} (h1 : lo' ≤ lo) (h2 : hi ≤ hi') : Chain w lo' hi' ns := by
  have := (h.mono_lo h1).append (Chain.nil (w := w) h2)
  simpa using this

theorem Chain.mem {w : Str} {lo hi : Nat} {ns : List Node} (h : Chain w lo hi ns) {n : Node} (hn : n ∈ ns) : Stands w lo hi n := by
  induction h with
  | nil h => cases hn
  | cons h h2 ih =>
    rcases List.mem_cons.1 hn with e | hn
    · rw [e]; exact h.mono (Nat.le_refl _) h2.le
    · exact (ih hn).mono h.le (Nat.le_refl _)

/-- The parts can be put in order between two positions. -/
def Good (w : Str) (lo hi : Nat) (ns : List Node) : Prop := ∃ l : List Node, l.Perm ns ∧ Chain w lo hi l

theorem Good.nil {w : Str} {lo hi : Nat} (h : lo ≤ hi) : Good w lo hi [] := ⟨[], List.Perm.refl _, .nil h⟩

theorem Good.one {w : Str} {lo hi : Nat} {n : Node} (h : Stands w lo hi n) : Good w lo hi [n] :=
  ⟨[n], List.Perm.refl _, .cons h (.nil (Nat.le_refl _))⟩

theorem Good.append {w : Str} {lo mid hi : Nat} {ns ms : List Node} (h : Good w lo mid ns) (h2 : Good w mid hi ms) : Good w lo hi (ns ++ ms) := by
  obtain ⟨a, h1, h3⟩ := h
  obtain ⟨b, h4, h5⟩ := h2
  exact ⟨a ++ b, h1.append h4, h3.append h5⟩

theorem Good.mono {w : Str} {lo hi : Nat} {ns : List Node} (h : Good w lo hi ns) {lo' hi' : Nat} (h1 : lo' ≤ lo) (h2 : hi ≤ hi') : Good w lo' hi' ns := by
  obtain ⟨a, h3, h4⟩ := h
  exact ⟨a, h3, h4.mono h1 h2⟩

theorem Good.le {w : Str} {lo hi : Nat} {ns : List Node} (h : Good w lo hi ns) : lo ≤ hi := by
  obtain ⟨a, h3, h4⟩ := h
  exact h4.le

theorem Good.perm {w : Str} {lo hi : Nat} {ns ms : List Node} (h : Good w lo hi ns) (hp : ns.Perm ms) : Good w lo hi ms := by
  obtain ⟨a, h3, h4⟩ := h
  exact ⟨a, h3.trans hp, h4⟩

theorem Good.mem {w : Str} {lo hi : Nat} {ns : List Node} (h : Good w lo hi ns) {n : Node} (hn : n ∈ ns) : Stands w lo hi n := by
  obtain ⟨a, h3, h4⟩ := h
  exact h4.mem (h3.mem_iff.2 hn)

/-- A tag has all of a part. -/
def Span.covers (s : Span) (n : Node) : Prop := s.start ≤ n.tag.start ∧ n.tag.stop ≤ s.stop

mutual
/-- The tags of expressions and blocks have all their parts. -/
def NestE : LExpr → Prop
  | .mk t bs _ => (∀ n ∈ leavesBs bs, t.covers n) ∧ NestBs bs
def NestBs : List LBlk → Prop
  | [] => True
  | b :: bs => NestB b ∧ NestBs bs
def NestB : LBlk → Prop
  | .mk a o c ts => (∀ n ∈ (LBlk.mk a o c ts).leaves, (LBlk.mk a o c ts).tag.covers n) ∧ NestTs ts
def NestTs : List LTerm → Prop
  | [] => True
  | t :: ts => NestT t ∧ NestTs ts
def NestT : LTerm → Prop
  | .flag _ => True
  | .arg a => NestA a
def NestA : LArg → Prop
  | .expr e => NestE e
  | .dot t op lhs rhs out => (∀ n ∈ (LArg.dot t op lhs rhs out).leaves, t.covers n) ∧ NestA lhs
  | _ => True
end

theorem nestTs_snoc {ts : List LTerm} {t : LTerm} (h : NestTs ts) (ht : NestT t) : NestTs (ts ++ [t]) := by
  induction ts with
  | nil => exact ⟨ht, True.intro⟩
  | cons a ts ih => exact ⟨h.1, ih h.2⟩

theorem nestBs_snoc {ts : List LBlk} {t : LBlk} (h : NestBs ts) (ht : NestB t) : NestBs (ts ++ [t]) := by
  induction ts with
  | nil => exact ⟨ht, True.intro⟩
  | cons a ts ih => exact ⟨h.1, ih h.2⟩

theorem nestedTs_snoc {ts : List LTerm} {t : LTerm} (h : NestedTs ts) (ht : t.Nested) : NestedTs (ts ++ [t]) := by
  induction ts with
  | nil => exact ⟨ht, True.intro⟩
  | cons a ts ih => exact ⟨h.1, ih h.2⟩

theorem nestedBs_snoc {ts : List LBlk} {t : LBlk} (h : NestedBs ts) (ht : t.Nested) : NestedBs (ts ++ [t]) := by
  induction ts with
  | nil => exact ⟨ht, True.intro⟩
  | cons a ts ih => exact ⟨h.1, ih h.2⟩

/-- Tags in a row between two positions. -/
theorem Parts.append {lo mid hi : Nat} {a b : List Span} (h : Parts ⟨lo, mid⟩ a) (h2 : Parts ⟨mid, hi⟩ b) (h3 : lo ≤ mid) (h4 : mid ≤ hi) :
    Parts ⟨lo, hi⟩ (a ++ b) := by
  unfold Parts at *
  dsimp only at *
  refine ⟨?_, ?_⟩
  · intro s hs
    rcases List.mem_append.1 hs with hs | hs
    · have := h.1 s hs; omega
    · have := h2.1 s hs; omega
  · rw [List.pairwise_append]
    refine ⟨h.2, h2.2, ?_⟩
    intro x hx y hy
    have := h.1 x hx
    have := h2.1 y hy
    omega

theorem Parts.mono {lo hi lo' hi' : Nat} {a : List Span} (h : Parts ⟨lo, hi⟩ a) (h1 : lo' ≤ lo) (h2 : hi ≤ hi') : Parts ⟨lo', hi'⟩ a := by
  unfold Parts at *
  dsimp only at *
  exact ⟨fun s hs => by have := h.1 s hs; omega, h.2⟩

theorem Parts.nil {t : Span} : Parts t [] := ⟨fun _ h => (by cases h), .nil⟩

theorem Parts.one {lo hi : Nat} {s : Span} (h1 : lo ≤ s.start) (h2 : s.start ≤ s.stop) (h3 : s.stop ≤ hi) : Parts ⟨lo, hi⟩ [s] := by
  refine ⟨fun x hx => ?_, List.pairwise_singleton _ _⟩
  rw [List.mem_singleton] at hx
  subst hx
  exact ⟨h1, h2, h3⟩

theorem leavesTs_snoc (ts : List LTerm) (t : LTerm) : leavesTs (ts ++ [t]) = leavesTs ts ++ t.leaves := by
  induction ts with
  | nil => simp [leavesTs]
  | cons a ts ih => simp [leavesTs, ih]

theorem leavesBs_snoc (ts : List LBlk) (t : LBlk) : leavesBs (ts ++ [t]) = leavesBs ts ++ t.leaves := by
  induction ts with
  | nil => simp [leavesBs]
  | cons a ts ih => simp [leavesBs, ih]

theorem textTs_all (w : Str) (ts : List LTerm) : textTs w ts = allO (LTerm.text w) ts := by
  induction ts with
  | nil => rfl
  | cons t ts ih => simp [textTs, allO, ih]

theorem textBs_all (w : Str) (ts : List LBlk) : textBs w ts = allO (LBlk.text w) ts := by
  induction ts with
  | nil => rfl
  | cons t ts ih => simp [textBs, allO, ih]

theorem optText_str (w : Str) : optText (Span.str w) = textO w := by
  funext o; cases o <;> rfl

/-- A part without other characters. -/
theorem stands_plain {w i r : Str} (hi : i <:+ w) (hr : r <:+ i) (hlt : off w i < off w r) {ty : NodeType}
    (h1 : ty ≠ .var) (h2 : ty ≠ .flag) : Stands w (off w i) (off w r) ⟨⟨off w i, off w r⟩, ty⟩ := by
  have e : outer w ⟨⟨off w i, off w r⟩, ty⟩ = ⟨off w i, off w r⟩ := by
    unfold outer; cases ty <;> first | rfl | exact absurd rfl h1 | exact absurd rfl h2
  have := bd_off hi
  have := bd_off (hr.trans hi)
  constructor <;> (try rw [e]) <;> first | assumption | exact text_plain h1 h2 | exact Nat.le_refl _ | exact Nat.le_of_lt hlt

theorem wrapped_shape {q : Char} {i r s : Str} (h : Parse.wrapped q i = .ok r s) : i = q :: (s ++ q :: r) := by
  unfold Parse.wrapped at h
  obtain ⟨j, u, h1, h2⟩ := PR.bind_ok.1 h
  obtain ⟨v, h3, rfl⟩ := PR.map_ok.1 h2
  have e1 := chr_suffix h1
  have e2 := chr_suffix h3
  rw [e1, ← e2, List.takeWhile_append_dropWhile]

theorem lWrapped_eq (w : Str) (q : Char) (i : Str) :
    lWrapped w q i = (Parse.wrapped q i).map fun t => mkTag w (i.drop 1) t := by
  unfold lWrapped Parse.wrapped
  cases h : chr q i with
  | err => rfl
  | fail => rfl
  | ok j u =>
    have e := chr_suffix h
    subst e
    dsimp only [PR.bind]
    cases chr q (j.dropWhile (· != q)) <;> rfl

/-- A word in quotes. -/
def Quoted (w : Str) (lo hi : Nat) (t : Span) : Prop :=
  t.start = lo + 1 ∧ hi = t.stop + 1 ∧ t.start ≤ t.stop ∧ isQuote (before w t.start) = true ∧ Bd w t.start ∧ Bd w t.stop ∧
    ∃ q s, (q = '"' ∨ q = '\'') ∧ t.str w = some s ∧ Span.str w ⟨lo, hi⟩ = some (q :: (s ++ [q]))

/-- What is known of a word: with or without quotes. -/
def QWord (w : Str) (lo hi : Nat) (t : Span) : Prop := lo < hi ∧ (t = ⟨lo, hi⟩ ∨ Quoted w lo hi t)

/-- How a word is read: with or without quotes. -/
theorem lIdent_sim (w : Str) :
    Sim w (Span.str w) (QWord w) (lIdent w) Parse.ident := by
  intro i hi
  have wrap : ∀ q, (q = '"' ∨ q = '\'') → Tracks (Span.str w) (fun r t => r <:+ i ∧ QWord w (off w i) (off w r) t) (lWrapped w q i) (Parse.wrapped q i) := by
    intro q hq
    rw [lWrapped_eq]
    refine Tracks.tag ?_
    intro r s h
    have e := wrapped_shape h
    have hs : q.utf8Size = 1 := by rcases hq with rfl | rfl <;> rfl
    have hm : s ++ q :: r <:+ i := ⟨[q], e.symm⟩
    have hm2 : q :: r <:+ w := (List.suffix_append s (q :: r)).trans (hm.trans hi)
    have o1 : off w (s ++ q :: r) = off w i + 1 := by
      have := off_add hi (t := [q]) e
      simpa [size, hs] using this
    have o2 : off w (q :: r) = off w (s ++ q :: r) + size s := off_add (hm.trans hi) rfl
    have o3 : off w r = off w (q :: r) + 1 := by
      have := off_add hm2 (t := [q]) (r := r) rfl
      simpa [size, hs] using this
    have ed : i.drop 1 = s ++ q :: r := by rw [e]; rfl
    rw [ed]
    refine ⟨str_mk (hm.trans hi) rfl, ((List.suffix_cons q r).trans (List.suffix_append s (q :: r))).trans hm, by omega, .inr ?_⟩
    have ht := str_mk (hm.trans hi) (t := s) (r := q :: r) rfl
    have hq2 := str_mk hi (t := q :: (s ++ [q])) (r := r) (by rw [e]; simp)
    rw [mk_eq hi (t := q :: (s ++ [q])) (r := r) (by rw [e]; simp)] at hq2
    rw [mk_eq (hm.trans hi) rfl] at *
    refine ⟨o1, o3, by dsimp only; omega, ?_, bd_off (hm.trans hi), bd_off hm2, q, s, hq, ht, hq2⟩
    dsimp only
    obtain ⟨p, ep⟩ := hi
    have e5 : w = (p ++ [q]) ++ (s ++ q :: r) := by rw [← ep, e]; simp
    unfold before
    rw [off_pre e5, e5, takeBytes_append]
    rcases hq with rfl | rfl <;> simp [isQuote]
  have bare : Tracks (Span.str w) (fun r t => r <:+ i ∧ QWord w (off w i) (off w r) t)
      ((takeTill1 Parse.breakon i).map (mkTag w i)) (takeTill1 Parse.breakon i) := by
    refine Tracks.tag ?_
    intro r s h
    obtain ⟨e, hne⟩ : i = s ++ r ∧ s ≠ [] := by
      have := Parse.takeWhile1_sound h
      grind
    have o := off_add hi e
    have hp : 0 < size s := by
      cases s with
      | nil => exact absurd rfl hne
      | cons c s => have := utf8_pos c; have hx : size (c :: s) = c.utf8Size + size s := rfl; omega
    exact ⟨str_mk hi e, ⟨s, e.symm⟩, by omega, .inl (mk_eq hi e)⟩
  unfold lIdent Parse.ident
  split
  · exact True.intro
  · exact wrap _ (.inl rfl)
  · exact wrap _ (.inr rfl)
  · rename_i h1 h2 h3
    split
    · exact absurd rfl (h1 _)
    · exact absurd rfl (h2 _)
    · exact absurd rfl (h3 _)
    · exact bare

theorem lName_sim (k : Env) (w : Str) :
    Sim w (Span.str w) (fun lo hi t => lo < hi ∧ t = ⟨lo, hi⟩) (lName k w) (opIdent k.cls) := by
  intro i hi
  refine Tracks.tag ?_
  intro r s h
  obtain ⟨⟨⟨c, cs, e1, _⟩, _⟩, e⟩ := opIdent_sound h
  have o := off_add hi e
  have hp : 0 < size s := by
    have := utf8_pos c; have hx : size (c :: cs) = c.utf8Size + size cs := rfl; rw [e1]; omega
  exact ⟨str_mk hi e, ⟨s, e.symm⟩, by omega, mk_eq hi e⟩

theorem lOptTy_sim (k : Env) (w : Str) :
    Sim w (textO w) (fun lo hi o => lo ≤ hi ∧ ∀ t, o = some t → t = ⟨lo + 1, hi⟩ ∧ lo < hi ∧ Bd w hi) (lOptTy k w) (Parse.optTy k) := by
  rw [← optText_str]
  unfold lOptTy Parse.optTy
  have h : Sim w (Span.str w) (fun lo hi t => t = ⟨lo + 1, hi⟩ ∧ lo < hi ∧ Bd w hi)
      (fun i => (chr ':' i).bind fun i _ => cut (lName k w) i)
      (fun i => (chr ':' i).bind fun i _ => cut (opIdent k.cls) i) := by
    intro i hi
    refine Tracks.bind (sim_chr w ':' i hi) ?_
    intro r b a _ h2
    refine ((lName_sim k w).cut r (h2.1.trans hi)).mono ?_
    intro s t h3
    have h4 := h2.2
    have h5 : (':' : Char).utf8Size = 1 := rfl
    rw [h5] at h4
    refine ⟨h3.1.trans h2.1, ?_, ?_, bd_off (h3.1.trans (h2.1.trans hi))⟩
    · rw [h3.2.2, h4]
    · have := h3.2.1; omega
  exact h.opt

end Verif.Tags
