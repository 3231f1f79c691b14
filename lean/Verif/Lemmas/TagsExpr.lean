import Verif.Lemmas.Tags
import Verif.Props.ParseSound
/-! Expressions: the parser with tags follows the parser with texts. -/
namespace Verif.Tags
open Verif.Nom Verif.File
open Verif.Parse (Env Str ws many0 many1 sepList0 manyLoop specOp knownOp opIdent_sound)

theorem size_pos {s : Str} (h : s ≠ []) : 0 < size s := by
  cases s with
  | nil => exact absurd rfl h
  | cons c s => have := utf8_pos c; have hx : size (c :: s) = c.utf8Size + size s := rfl; omega

theorem lOpTail_sim (k : Env) {w i0 : Str} (h0 : i0 <:+ w) (n : Nat) : ∀ (i acc : Str) (t : Span), i0 = acc ++ i →
    acc ≠ [] → t.stop = off w i → ∃ r e s, lOpTail k w n i t = .ok r e ∧ Parse.opTail k n i acc = .ok r s ∧
      i0 = s ++ r ∧ s ≠ [] ∧ e.stop = off w r := by
  induction n with
  | zero => intro i acc t h1 h2 h3; exact ⟨i, t, acc, rfl, rfl, h1, h2, h3⟩
  | succ n ih =>
    intro i acc t h1 h2 h3
    have hi0 : i <:+ i0 := ⟨acc, h1.symm⟩
    have hi : i <:+ w := hi0.trans h0
    have hb : Tracks (Span.str w) (fun r e => i = [':', ':'] ++ (i.drop 2) ∧ r <:+ i.drop 2 ∧ e = ⟨off w (i.drop 2), off w r⟩)
        ((tag [':', ':'] i).bind fun i _ => lName k w i) ((tag [':', ':'] i).bind fun i _ => opIdent k.cls i) := by
      refine Tracks.bind (Tracks.same (Q := fun r _ => i = [':', ':'] ++ r) (fun r a h => tag_ok.1 h)) ?_
      intro r b a _ e
      have ed : i.drop 2 = r := by rw [e]; rfl
      have hr : r <:+ i := ⟨[':', ':'], e.symm⟩
      refine (lName_sim k w r (hr.trans hi)).mono ?_
      intro s t h
      rw [ed]
      exact ⟨e, h.1, h.2.2⟩
    simp only [lOpTail, Parse.opTail]
    rcases hb.cases with ⟨r, b, a, e1, e2, h4, h5, h6, h7⟩ | ⟨e1, e2⟩ | ⟨e1, e2⟩
    · rw [e1, e2]
      dsimp only
      obtain ⟨u, hu⟩ := h6
      have hu2 : (i.drop 2) <:+ w := (List.drop_suffix 2 i).trans hi
      have ha : a = u := by
        have := str_mk hu2 hu.symm
        rw [mk_eq hu2 hu.symm, ← h7, h4] at this
        exact Option.some.inj this
      refine ih r _ _ ?_ (by simp) (by rw [h7])
      rw [h1, h5, ← hu, ha]
      simp
    · rw [e1, e2]; exact ⟨i, t, acc, rfl, rfl, h1, h2, h3⟩
    · rw [e1, e2]; exact ⟨i, t, acc, rfl, rfl, h1, h2, h3⟩

theorem lOpName_sim (k : Env) (w : Str) :
    Sim w (Span.str w) (fun lo hi t => lo < hi ∧ t = ⟨lo, hi⟩) (lOpName k w) (Parse.opName k) := by
  intro i hi
  unfold lOpName Parse.opName
  refine Tracks.bind (lName_sim k w i hi) ?_
  intro r b a h1 h2
  obtain ⟨u, hu⟩ := h2.1
  have ha : a = u := by
    have := str_mk hi hu.symm
    rw [mk_eq hi hu.symm, ← h2.2.2, h1] at this
    exact Option.some.inj this
  have hne : a ≠ [] := by
    intro e
    have := off_add hi hu.symm
    rw [← ha, e] at this
    have := h2.2.1
    simp [size] at *
    omega
  obtain ⟨s, e, t, e1, e2, e3, e4, e5⟩ := lOpTail_sim k hi r.length r a b (by rw [ha]; exact hu.symm) hne (by rw [h2.2.2])
  rw [e1, e2]
  have o := off_add hi e3
  have := size_pos e4
  have hb : b.start = off w i := by rw [h2.2.2]
  have et : (⟨b.start, e.stop⟩ : Span) = mkTag w i t := by rw [mk_eq hi e3, hb, e5]
  refine ⟨rfl, ?_, ⟨t, e3.symm⟩, by omega, ?_⟩
  · dsimp only
    rw [et]
    exact str_mk hi e3
  · dsimp only
    rw [et, mk_eq hi e3]

/-- The components of a path, from where it starts to where it ends. -/
def PathInv (lo hi : Nat) (cs : List Span) : Prop :=
  lo < hi ∧ ∃ a b, cs.head? = some a ∧ cs.getLast? = some b ∧ a.start = lo ∧ b.stop = hi

theorem pathList_sim (k : Env) (w : Str) :
    Sim w (allO (Span.str w)) PathInv (sepList1 (tag ['/']) (lOpName k w)) (sepList1 (tag ['/']) (Parse.opName k)) := by
  intro i hi
  unfold sepList1
  refine Tracks.bind (lOpName_sim k w i hi) ?_
  intro r b a h1 h2
  refine (sep_sim (Inv := PathInv (off w i)) (fun i r a h => ?_) (lOpName_sim k w) ?_ r.length r [b] [a] (h2.1.trans hi) ?_ ?_).mono ?_
  · exact ⟨_, (tag_ok.1 h).symm⟩
  · rintro hi' m hi'' acc c ⟨h3, x, y, h4, h5, h6, h7⟩ h8 h9
    refine ⟨by omega, x, c, ?_, by simp, h6, by rw [h9.2]⟩
    cases acc with
    | nil => cases h4
    | cons z zs => simpa using h4
  · simp [allO, h1]
  · exact ⟨h2.2.1, b, b, rfl, rfl, by rw [h2.2.2], by rw [h2.2.2]⟩
  · intro s bs hs
    exact ⟨hs.1.trans h2.1, hs.2⟩

theorem pathEnd_sim {α β : Type} {f : β → Option α} {Q : Str → β → Prop} {i : Str} {x : β} {y : α} (h1 : f x = some y)
    (h2 : Q i x) : Tracks f Q (Parse.pathEnd i x) (Parse.pathEnd i y) := by
  unfold Parse.pathEnd
  split
  · exact True.intro
  · exact ⟨rfl, h1, h2⟩

theorem specOp_ok {i r t : Str} (h : specOp i = .ok r t) : i = t ++ r ∧ t ≠ [] := by
  unfold specOp at h
  split at h
  · rename_i u h2
    cases h
    have h3 := List.mem_of_find?_eq_some h2
    have h4 := List.find?_some h2
    obtain ⟨s, e⟩ := List.isPrefixOf_iff_prefix.1 h4
    refine ⟨by rw [← e]; simp, ?_⟩
    rintro rfl
    exact absurd h3 (by decide)
  · cases h

theorem specOp_no_slash {i : Str} (h : ∀ r t, specOp i ≠ .ok r t) : (tag ['/'] i).isOk = false := by
  unfold specOp at h
  split at h
  · rename_i t _
    exact absurd rfl (h _ _)
  · rename_i h2
    rw [List.find?_eq_none] at h2
    have := h2 ['/'] (by decide)
    unfold tag
    rw [if_neg this]
    rfl

theorem allO_one {α β : Type} {f : β → Option α} {b : β} {as : List α} (h : allO f [b] = some as) : ∃ a, as = [a] ∧ f b = some a := by
  simp only [allO] at h
  cases h1 : f b with
  | none => rw [h1] at h; cases h
  | some a => rw [h1] at h; cases h; exact ⟨a, rfl, rfl⟩

theorem allO_length {α β : Type} {f : β → Option α} : ∀ {bs : List β} {as : List α}, allO f bs = some as → as.length = bs.length := by
  intro bs
  induction bs with
  | nil => intro as h; cases h; rfl
  | cons b bs ih =>
    intro as h
    simp only [allO] at h
    cases h1 : f b with
    | none => rw [h1] at h; cases h
    | some a =>
      cases h2 : allO f bs with
      | none => rw [h1, h2] at h; cases h
      | some x => rw [h1, h2] at h; cases h; simp [ih h2]

/-- The operation a path with texts is. -/
def opText : Bool × List Str → Parse.Op
  | (rooted, cs) => match cs with
    | [t] => .single t
    | cs => .path rooted cs

theorem opOf_text {w : Str} {rooted : Bool} {cs : List Span} {ts : List Str} (h : allO (Span.str w) cs = some ts) :
    (opOf (rooted, cs)).text w = some (opText (rooted, ts)) := by
  match cs, ts, h with
  | [], ts, h => cases h; rfl
  | [t], ts, h =>
    obtain ⟨a, rfl, h1⟩ := allO_one h
    simp [opOf, LOp.text, h1, opText]
  | a :: b :: cs, ts, h =>
    have := allO_length h
    match ts, this with
    | x :: y :: ts, _ =>
      show ((allO (Span.str w) (a :: b :: cs)).map (Parse.Op.path rooted)) = some (.path rooted (x :: y :: ts))
      rw [h]; rfl

theorem opOf_tag {cs : List Span} {lo hi : Nat} (h : PathInv lo hi cs) : (opOf (false, cs)).tag = ⟨lo, hi⟩ := by
  obtain ⟨_, a, b, h1, h2, h3, h4⟩ := h
  match cs, h1, h2 with
  | [t], h1, h2 =>
    cases h1
    have e : a = b := Option.some.inj h2
    subst e
    show a = _
    rw [← h3, ← h4]
  | x :: y :: cs, h1, h2 =>
    cases h1
    simp only [opOf, LOp.tag]
    rw [h2]
    simp [h3, h4]

theorem lOp_sim (k : Env) (w : Str) :
    Sim w (LOp.text w) (fun lo hi o => lo < hi ∧ o.tag = ⟨lo, hi⟩) (lOp k w) (Parse.op k) := by
  intro i hi
  unfold lOp Parse.op
  cases hs : specOp i with
  | ok r t =>
    obtain ⟨e, hne⟩ := specOp_ok hs
    have o := off_add hi e
    have := size_pos hne
    refine ⟨rfl, ?_, ⟨t, e.symm⟩, by omega, mk_eq hi e⟩
    show ((mkTag w i t).str w).map Parse.Op.single = _
    rw [str_mk hi e]; rfl
  | err | fail =>
    dsimp only
    have hsl : (tag ['/'] i).isOk = false := specOp_no_slash (by intro r t; rw [hs]; simp)
    have hp : Tracks (fun p : Bool × List Span => (allO (Span.str w) p.2).map fun ts => (p.1, ts))
        (fun r p => r <:+ i ∧ p.1 = false ∧ PathInv (off w i) (off w r) p.2) (lPath k w i) (Parse.path k i) := by
      unfold lPath Parse.path
      rw [hsl]
      refine Tracks.bind (pathList_sim k w i hi) ?_
      intro r b a h1 h2
      exact pathEnd_sim (by simp [h1]) ⟨h2.1, rfl, h2.2⟩
    refine hp.map ?_
    rintro r ⟨rt, cs⟩ ⟨rt', ts⟩ h1 ⟨h2, h3, h4⟩
    dsimp only at h1 h3 h4
    subst h3
    cases h5 : allO (Span.str w) cs with
    | none => rw [h5] at h1; cases h1
    | some x =>
      rw [h5] at h1
      cases h1
      exact ⟨opOf_text h5, h2, h4.1, opOf_tag h4⟩

/-- What is known of an argument which stands between two positions. -/
structure QArg (w : Str) (lo hi : Nat) (a : LArg) : Prop where
  lt : lo < hi
  good : Good w lo hi a.leaves
  start : lo ≤ dotStart a
  mid : dotStart a ≤ a.tag.stop
  stop : a.tag.stop ≤ hi
  bd : Bd w (dotStart a)
  bd2 : Bd w a.tag.stop
  cov : ∀ n ∈ a.leaves, a.tag.covers n
  nest : NestA a
  ne : a.tag.start ≤ a.tag.stop
  wf : a.Nested

theorem QArg.mono {w : Str} {lo hi lo' hi' : Nat} {a : LArg} (h : QArg w lo hi a) (h1 : lo' ≤ lo) (h2 : hi ≤ hi') :
    QArg w lo' hi' a :=
  ⟨by have := h.lt; omega, h.good.mono h1 h2, by have := h.start; omega, h.mid, by have := h.stop; omega, h.bd, h.bd2, h.cov, h.nest, h.ne, h.wf⟩

theorem dotStart_le (a : LArg) : dotStart a ≤ a.tag.start := by
  cases a <;> simp [dotStart, LArg.tag]

theorem QWord.stands {w : Str} {lo hi : Nat} {t : Span} (h : QWord w lo hi t) (b1 : Bd w lo) (b2 : Bd w hi) {ty : NodeType}
    (h1 : ty ≠ .var) (h2 : ty ≠ .flag) : Stands w lo hi ⟨t, ty⟩ := by
  have e : outer w ⟨t, ty⟩ = t := by
    unfold outer; cases ty <;> first | rfl | exact absurd rfl h1 | exact absurd rfl h2
  obtain ⟨h3, rfl | ⟨a1, a2, a3, a4, a5, a6, a7⟩⟩ := h
  · constructor <;> (try rw [e]) <;> first | assumption | exact text_plain h1 h2 | exact Nat.le_refl _ | exact Nat.le_of_lt h3
  · constructor <;> (try rw [e]) <;> first | assumption | exact text_plain h1 h2 | exact Nat.le_refl _ | omega | (dsimp only; omega)

theorem QWord.bd {w : Str} {lo hi : Nat} {t : Span} (h : QWord w lo hi t) (b1 : Bd w lo) (b2 : Bd w hi) : Bd w t.start ∧ Bd w t.stop := by
  obtain ⟨h3, rfl | ⟨a1, a2, a3, a4, a5, a6, a7⟩⟩ := h
  · exact ⟨b1, b2⟩
  · exact ⟨a5, a6⟩

theorem lInfixRhs_sim (k : Env) (w : Str) : Sim w (Span.str w) (QWord w) (lInfixRhs k w) (Parse.infixRhs k) := by
  intro i hi
  have hn := (lName_sim k w i hi).mono (R := fun r t => r <:+ i ∧ QWord w (off w i) (off w r) t) (fun r t h => ⟨h.1, h.2.1, .inl h.2.2⟩)
  have hid := lIdent_sim w i hi
  unfold lInfixRhs Parse.infixRhs
  split
  · exact hid
  · exact hid
  · rename_i h1 h2
    split
    · exact absurd rfl (h1 _)
    · exact absurd rfl (h2 _)
    · exact hn

theorem lInfix_sim (k : Env) (w : Str) (lo : Nat) (n : Nat) : ∀ (i : Str) (a : LArg) (a' : Parse.Arg), i <:+ w → a.text w = some a' →
    QArg w lo (off w i) a →
    Tracks (LArg.text w) (fun r b => r <:+ i ∧ QArg w lo (off w r) b) (lInfixLoop k w n i a) (Parse.infixLoop k n i a') := by
  induction n with
  | zero => intro i a a' hi h1 h2; exact ⟨rfl, h1, List.suffix_rfl, h2⟩
  | succ n ih =>
    intro i a a' hi h1 h2
    have step : ∀ r, i = '.' :: r → Tracks (LArg.text w) (fun r b => r <:+ i ∧ QArg w lo (off w r) b)
        ((cut (lInfixRhs k w) r).bind fun i' rhs => (lOptTy k w i').bind fun i' out =>
          lInfixLoop k w n i' (.dot (dotTag a rhs out) (mkTag w i ['.']) a rhs out))
        ((cut (Parse.infixRhs k) r).bind fun i rhs => (Parse.optTy k i).bind fun i out =>
          Parse.infixLoop k n i (.dot a' rhs out)) := by
      intro r e
      have hr : r <:+ i := ⟨['.'], e.symm⟩
      have o1 : off w r = off w i + 1 := off_add hi (t := ['.']) e
      refine Tracks.bind ((lInfixRhs_sim k w).cut r (hr.trans hi)) ?_
      intro s rhs rhs' h3 h4
      refine Tracks.bind (lOptTy_sim k w s (h4.1.trans (hr.trans hi))) ?_
      intro u out out' h5 h6
      have hu : u <:+ i := h6.1.trans (h4.1.trans hr)
      have hdot : (mkTag w i ['.']).str w = some ['.'] := str_mk hi e
      have edot : mkTag w i ['.'] = ⟨off w i, off w r⟩ := mk_eq hi e
      have wd : QWord w (off w r) (off w s) rhs := h4.2
      have brs := wd.bd (bd_off (hr.trans hi)) (bd_off (h4.1.trans (hr.trans hi)))
      have su : off w s ≤ off w u := off_le h6.1
      have rs : off w r < off w s := wd.1
      -- where the tag ends
      have hend : Bd w (endOf rhs.stop out) ∧ rhs.stop ≤ endOf rhs.stop out ∧ endOf rhs.stop out ≤ off w u := by
        have h7 : rhs.stop ≤ off w s := by
          obtain ⟨_, rfl | ⟨a1, a2, a3, a4, a5, a6, a7⟩⟩ := wd
          · exact Nat.le_refl _
          · omega
        cases out with
        | none => exact ⟨brs.2, Nat.le_refl _, by show rhs.stop ≤ _; omega⟩
        | some t =>
          obtain ⟨e8, h9, h10⟩ := h6.2.2 t rfl
          refine ⟨?_, ?_, ?_⟩ <;> simp only [endOf, e8]
          · exact h10
          · omega
          · exact Nat.le_refl _
      have hmid : off w i ≤ rhs.stop ∧ rhs.start ≤ rhs.stop ∧ off w r ≤ rhs.start := by
        obtain ⟨_, rfl | ⟨a1, a2, a3, a4, a5, a6, a7⟩⟩ := wd
        · dsimp only; omega
        · omega
      have hq : QArg w lo (off w u) (.dot (dotTag a rhs out) (mkTag w i ['.']) a rhs out) := by
        have st := h2.start
        have sp := h2.stop
        have md := h2.mid
        have ds := dotStart_le a
        have cov : ∀ m ∈ (LArg.dot (dotTag a rhs out) (mkTag w i ['.']) a rhs out).leaves, (dotTag a rhs out).covers m := by
          intro m hm
          simp only [LArg.leaves, List.mem_cons, List.mem_append, List.not_mem_nil, or_false] at hm
          unfold Span.covers dotTag
          rcases hm with rfl | hm | rfl
          · rw [edot]; dsimp only; omega
          · have := h2.cov m hm
            unfold Span.covers at this
            dsimp only; omega
          · dsimp only; omega
        refine ⟨by have := h2.lt; omega, ?_, h2.start, ?_, hend.2.2, h2.bd, hend.1, cov, ⟨cov, h2.nest⟩, ?_, ?_, h2.wf⟩
        · have g1 : Good w (off w i) (off w r) [⟨mkTag w i ['.'], .command⟩] := by
            rw [edot]
            exact .one (stands_plain hi hr (by omega) (by simp) (by simp))
          have g2 : Good w (off w r) (off w s) [⟨rhs, .ident⟩] :=
            .one (wd.stands (bd_off (hr.trans hi)) (bd_off (h4.1.trans (hr.trans hi))) (by simp) (by simp))
          have g := ((h2.good.append g1).append g2).mono (Nat.le_refl _) su
          refine g.perm ?_
          simp only [LArg.leaves]
          rw [List.append_assoc]
          exact List.perm_middle
        · show dotStart a ≤ endOf rhs.stop out
          omega
        · show dotStart a ≤ endOf rhs.stop out
          omega
        · have p1 : Parts ⟨dotStart a, off w i⟩ [a.tag] := .one ds h2.ne sp
          have p2 : Parts ⟨off w i, off w r⟩ [mkTag w i ['.']] := by
            rw [edot]; exact .one (Nat.le_refl _) (by dsimp only; omega) (Nat.le_refl _)
          have p3 : Parts ⟨off w r, rhs.stop⟩ [rhs] := .one hmid.2.2 hmid.2.1 (Nat.le_refl _)
          have p4 : Parts ⟨rhs.stop, endOf rhs.stop out⟩ out.toList := by
            cases out with
            | none => exact .nil
            | some t =>
              obtain ⟨e8, h9, h10⟩ := h6.2.2 t rfl
              have : rhs.stop ≤ off w s := by
                obtain ⟨_, rfl | ⟨a1, a2, a3, a4, a5, a6, a7⟩⟩ := wd
                · exact Nat.le_refl _
                · omega
              refine .one ?_ ?_ (Nat.le_refl _) <;> rw [e8] <;> dsimp only <;> omega
          exact ((p1.append p2 (by omega) (by omega)).append p3 (by omega) (by omega)).append p4 (by omega) (by omega)
      refine (ih u _ _ (hu.trans hi) ?_ hq).mono (fun x b hx => ⟨hx.1.trans hu, hx.2⟩)
      obtain ⟨p, t, q, _, _, _, ht⟩ := slice_bd hq.bd hq.bd2 hq.mid
      have ht2 : (dotTag a rhs out).str w = some t := ht
      simp only [LArg.text]
      rw [if_pos hdot, ht2, h1]
      simp only [Option.bind_some]
      rw [h3, h5]
      rfl
    cases i with
    | nil => exact ⟨rfl, h1, List.suffix_rfl, h2⟩
    | cons c r =>
      by_cases hc : c = '.'
      · subst hc
        exact step r rfl
      · have e1 : lInfixLoop k w (n + 1) (c :: r) a = .ok (c :: r) a := by
          simp only [lInfixLoop]
          split
          · rename_i h; injection h with h _; exact absurd h hc
          · rfl
        have e2 : Parse.infixLoop k (n + 1) (c :: r) a' = .ok (c :: r) a' := by
          simp only [Parse.infixLoop]
          split
          · rename_i h; injection h with h _; exact absurd h hc
          · rfl
        rw [e1, e2]
        exact ⟨rfl, h1, List.suffix_rfl, h2⟩

/-- What is known of a term. -/
structure QTerm (w : Str) (lo hi : Nat) (t : LTerm) : Prop where
  lt : lo < hi
  good : Good w lo hi t.leaves
  low : lo ≤ t.stop
  stop : t.stop ≤ hi
  bd : Bd w t.stop
  cov : ∀ n ∈ t.leaves, n.tag.stop ≤ t.stop
  nest : NestT t
  start : lo ≤ t.tag.start
  ne : t.tag.start ≤ t.tag.stop
  wf : t.Nested

theorem QTerm.mono {w : Str} {lo hi lo' hi' : Nat} {a : LTerm} (h : QTerm w lo hi a) (h1 : lo' ≤ lo) (h2 : hi ≤ hi') :
    QTerm w lo' hi' a :=
  ⟨by have := h.lt; omega, h.good.mono h1 h2, by have := h.low; omega, by have := h.stop; omega, h.bd, h.cov, h.nest, by have := h.start; omega, h.ne, h.wf⟩

theorem str_pre {w i j r a s : Str} (hi : i <:+ w) (e : i = a ++ j) (hr : r <:+ j) (h : Span.str w ⟨off w j, off w r⟩ = some s) :
    Span.str w ⟨off w i, off w r⟩ = some (a ++ s) := by
  obtain ⟨t, et⟩ := hr
  have hj : j <:+ i := ⟨a, e.symm⟩
  have h1 := str_mk (hj.trans hi) et.symm
  rw [mk_eq (hj.trans hi) et.symm, h] at h1
  cases h1
  have h2 : i = (a ++ s) ++ r := by rw [e, ← et]; simp
  have h3 := str_mk hi h2
  rwa [mk_eq hi h2] at h3

theorem lFlag_sim (w : Str) : Sim w (LTerm.text w) (QTerm w) (fun i => (lFlag w i).map .flag) (fun i => (Parse.flag i).map .flag) := by
  intro i hi
  have h : Tracks (Span.str w) (fun r t => r <:+ i ∧ ∃ j, i = '-' :: '-' :: j ∧ r <:+ j ∧ QWord w (off w j) (off w r) t) (lFlag w i) (Parse.flag i) := by
    unfold lFlag Parse.flag
    refine Tracks.bind (Tracks.same (Q := fun r _ => i = ['-', '-'] ++ r) (fun r a h => tag_ok.1 h)) ?_
    intro r b a _ e
    have hr : r <:+ i := ⟨_, e.symm⟩
    exact (lIdent_sim w r (hr.trans hi)).mono fun s t h => ⟨h.1.trans hr, r, e, h.1, h.2⟩
  refine h.map ?_
  rintro r t t' h1 ⟨hr, j, e, hj, wd⟩
  have hj2 : j <:+ i := ⟨['-', '-'], e.symm⟩
  have o : off w j = off w i + 2 := off_add hi (t := ['-', '-']) e
  have b1 := bd_off (hj2.trans hi)
  have b2 := bd_off (hr.trans hi)
  have st : Stands w (off w i) (off w r) ⟨t, .flag⟩ := by
    have wd' := wd
    obtain ⟨h3, rfl | ⟨a1, a2, a3, a4, a5, a6, a7⟩⟩ := wd
    · have hb : isQuote (before w (off w j)) = false := by
        obtain ⟨p, ep⟩ := hi
        have e5 : w = (p ++ ['-', '-']) ++ j := by rw [← ep, e]; simp
        unfold before
        rw [off_pre e5, e5, takeBytes_append]
        simp [isQuote]
      have eo : outer w ⟨⟨off w j, off w r⟩, .flag⟩ = ⟨off w i, off w r⟩ := by
        unfold outer
        dsimp only
        rw [hb, o]
        rfl
      have tx : ∀ x, Span.str w ⟨off w j, off w r⟩ = some x → ∃ s ∈ written .flag x, Span.str w ⟨off w i, off w r⟩ = some s :=
        fun x hx => ⟨_, by simp [written], str_pre (a := ['-', '-']) hi e hj hx⟩
      constructor <;> (try rw [eo]) <;> first | assumption | exact tx | exact bd_off hi | exact Nat.le_refl _ | (dsimp only; omega)
    · have eo : outer w ⟨t, .flag⟩ = ⟨off w i, off w r⟩ := by
        unfold outer
        dsimp only
        rw [a4, if_pos rfl, a1, ← a2, o]
        rfl
      have tx : ∀ x, Span.str w t = some x → ∃ s ∈ written .flag x, Span.str w ⟨off w i, off w r⟩ = some s := by
        intro x hx
        obtain ⟨q, s, hq, hs, h7⟩ := a7
        rw [hx] at hs
        cases hs
        exact ⟨_, by rcases hq with rfl | rfl <;> simp [written], str_pre (a := ['-', '-']) hi e hj h7⟩
      constructor <;> (try rw [eo]) <;> first | assumption | exact tx | exact bd_off hi | exact Nat.le_refl _ | (dsimp only; omega)
  refine ⟨by simp [LTerm.text, h1], hr, ⟨?_, .one st, ?_, ?_, (wd.bd b1 b2).2, ?_, True.intro, ?_, st.ne, True.intro⟩⟩
  · have := wd.1; omega
  · have h1 := st.low; have h2 := st.start; have h3 := st.ne
    show _ ≤ t.stop
    dsimp only at *; omega
  · have h1 := st.stop; have h2 := st.high
    show t.stop ≤ _
    dsimp only at *; omega
  · intro n hn
    simp only [LTerm.leaves, List.mem_singleton] at hn
    subst hn
    exact Nat.le_refl _
  · have h1 := st.low; have h2 := st.start
    show _ ≤ t.start
    dsimp only at *; omega

theorem lTerm_sim (k : Env) (w : Str) {la : Parser LArg} {pa : Parser Parse.Arg} (h : Sim w (LArg.text w) (QArg w) la pa) :
    Sim w (LTerm.text w) (QTerm w) (lTerm k w la) (Parse.term k pa) := by
  intro i hi
  unfold lTerm Parse.term
  by_cases hd : ['-', '-'].isPrefixOf i = true
  · rw [if_pos hd, if_pos hd]
    exact lFlag_sim w i hi
  · rw [if_neg hd, if_neg hd]
    have hb : Tracks (LArg.text w) (fun r b => r <:+ i ∧ QArg w (off w i) (off w r) b)
        ((la i).bind fun i a => lInfixLoop k w i.length i a) ((pa i).bind fun i a => Parse.infixLoop k i.length i a) := by
      refine Tracks.bind (h i hi) ?_
      intro r b a h1 h2
      exact (lInfix_sim k w (off w i) r.length r b a (h2.1.trans hi) h1 h2.2).mono fun s c hs => ⟨hs.1.trans h2.1, hs.2⟩
    refine hb.map ?_
    intro r b a h1 h2
    have q := h2.2
    refine ⟨by simp [LTerm.text, h1], h2.1, ⟨q.lt, q.good, ?_, q.stop, q.bd2, fun n hn => (q.cov n hn).2, q.nest, ?_, q.ne, q.wf⟩⟩
    · have := q.start; have := q.mid
      show _ ≤ b.tag.stop
      omega
    · have := q.start; have := dotStart_le b
      show _ ≤ b.tag.start
      omega

/-- What is known of the terms of a block. -/
structure QTerms (w : Str) (lo hi : Nat) (ts : List LTerm) : Prop where
  good : Good w lo hi (leavesTs ts)
  nest : NestTs ts
  last : ∀ t, ts.getLast? = some t → t.stop ≤ hi ∧ lo ≤ t.stop ∧ ∀ n ∈ leavesTs ts, n.tag.stop ≤ t.stop
  row : Parts ⟨lo, hi⟩ (ts.map LTerm.tag)
  wf : NestedTs ts

theorem lTerms_sim (k : Env) (w : Str) {la : Parser LArg} {pa : Parser Parse.Arg} (h : Sim w (LArg.text w) (QArg w) la pa) :
    Sim w (textTs w) (QTerms w) (many0 (ws (lTerm k w la))) (many0 (ws (Parse.term k pa))) := by
  have e : textTs w = allO (LTerm.text w) := funext (textTs_all w)
  rw [e]
  have hws : Sim w (LTerm.text w) (QTerm w) (ws (lTerm k w la)) (ws (Parse.term k pa)) :=
    (lTerm_sim k w h).ws fun lo' lo hi hi' b h1 h2 h3 => h3.mono h1 h2
  intro i hi
  unfold many0
  refine many_sim hws (Inv := QTerms w (off w i)) ?_ _ i [] [] hi rfl ⟨.nil (Nat.le_refl _), True.intro, fun t ht => (by cases ht), .nil, True.intro⟩
  intro a b acc t h1 h2
  refine ⟨?_, nestTs_snoc h1.nest h2.nest, ?_, ?_, nestedTs_snoc h1.wf h2.wf⟩
  · rw [leavesTs_snoc]; exact h1.good.append h2.good
  · intro t' ht
    simp only [List.getLast?_append, List.getLast?_singleton, Option.some_or, Option.some.injEq] at ht
    subst ht
    have := h1.good.le
    have := h2.low
    refine ⟨h2.stop, by omega, ?_⟩
    intro n hn
    rw [leavesTs_snoc, List.mem_append] at hn
    rcases hn with hn | hn
    · have s := h1.good.mem hn
      have := s.stop; have := s.high; omega
    · exact h2.cov n hn
  · have p : Parts ⟨a, b⟩ [t.tag] := by
      refine .one h2.start h2.ne ?_
      have : t.tag.stop = t.stop := by cases t <;> rfl
      rw [this]; exact h2.stop
    have := h1.row.append p h1.good.le (Nat.le_of_lt h2.lt)
    simpa using this

/-- What is known of a block. -/
structure QBlk (w : Str) (lo hi : Nat) (b : LBlk) : Prop where
  lt : lo < hi
  good : Good w lo hi b.leaves
  nest : NestB b
  start : lo ≤ b.tag.start
  ne : b.tag.start ≤ b.tag.stop
  stop : b.tag.stop ≤ hi
  wf : b.Nested

theorem QBlk.mono {w : Str} {lo hi lo' hi' : Nat} {a : LBlk} (h : QBlk w lo hi a) (h1 : lo' ≤ lo) (h2 : hi ≤ hi') :
    QBlk w lo' hi' a := ⟨by have := h.lt; omega, h.good.mono h1 h2, h.nest, by have := h.start; omega, h.ne, by have := h.stop; omega, h.wf⟩

theorem lBlock_sim (k : Env) (w : Str) {la : Parser LArg} {pa : Parser Parse.Arg} (h : Sim w (LArg.text w) (QArg w) la pa) :
    Sim w (LBlk.text w) (QBlk w) (lBlock k w la) (Parse.block k pa) := by
  intro i hi
  unfold lBlock Parse.block
  refine Tracks.bind (lOptTy_sim k w i hi) ?_
  intro i1 t1 t1' a1 b1
  have s1 : skip isMulti i1 <:+ i := (skip_suffix _ i1).trans b1.1
  refine Tracks.bind (lOp_sim k w _ (s1.trans hi)) ?_
  intro i2 o o' a2 b2
  have s2 : i2 <:+ i := b2.1.trans s1
  refine Tracks.bind (lOptTy_sim k w i2 (s2.trans hi)) ?_
  intro i3 t3 t3' a3 b3
  have s3 : i3 <:+ i := b3.1.trans s2
  refine (lTerms_sim k w h i3 (s3.trans hi)).map ?_
  intro r ts ts' a4 b4
  have o1 := b1.2.1
  have o2 := off_le (w := w) (skip_suffix isMulti i1)
  have o3 := b2.2.1
  have o4 := b3.2.1
  have o5 := b4.2.good.le
  have sp : Stands w (off w (skip isMulti i1)) (off w i2) ⟨o.tag, .command⟩ := by
    rw [b2.2.2]; exact stands_plain (s1.trans hi) b2.1 o3 (by simp) (by simp)
  have hst : off w i ≤ (LBlk.mk t1 o t3 ts).tag.start ∧ (LBlk.mk t1 o t3 ts).tag.start ≤ off w (skip isMulti i1) ∧
      Parts ⟨(LBlk.mk t1 o t3 ts).tag.start, off w (skip isMulti i1)⟩ t1.toList := by
    simp only [LBlk.tag]
    cases t1 with
    | none =>
      dsimp only
      rw [b2.2.2]
      exact ⟨by dsimp only; omega, Nat.le_refl _, .nil⟩
    | some t =>
      obtain ⟨e, h5, _⟩ := b1.2.2 t rfl
      dsimp only
      rw [e]
      dsimp only
      exact ⟨by omega, by omega, .one (by dsimp only; omega) (by dsimp only; omega) (by dsimp only; omega)⟩
  have hsp : ∀ t, ts.getLast? = some t → (LBlk.mk t1 o t3 ts).tag.stop = t.stop := by
    intro t ht; simp only [LBlk.tag]; rw [ht]
  have hop : Parts ⟨off w (skip isMulti i1), off w i2⟩ [o.tag] := by
    rw [b2.2.2]; exact .one (Nat.le_refl _) (by dsimp only; omega) (Nat.le_refl _)
  have hend : off w i2 ≤ (LBlk.mk t1 o t3 ts).tag.stop ∧ (LBlk.mk t1 o t3 ts).tag.stop ≤ off w r ∧
      Parts ⟨off w i2, (LBlk.mk t1 o t3 ts).tag.stop⟩ (t3.toList ++ ts.map LTerm.tag) := by
    have hout : Parts ⟨off w i2, off w i3⟩ t3.toList := by
      cases t3 with
      | none => exact .nil
      | some t =>
        obtain ⟨e, h5, _⟩ := b3.2.2 t rfl
        refine .one ?_ ?_ ?_ <;> rw [e] <;> dsimp only <;> omega
    cases hl : ts.getLast? with
    | none =>
      have hts := List.getLast?_eq_none_iff.1 hl
      subst hts
      simp only [LBlk.tag, hl]
      rw [b2.2.2]
      cases t3 with
      | none => exact ⟨Nat.le_refl _, by show off w i2 ≤ _; omega, .nil⟩
      | some t =>
        have e := (b3.2.2 t rfl).1
        simp only [endOf]
        have e2 : t.stop = off w i3 := by rw [e]
        rw [e2]
        exact ⟨o4, by omega, by simpa using hout⟩
    | some t =>
      rw [hsp t hl]
      obtain ⟨l1, l2, l3⟩ := b4.2.last t hl
      refine ⟨by omega, l1, hout.append (mid := off w i3) ?_ o4 l2⟩
      have row := b4.2.row
      refine ⟨fun s hs => ?_, row.2⟩
      have h6 := row.1 s hs
      refine ⟨h6.1, h6.2.1, ?_⟩
      obtain ⟨pre, epre⟩ : ∃ pre, ts = pre ++ [t] := by
        obtain ⟨pre, h7⟩ := List.getLast?_eq_some_iff.1 hl
        exact ⟨pre, h7⟩
      rw [epre, List.map_append, List.mem_append] at hs
      have et : t.tag.stop = t.stop := by cases t <;> rfl
      rcases hs with hs | hs
      · have h8 := row.2
        rw [epre, List.map_append, List.pairwise_append] at h8
        have h9 := h8.2.2 s hs t.tag (by simp)
        have h10 := row.1 t.tag (by rw [epre]; simp)
        dsimp only; omega
      · simp at hs
        rw [hs]; dsimp only; omega
  have wf : (LBlk.mk t1 o t3 ts).Nested := by
    refine ⟨?_, b4.2.wf⟩
    have p := (hst.2.2.append hop (by omega) (by omega)).append hend.2.2 (by omega) (by omega)
    have p2 : Parts ⟨(LBlk.mk t1 o t3 ts).tag.start, (LBlk.mk t1 o t3 ts).tag.stop⟩ (t1.toList ++ o.tag :: (t3.toList ++ ts.map LTerm.tag)) := by
      simpa using p
    exact p2
  refine ⟨by simp [LBlk.text, a1, a2, a3, a4], b4.1.trans s3, ⟨by omega, ?_, ⟨?_, b4.2.nest⟩, hst.1, by omega, hend.2.1, wf⟩⟩
  · have g := ((Good.one sp).mono (hi' := off w i3) (Nat.le_refl _) o4).append b4.2.good
    exact g.mono (by omega) (Nat.le_refl _)
  · intro n hn
    simp only [LBlk.leaves, List.mem_cons] at hn
    unfold Span.covers
    rcases hn with rfl | hn
    · dsimp only
      rw [b2.2.2] at *
      refine ⟨hst.2.1, ?_⟩
      cases hl : ts.getLast? with
      | none =>
        simp only [LBlk.tag, hl]
        rw [b2.2.2]
        cases t3 with
        | none => exact Nat.le_refl _
        | some t => simp only [endOf]; rw [(b3.2.2 t rfl).1]; exact o4
      | some t =>
        rw [hsp t hl]
        have := (b4.2.last t hl).2.1
        dsimp only; omega
    · have s := b4.2.good.mem hn
      refine ⟨?_, ?_⟩
      · have := s.low; have := s.start; omega
      · cases hl : ts.getLast? with
        | none =>
          rw [List.getLast?_eq_none_iff] at hl
          rw [hl] at hn
          cases hn
        | some t =>
          rw [hsp t hl]
          exact (b4.2.last t hl).2.2 n hn


theorem Good.covers {w : Str} {lo hi : Nat} {ns : List Node} (h : Good w lo hi ns) {s : Span} (h1 : s.start ≤ lo)
    (h2 : hi ≤ s.stop) : ∀ n ∈ ns, s.covers n := by
  intro n hn
  have st := h.mem hn
  have := st.low; have := st.start; have := st.stop; have := st.high
  unfold Span.covers; omega

theorem Tracks.also {α β : Type} {f : β → Option α} {Q : Str → β → Prop} {x : PR β} {y : PR α} {P : Str → Prop}
    (h : Tracks f Q x y) (hp : ∀ r b, x = .ok r b → P r) : Tracks f (fun r b => Q r b ∧ P r) x y := by
  rcases h.cases with ⟨r, b, a, rfl, rfl, h1, h2⟩ | ⟨rfl, rfl⟩ | ⟨rfl, rfl⟩
  · exact ⟨rfl, h1, h2, hp _ _ rfl⟩
  · exact True.intro
  · exact True.intro

theorem Tracks.alsoB {α β : Type} {f : β → Option α} {Q : Str → β → Prop} {x : PR β} {y : PR α} {P : Str → β → Prop}
    (h : Tracks f Q x y) (hp : ∀ r b, x = .ok r b → P r b) : Tracks f (fun r b => Q r b ∧ P r b) x y := by
  rcases h.cases with ⟨r, b, a, rfl, rfl, h1, h2⟩ | ⟨rfl, rfl⟩ | ⟨rfl, rfl⟩
  · exact ⟨rfl, h1, h2, hp _ _ rfl⟩
  · exact True.intro
  · exact True.intro

theorem lOptTy_none {k : Env} {w i r : Str} {t : Option Span} (h : lOptTy k w i = .ok r t) : t = none → r = i := by
  rintro rfl
  unfold lOptTy Nom.opt at h
  split at h <;> cases h
  rfl

theorem ws_clean {α : Type} {p : Parser α} {i r : Str} {a : α} (h : ws p i = .ok r a) : skip isMulti r = r := by
  unfold Parse.ws at h
  obtain ⟨j, b, h1, h2⟩ := PR.bind_ok.1 h
  cases h2
  exact Parse.skip_skip _ _

/-- What is known of the blocks of an expression. -/
structure QBlks (w : Str) (lo hi : Nat) (bs : List LBlk) : Prop where
  lt : lo < hi
  good : Good w lo hi (leavesBs bs)
  nest : NestBs bs
  row : Parts ⟨lo, hi⟩ (bs.map LBlk.tag)
  wf : NestedBs bs

theorem QBlks.snoc {w : Str} {lo mid hi : Nat} {bs : List LBlk} {b : LBlk} (h : QBlks w lo mid bs) (h2 : QBlk w mid hi b) :
    QBlks w lo hi (bs ++ [b]) :=
  ⟨by have := h.lt; have := h2.lt; omega, by rw [leavesBs_snoc]; exact h.good.append h2.good, nestBs_snoc h.nest h2.nest,
    by simpa using h.row.append (.one h2.start h2.ne h2.stop) (Nat.le_of_lt h.lt) (Nat.le_of_lt h2.lt), nestedBs_snoc h.wf h2.wf⟩

theorem QBlks.one {w : Str} {lo hi : Nat} {b : LBlk} (h : QBlk w lo hi b) : QBlks w lo hi [b] :=
  ⟨h.lt, by simpa [leavesBs] using h.good, ⟨h.nest, True.intro⟩, .one h.start h.ne h.stop, ⟨h.wf, True.intro⟩⟩

theorem textBs_snoc {w : Str} {bs : List LBlk} {as : List Parse.Blk} {b : LBlk} {a : Parse.Blk} (h : textBs w bs = some as)
    (hb : b.text w = some a) : textBs w (bs ++ [b]) = some (as ++ [a]) := by
  rw [textBs_all] at *
  exact allO_snoc h hb

theorem lPipes_sim {w : Str} {lb : Parser LBlk} {pb : Parser Parse.Blk} (h : Sim w (LBlk.text w) (QBlk w) (ws lb) (ws pb))
    (lo : Nat) (n : Nat) : ∀ (i : Str) (acc : List LBlk) (acc' : List Parse.Blk), i <:+ w → skip isMulti i = i →
      textBs w acc = some acc' → QBlks w lo (off w i) acc →
      Tracks (textBs w) (fun r bs => r <:+ i ∧ skip isMulti r = r ∧ QBlks w lo (off w r) bs)
        (lPipes (ws lb) n i acc) (Parse.pipes (ws pb) n i acc') := by
  induction n with
  | zero => intro i acc acc' hi hs h1 h2; exact ⟨rfl, h1, List.suffix_rfl, hs, h2⟩
  | succ n ih =>
    intro i acc acc' hi hs h1 h2
    cases i with
    | nil => exact ⟨rfl, h1, List.suffix_rfl, hs, h2⟩
    | cons c r =>
      by_cases hc : c = '|'
      · subst hc
        have hr : r <:+ '|' :: r := List.suffix_cons _ _
        show Tracks _ _ ((ws lb r).bind fun i x => lPipes (ws lb) n i (acc ++ [x]))
          ((ws pb r).bind fun i x => Parse.pipes (ws pb) n i (acc' ++ [x]))
        refine Tracks.bind ((h r (hr.trans hi)).also (P := fun r => skip isMulti r = r) (fun r b => ws_clean)) ?_
        intro s b a h3 h4
        have hsr := h4.1.1
        refine (ih s _ _ (hsr.trans (hr.trans hi)) h4.2 (textBs_snoc h1 h3) ?_).mono ?_
        · exact h2.snoc (h4.1.2.mono (off_le hr) (Nat.le_refl _))
        · intro u bs hu
          exact ⟨hu.1.trans (hsr.trans hr), hu.2⟩
      · have e1 : lPipes (ws lb) (n + 1) (c :: r) acc = .ok (c :: r) acc := by
          simp only [lPipes]
          split
          · rename_i h; injection h with h _; exact absurd h hc
          · rfl
        have e2 : Parse.pipes (ws pb) (n + 1) (c :: r) acc' = .ok (c :: r) acc' := by
          simp only [Parse.pipes]
          split
          · rename_i h; injection h with h _; exact absurd h hc
          · rfl
        rw [e1, e2]
        exact ⟨rfl, h1, List.suffix_rfl, hs, h2⟩

/-- What is known of an expression. -/
structure QExpr (w : Str) (lo hi : Nat) (e : LExpr) : Prop where
  tag : e.tag = ⟨lo, hi⟩
  lt : lo < hi
  good : Good w lo hi e.leaves
  nest : NestE e
  wf : e.Nested

theorem expr_done {w i r : Str} (hi : i <:+ w) (hr : r <:+ i) {bs : List LBlk} {as : List Parse.Blk} (h : textBs w bs = some as)
    (q : QBlks w (off w i) (off w r) bs) : (LExpr.mk ⟨off w i, off w r⟩ bs none).text w = some (.mk as none) ∧
      QExpr w (off w i) (off w r) (.mk ⟨off w i, off w r⟩ bs none) := by
  obtain ⟨t, _, ht⟩ := str_between hi hr
  refine ⟨by simp [LExpr.text, ht, h, textO], rfl, q.lt, q.good, ⟨q.good.covers (Nat.le_refl _) (Nat.le_refl _), q.nest⟩, by simpa using q.row, q.wf⟩

theorem lExpr_sim {w : Str} {lb : Parser LBlk} {pb : Parser Parse.Blk} (h : Sim w (LBlk.text w) (QBlk w) lb pb) (i : Str)
    (hi : i <:+ w) : Tracks (LExpr.text w) (fun r e => r <:+ i ∧ skip isMulti r = r ∧ QExpr w (off w i) (off w r) e)
      (lExpr w lb i) (Parse.expr pb i) := by
  have hws : Sim w (LBlk.text w) (QBlk w) (ws lb) (ws pb) := h.ws fun lo' lo hi hi' b h1 h2 h3 => h3.mono h1 h2
  unfold lExpr Parse.expr
  refine Tracks.bind ((hws i hi).also (P := fun r => skip isMulti r = r) (fun r b => ws_clean)) ?_
  intro i1 x x' h1 h2
  have s1 := h2.1.1
  refine Tracks.bind (lPipes_sim hws (off w i) i1.length i1 [x] [x'] (s1.trans hi) h2.2 (by simp [textBs, h1]) (.one h2.1.2)) ?_
  intro i2 bs bs' h3 h4
  have s2 := h4.1.trans s1
  rcases ((hws i2 (s2.trans hi)).also (P := fun r => skip isMulti r = r) (fun r b => ws_clean)).cases with
    ⟨r, b, a, e1, e2, h5, h6⟩ | ⟨e1, e2⟩ | ⟨e1, e2⟩
  · rw [e1, e2]
    have s3 := h6.1.1.trans s2
    have := expr_done hi s3 (textBs_snoc h3 h5) (h4.2.2.snoc h6.1.2)
    exact ⟨rfl, this.1, s3, h6.2, this.2⟩
  · rw [e1, e2]
    have := expr_done hi s2 h3 h4.2.2
    exact ⟨rfl, this.1, s2, h4.2.1, this.2⟩
  · rw [e1, e2]
    have := expr_done hi s2 h3 h4.2.2
    exact ⟨rfl, this.1, s2, h4.2.1, this.2⟩

/-- An expression before its closing brace. -/
theorem inBraces_sim {w : Str} {lb : Parser LBlk} {pb : Parser Parse.Blk} (h : Sim w (LBlk.text w) (QBlk w) lb pb) :
    Sim w (LExpr.text w) (fun lo hi e => ∃ lo' hi', lo ≤ lo' ∧ hi = hi' + 1 ∧ QExpr w lo' hi' e)
      (fun i => (ws (lExpr w lb) i).bind fun i e => (chr '}' i).map fun _ => e)
      (fun i => (ws (Parse.expr pb) i).bind fun i e => (chr '}' i).map fun _ => e) := by
  intro i hi
  have hs := skip_suffix isMulti i
  have hw : Tracks (LExpr.text w) (fun r e => r <:+ i ∧ QExpr w (off w (skip isMulti i)) (off w r) e)
      (ws (lExpr w lb) i) (ws (Parse.expr pb) i) := by
    unfold Parse.ws
    refine Tracks.bind (lExpr_sim h _ (hs.trans hi)) ?_
    intro r b a h1 h2
    rw [h2.2.1]
    exact ⟨rfl, h1, h2.1.trans hs, h2.2.2⟩
  dsimp only
  refine Tracks.bind hw ?_
  intro r b a h1 h2
  refine (sim_chr w '}' r (h2.1.trans hi)).map ?_
  intro s _ _ _ h3
  exact ⟨h1, h3.1.trans h2.1, _, _, off_le hs, h3.2, h2.2⟩

theorem qarg_word {w i r : Str} (hi : i <:+ w) (hr : r <:+ i) {t : Span} (wd : QWord w (off w i) (off w r) t) {a : LArg} {ty : NodeType}
    (h1 : ty ≠ .var) (h2 : ty ≠ .flag) (e1 : a.leaves = [⟨t, ty⟩]) (e2 : a.tag = t) (e3 : dotStart a = t.start) (hn : NestA a) (hw : a.Nested) :
    QArg w (off w i) (off w r) a := by
  have b := wd.bd (bd_off hi) (bd_off (hr.trans hi))
  have st := wd.stands (bd_off hi) (bd_off (hr.trans hi)) h1 h2
  have l1 := st.low; have l2 := st.start; have l3 := st.ne; have l4 := st.stop; have l5 := st.high
  refine ⟨wd.1, by rw [e1]; exact .one st, by rw [e3]; dsimp only at *; omega, by rw [e2, e3]; exact l3, by rw [e2]; dsimp only at *; omega,
    by rw [e3]; exact b.1, by rw [e2]; exact b.2, ?_, hn, by rw [e2]; exact l3, hw⟩
  intro n hn
  rw [e1, List.mem_singleton] at hn
  subst hn
  rw [e2]
  exact ⟨Nat.le_refl _, Nat.le_refl _⟩

theorem lArg_brace {k : Env} {w : Str} {lb : Parser LBlk} {pb : Parser Parse.Blk} (h : Sim w (LBlk.text w) (QBlk w) lb pb) {r : Str}
    (hi : '{' :: r <:+ w) :
    Tracks (LArg.text w) (fun s a => s <:+ '{' :: r ∧ QArg w (off w ('{' :: r)) (off w s) a) (lArg k w lb ('{' :: r)) (Parse.arg k pb ('{' :: r)) := by
  have hr : r <:+ '{' :: r := List.suffix_cons _ _
  have o1 : off w r = off w ('{' :: r) + 1 := off_add hi (t := ['{']) rfl
  show Tracks _ _ (if (skip isMulti r).head? = some '}' then .fail else _) (if (skip isMulti r).head? = some '}' then .fail else _)
  by_cases hc : (skip isMulti r).head? = some '}'
  · rw [if_pos hc, if_pos hc]; exact True.intro
  · rw [if_neg hc, if_neg hc]
    refine Tracks.bind ((inBraces_sim h).cut r (hr.trans hi)) ?_
    intro s e e' h1 h2
    obtain ⟨lo', hi', h3, h4, q⟩ := h2.2
    have hs := h2.1.trans hr
    refine ((lOptTy_sim k w s (hs.trans hi)).alsoB (P := fun r t => t = none → r = s) (fun r b => lOptTy_none)).map ?_
    rintro u t t' h5 ⟨h6, h7⟩
    have hu := h6.1.trans hs
    cases e with
    | mk et bs out =>
      have et' : et = ⟨lo', hi'⟩ := q.tag
      subst et'
      have eend : endOf (hi' + 1) t = off w u := by
        cases t with
        | none => rw [h7 rfl, h4]; rfl
        | some t => rw [(h6.2.2 t rfl).1]; rfl
      obtain ⟨p, ep, hp⟩ := str_between hi hu
      have lt := q.lt
      have su := h6.2.1
      refine ⟨?_, hu, ?_⟩
      · simp only [LExpr.text] at h1
        simp only [LArg.text, LExpr.braced, LExpr.text, eend, hp, Option.bind_some]
        cases x1 : Span.str w ⟨lo', hi'⟩ with
        | none => rw [x1] at h1; cases h1
        | some x =>
          cases x2 : textBs w bs with
          | none => rw [x1, x2] at h1; cases h1
          | some y =>
            cases x3 : textO w out with
            | none => rw [x1, x2, x3] at h1; cases h1
            | some z =>
              rw [x1, x2, x3] at h1
              cases h1
              rw [h5]
              rfl
      · have g := q.good.mono (lo' := off w ('{' :: r)) (hi' := off w u) (by omega) (by omega)
        have nt := q.nest
        refine ⟨by omega, g, Nat.le_refl _, ?_, ?_, bd_off hi, ?_, ?_, ⟨?_, nt.2⟩, ?_, ?_, q.wf.2⟩
        · show _ ≤ endOf (hi' + 1) t
          rw [eend]
          show off w ('{' :: r) ≤ _
          omega
        · show endOf (hi' + 1) t ≤ _
          rw [eend]; exact Nat.le_refl _
        · show Bd w (endOf (hi' + 1) t)
          rw [eend]; exact bd_off (hu.trans hi)
        · exact g.covers (Nat.le_refl _) (by show _ ≤ endOf (hi' + 1) t; rw [eend]; exact Nat.le_refl _)
        · exact g.covers (Nat.le_refl _) (by show _ ≤ endOf (hi' + 1) t; rw [eend]; exact Nat.le_refl _)
        · show off w ('{' :: r) ≤ endOf (hi' + 1) t
          rw [eend]; omega
        · have p1 : Parts ⟨lo', hi'⟩ (bs.map LBlk.tag) :=
            ⟨fun s hs => q.wf.1.1 s (List.mem_append_left _ hs), (List.pairwise_append.1 q.wf.1.2).1⟩
          have p2 : Parts ⟨hi', off w u⟩ t.toList := by
            cases t with
            | none => exact .nil
            | some t =>
              obtain ⟨e8, h9, _⟩ := h6.2.2 t rfl
              refine .one ?_ ?_ ?_ <;> rw [e8] <;> dsimp only <;> omega
          have p := (p1.append p2 (by omega) (by omega)).mono (lo' := off w ('{' :: r)) (hi' := off w u) (by omega) (Nat.le_refl _)
          rw [← eend] at p
          exact p


theorem lArg_var {k : Env} {w : Str} {lb : Parser LBlk} {pb : Parser Parse.Blk} {r : Str} (hi : '$' :: r <:+ w) :
    Tracks (LArg.text w) (fun s a => s <:+ '$' :: r ∧ QArg w (off w ('$' :: r)) (off w s) a) (lArg k w lb ('$' :: r)) (Parse.arg k pb ('$' :: r)) := by
  have hr : r <:+ '$' :: r := List.suffix_cons _ _
  have o1 : off w r = off w ('$' :: r) + 1 := off_add hi (t := ['$']) rfl
  show Tracks _ _ ((lName k w r).map LArg.var) ((opIdent k.cls r).map Parse.Arg.var)
  refine (lName_sim k w r (hr.trans hi)).map ?_
  rintro s t t' h1 ⟨h2, h3, rfl⟩
  have hs := h2.trans hr
  have e0 : off w r - 1 = off w ('$' :: r) := by omega
  have eo : outer w ⟨⟨off w r, off w s⟩, .var⟩ = ⟨off w ('$' :: r), off w s⟩ := by
    unfold outer; dsimp only; rw [e0]
  have st : Stands w (off w ('$' :: r)) (off w s) ⟨⟨off w r, off w s⟩, .var⟩ := by
    have b1 := bd_off hi
    have b2 := bd_off (hs.trans hi)
    have b3 := bd_off (hr.trans hi)
    have tx : ∀ x, Span.str w ⟨off w r, off w s⟩ = some x → ∃ y ∈ written .var x, Span.str w ⟨off w ('$' :: r), off w s⟩ = some y :=
      fun x hx => ⟨_, by simp [written], str_pre (a := ['$']) hi rfl h2 hx⟩
    constructor <;> (try rw [eo]) <;> first | assumption | exact tx | exact Nat.le_refl _ | (dsimp only; omega)
  refine ⟨by simp [LArg.text, h1], hs, ⟨by omega, .one st, ?_, ?_, Nat.le_refl _, ?_, bd_off (hs.trans hi), ?_, True.intro, Nat.le_of_lt h3, True.intro⟩⟩
  · show _ ≤ off w r - 1
    omega
  · show off w r - 1 ≤ off w s
    omega
  · show Bd w (off w r - 1)
    rw [e0]; exact bd_off hi
  · intro n hn
    simp only [LArg.leaves, List.mem_singleton] at hn
    subst hn
    exact ⟨Nat.le_refl _, Nat.le_refl _⟩

theorem lArg_pound {k : Env} {w : Str} {lb : Parser LBlk} {pb : Parser Parse.Blk} {r : Str} (hi : '#' :: r <:+ w) :
    Tracks (LArg.text w) (fun s a => s <:+ '#' :: r ∧ QArg w (off w ('#' :: r)) (off w s) a) (lArg k w lb ('#' :: r)) (Parse.arg k pb ('#' :: r)) := by
  have hr : r <:+ '#' :: r := List.suffix_cons _ _
  have o1 : off w r = off w ('#' :: r) + 1 := off_add hi (t := ['#']) rfl
  simp only [lArg, Parse.arg]
  refine Tracks.bind (Tracks.same (Q := fun s c => r = c ++ s) (fun s c h => ?_)) ?_
  · exact (opIdent_sound (Parse.cut_ok h)).2
  intro s c c' e h
  have e := Option.some.inj e
  subst e
  match c, h with
  | [], h => exact True.intro
  | [ch], h =>
    dsimp only
    by_cases hu : ch.utf8Size = 1
    · rw [if_pos hu, if_pos hu]
      have hs : s <:+ r := ⟨[ch], h.symm⟩
      have ep : poundTag (mkTag w r [ch]) = mkTag w ('#' :: r) ['#', ch] := by
        have h1 : size [ch] = 1 := by simp [size, hu]
        have h2 : size ['#', ch] = 2 := by simp [size, hu, show '#'.utf8Size = 1 from rfl]
        unfold poundTag mkTag
        rw [h1, h2, o1]; rfl
      have ew : '#' :: r = ['#', ch] ++ s := by rw [h]; rfl
      rw [ep]
      have hlt : off w ('#' :: r) < off w s := by have := off_le (w := w) hs; omega
      refine ⟨rfl, ?_, hs.trans hr, ?_⟩
      · simp only [LArg.text]
        rw [if_pos (str_mk hi ew)]
      · exact qarg_word (t := mkTag w ('#' :: r) ['#', ch]) hi (hs.trans hr) ⟨hlt, .inl (mk_eq hi ew)⟩ (ty := .pound) (by simp) (by simp) rfl rfl rfl True.intro True.intro
    · rw [if_neg hu, if_neg hu]; exact True.intro
  | a :: b :: c, h => exact True.intro

/-- What `arg` does after the cases which the first character decides. -/
def lArgRest (k : Env) (w : Str) (lb : Parser LBlk) (i : Str) : PR LArg :=
    if Parse.breakonS i then .err
    else
      match lNum k w i with
      | .ok r s => .ok r (.num s)
      | _ =>
        if knownOp k i then
          (ws lb i).bind fun r x => .ok r (.expr (.mk ⟨off w i, off w r⟩ [x] none))
        else (lIdent w i).map .ident

def argRest (k : Env) (pb : Parser Parse.Blk) (i : Str) : PR Parse.Arg :=
    if Parse.breakonS i then .err
    else
      match Parse.num k i with
      | .ok r s => .ok r (.num s)
      | _ =>
        if knownOp k i then (ws pb i).map fun x => .expr (.mk [x] none)
        else (Parse.ident i).map .ident

theorem lArg_rest (k : Env) (w : Str) {lb : Parser LBlk} {pb : Parser Parse.Blk} (h : Sim w (LBlk.text w) (QBlk w) lb pb) {i : Str}
    (hi : i <:+ w) : Tracks (LArg.text w) (fun s a => s <:+ i ∧ QArg w (off w i) (off w s) a)
    (lArgRest k w lb i) (argRest k pb i) := by
  unfold lArgRest argRest
  by_cases hb : Parse.breakonS i = true
  · rw [if_pos hb, if_pos hb]; exact True.intro
  rw [if_neg hb, if_neg hb]
  have other : Tracks (LArg.text w) (fun s a => s <:+ i ∧ QArg w (off w i) (off w s) a)
      (if knownOp k i then (ws lb i).bind fun r x => .ok r (.expr (.mk ⟨off w i, off w r⟩ [x] none)) else (lIdent w i).map .ident)
      (if knownOp k i then (ws pb i).map fun x => .expr (.mk [x] none) else (Parse.ident i).map .ident) := by
    by_cases hk : knownOp k i = true
    · rw [if_pos hk, if_pos hk]
      have hws : Sim w (LBlk.text w) (QBlk w) (ws lb) (ws pb) := h.ws fun lo' lo hi hi' b h1 h2 h3 => h3.mono h1 h2
      have em : ((ws pb i).map fun x => (Parse.Arg.expr (.mk [x] none))) = (ws pb i).bind fun r x => .ok r (.expr (.mk [x] none)) := by
        cases ws pb i <;> rfl
      rw [em]
      refine Tracks.bind (hws i hi) ?_
      intro r b a h1 h2
      have hd := expr_done hi h2.1 (bs := [b]) (as := [a]) (by simp [textBs, h1]) (.one h2.2)
      have q := hd.2
      refine ⟨rfl, by simp [LArg.text, hd.1], h2.1, ?_⟩
      exact ⟨q.lt, q.good, Nat.le_refl _, Nat.le_of_lt q.lt, Nat.le_refl _, bd_off hi, bd_off (h2.1.trans hi), q.good.covers (Nat.le_refl _) (Nat.le_refl _), q.nest, Nat.le_of_lt q.lt, q.wf⟩
    · rw [if_neg hk, if_neg hk]
      refine (lIdent_sim w i hi).map ?_
      intro r t t' h1 h2
      refine ⟨by simp [LArg.text, h1], h2.1, ?_⟩
      exact qarg_word hi h2.1 h2.2 (ty := .ident) (by simp) (by simp) rfl rfl rfl True.intro True.intro
  cases hn : Parse.num k i with
  | ok r s =>
    obtain ⟨e, hne, _⟩ := Parse.num_sound hn
    have el : lNum k w i = .ok r (mkTag w i s) := by unfold lNum; rw [hn]; rfl
    have hs : r <:+ i := ⟨s, e.symm⟩
    have hlt : off w i < off w r := by have := off_add hi e; have := size_pos hne; omega
    rw [el]
    refine ⟨rfl, by simp [LArg.text, str_mk hi e], hs, ?_⟩
    exact qarg_word (t := mkTag w i s) hi hs ⟨hlt, .inl (mk_eq hi e)⟩ (ty := .num) (by simp) (by simp) rfl rfl rfl True.intro True.intro
  | err =>
    have el : lNum k w i = .err := by unfold lNum; rw [hn]; rfl
    rw [el]; exact other
  | fail =>
    have el : lNum k w i = .fail := by unfold lNum; rw [hn]; rfl
    rw [el]; exact other

theorem lArg_sim (k : Env) (w : Str) {lb : Parser LBlk} {pb : Parser Parse.Blk} (h : Sim w (LBlk.text w) (QBlk w) lb pb) :
    Sim w (LArg.text w) (QArg w) (lArg k w lb) (Parse.arg k pb) := by
  intro i hi
  cases i with
  | nil => exact lArg_rest k w h hi
  | cons c r =>
    by_cases h1 : c = '{'
    · subst h1; exact lArg_brace h hi
    by_cases h2 : c = ':'
    · subst h2; exact True.intro
    by_cases h3 : c = '$'
    · subst h3; exact lArg_var hi
    by_cases h4 : c = '#'
    · subst h4; exact lArg_pound hi
    have e1 : lArg k w lb (c :: r) = lArgRest k w lb (c :: r) := by
      unfold lArg
      split
      · rename_i e; cases e; exact absurd rfl h1
      · rename_i e; cases e; exact absurd rfl h2
      · rename_i e; cases e; exact absurd rfl h3
      · rename_i e; cases e; exact absurd rfl h4
      · rfl
    have e2 : Parse.arg k pb (c :: r) = argRest k pb (c :: r) := by
      unfold Parse.arg
      split
      · rename_i e; cases e; exact absurd rfl h1
      · rename_i e; cases e; exact absurd rfl h2
      · rename_i e; cases e; exact absurd rfl h3
      · rename_i e; cases e; exact absurd rfl h4
      · rfl
    rw [e1, e2]
    exact lArg_rest k w h hi

theorem lBlockN_sim (k : Env) (w : Str) (n : Nat) : Sim w (LBlk.text w) (QBlk w) (lBlockN k w n) (Parse.blockN k n) := by
  induction n with
  | zero => intro i hi; exact True.intro
  | succ n ih => exact lBlock_sim k w (lArg_sim k w ih)

end Verif.Tags
