import Verif.Spec.ParseErr
import Verif.Lemmas.ParseErr
/-! The errors of the parser fit the text. -/
namespace Verif.ParseErr
open Verif Verif.Nom Verif.File Verif.Parse

variable {α β : Type}

/-- A result leaves a rest of `i`; its errors fit `w`. -/
structure Good (w i : Str) (Q : Str → α → Prop) (x : XR α) : Prop where
  done : ∀ r a, x = .ok r a → r <:+ i ∧ Q r a
  bad : ∀ e, x = .err e ∨ x = .fail e → Fits w e

/-- Any result. -/
abbrev Any : Str → α → Prop := fun _ _ => True

variable {w i : Str} {Q P : Str → α → Prop}

theorem Good.pure {r : Str} {a : α} (h : r <:+ i) (q : Q r a) : Good w i Q (.ok r a) :=
  ⟨fun _ _ e => by injection e with e1 e2; rw [← e1, ← e2]; exact ⟨h, q⟩, fun e h => by rcases h with h | h <;> cases h⟩

theorem Good.err {e : Err} (h : Fits w e) : Good w i Q (.err e : XR α) :=
  ⟨fun _ _ e => (by cases e), fun e' h' => by rcases h' with h' | h' <;> cases h'; exact h⟩

theorem Good.fail {e : Err} (h : Fits w e) : Good w i Q (.fail e : XR α) :=
  ⟨fun _ _ e => (by cases e), fun e' h' => by rcases h' with h' | h' <;> cases h'; exact h⟩

theorem Good.imp {x : XR α} (h : Good w i Q x) (f : ∀ r a, r <:+ i → Q r a → P r a) : Good w i P x :=
  ⟨fun r a e => ⟨(h.done r a e).1, f r a (h.done r a e).1 (h.done r a e).2⟩, h.bad⟩

theorem Good.any {x : XR α} (h : Good w i Q x) : Good w i Any x := h.imp fun _ _ _ _ => trivial

theorem Good.bind {R : Str → β → Prop} {x : XR α} {f : Str → α → XR β} (h : Good w i Q x)
    (hf : ∀ r a, r <:+ i → Q r a → Good w r R (f r a)) : Good w i R (x.bind f) := by
  cases x with
  | ok r a =>
    obtain ⟨h1, h2⟩ := h.done r a rfl
    have g := hf r a h1 h2
    exact ⟨fun s b e => ⟨((g.done s b e).1).trans h1, (g.done s b e).2⟩, g.bad⟩
  | err e => exact .err (h.bad e (.inl rfl))
  | fail e => exact .fail (h.bad e (.inr rfl))

theorem Good.map {R : Str → β → Prop} {x : XR α} {f : α → β} (h : Good w i Q x) (hf : ∀ r a, r <:+ i → Q r a → R r (f a)) :
    Good w i R (x.map f) := by
  cases x with
  | ok r a => exact .pure (h.done r a rfl).1 (hf r a (h.done r a rfl).1 (h.done r a rfl).2)
  | err e => exact .err (h.bad e (.inl rfl))
  | fail e => exact .fail (h.bad e (.inr rfl))

theorem Good.mapErr {x : XR α} {f : Err → Err} (h : Good w i Q x) (hf : ∀ e, (x = .err e ∨ x = .fail e) → Fits w (f e)) : Good w i Q (x.mapErr f) := by
  cases x with
  | ok r a => exact h
  | err e => exact .err (hf e (.inl rfl))
  | fail e => exact .fail (hf e (.inr rfl))

theorem Good.cut {p : XParser α} (h : Good w i Q (p i)) : Good w i Q (xcut p i) := by
  unfold xcut
  cases hp : p i with
  | ok r a => rw [hp] at h; exact h
  | err e => rw [hp] at h; exact .fail (h.bad e (.inl rfl))
  | fail e => rw [hp] at h; exact h

theorem Good.opt {p : XParser α} (h : Good w i Q (p i)) : Good w i Any (xopt p i) := by
  unfold xopt
  cases hp : p i with
  | ok r a => rw [hp] at h; exact .pure (h.done r a rfl).1 trivial
  | err e => exact .pure (List.suffix_refl _) trivial
  | fail e => rw [hp] at h; exact .fail (h.bad e (.inr rfl))

/-! ### Errors -/

theorem here_in {note : String} (h : i <:+ w) : InText w (.here i note) := by
  obtain ⟨x, e⟩ := h
  exact ⟨⟨x, by rw [← e]; show _ = x ++ (i ++ []); rw [List.append_nil]⟩, .inr rfl⟩

theorem piece_in {t r : Str} {note : String} (h : t ++ r <:+ w) (ht : t ≠ []) : InText w ⟨t, r, note⟩ := by
  obtain ⟨x, e⟩ := h
  exact ⟨⟨x, e.symm⟩, .inl ht⟩

theorem one_fits {p : Piece} {x : Expecting} (h : InText w p) (h1 : x ≠ .path) (h2 : x ≠ .speclit) (h3 : x ≠ .type) : Fits w ⟨[p], x⟩ :=
  ⟨fun e => (by cases e), fun q hq => (by rw [List.mem_singleton.1 hq]; exact h), fun e => absurd e h1, fun e => absurd e h2, fun e => absurd e h3⟩

theorem plain_fits {p : Piece} (h : InText w p) : Fits w ⟨[p], .none⟩ :=
  one_fits h (fun e => by cases e) (fun e => by cases e) (fun e => by cases e)

theorem kind_fits (h : i <:+ w) : Fits w (.kind i) := plain_fits (here_in h)

theorem char_fits {c : Char} (h : i <:+ w) : Fits w (.char i c) := plain_fits (here_in h)

theorem behind_also {c : Char} {e : Err} {note : String} (h : Behind w c e) : Behind w c (e.also i note) := by
  obtain ⟨x, p, ps, h1, h2⟩ := h
  exact ⟨x, p, ps ++ [.here i note], by show e.locs ++ _ = _; rw [h1]; rfl, h2⟩

theorem also_fits {e : Err} {note : String} (h : Fits w e) (hi : i <:+ w) : Fits w (e.also i note) where
  named := fun hn => by
    have : e.locs ++ [Piece.here i note] = [] := hn
    simp at this
  within := fun p hp => by
    rcases List.mem_append.1 (show p ∈ e.locs ++ [Piece.here i note] from hp) with hp | hp
    · exact h.within p hp
    · rw [List.mem_singleton.1 hp]; exact here_in hi
  path := h.path
  lit := fun e => behind_also (h.lit e)
  type := fun e => (h.type e).imp behind_also id

theorem Good.context {p : XParser α} {note : String} (hi : i <:+ w) (h : Good w i Q (p i)) : Good w i Q (ParseErr.context note p i) :=
  h.mapErr fun e he => also_fits (h.bad e he) hi

/-- Setting what is expected. -/
theorem set_fits {e : Err} {x : Expecting} (h : Fits w e) (h1 : x = .path → ∃ y, w = y ++ ['/']) (h2 : x = .speclit → Behind w '#' e)
    (h3 : x = .type → Behind w ':' e ∨ Defines w) : Fits w (if e.exp = .none then { e with exp := x } else e) := by
  split
  · exact ⟨h.named, h.within, h1, h2, h3⟩
  · exact h

theorem Good.expecting {p : XParser α} {x : Expecting} (h : Good w i Q (p i)) (h1 : x ≠ .path) (h2 : x ≠ .speclit) (h3 : x ≠ .type) :
    Good w i Q (ParseErr.expecting x p i) :=
  h.mapErr fun e he => set_fits (h.bad e he) (fun e => absurd e h1) (fun e => absurd e h2) (fun e => absurd e h3)

/-! ### nom -/

/-- A good parser on every rest of the text. -/
def Goods (w : Str) (Q : Str → Str → α → Prop) (p : XParser α) : Prop := ∀ i, i <:+ w → Good w i (Q i) (p i)

theorem drop_suffix' (n : Nat) (i : Str) : i.drop n <:+ i := List.drop_suffix n i

theorem tag_good (t : Str) : Goods w (fun i r _ => i = t ++ r) (xtag t) := fun i hi => by
  unfold xtag
  split
  · rename_i h
    rw [List.isPrefixOf_iff_prefix] at h
    obtain ⟨s, rfl⟩ := h
    rw [List.drop_left]
    exact .pure ⟨t, rfl⟩ rfl
  · exact .err (kind_fits hi)

theorem chr_good (c : Char) : Goods w (fun i r _ => i = c :: r) (xchr c) := fun i hi => by
  unfold xchr
  cases i with
  | nil => exact .err (char_fits hi)
  | cons d r =>
    dsimp only
    split
    · rename_i h; exact .pure ⟨[d], rfl⟩ (by rw [h])
    · exact .err (char_fits hi)

theorem takeWhile_good (f : Char → Bool) : Goods w (fun i r t => t ≠ [] ∧ i = t ++ r) (xtakeWhile1 f) := fun i hi => by
  unfold xtakeWhile1
  split
  · exact .err (kind_fits hi)
  · rename_i h
    exact .pure (List.dropWhile_suffix _) ⟨fun e => h (by rw [e]; rfl), List.takeWhile_append_dropWhile.symm⟩

theorem skip_suf (hi : i <:+ w) : skip isMulti i <:+ w := (List.dropWhile_suffix isMulti).trans hi

theorem ws_good {p : XParser α} (h : Goods w (fun _ => Any) p) : Goods w (fun _ => Any) (xws p) := fun i hi => by
  have g := h _ (skip_suf hi)
  have h2 : Good w (skip isMulti i) Any ((p (skip isMulti i)).bind fun r a => .ok (skip isMulti r) a) :=
    g.bind fun r a _ _ => .pure (List.dropWhile_suffix isMulti) trivial
  exact ⟨fun r a e => ⟨((h2.done r a e).1).trans (List.dropWhile_suffix isMulti), trivial⟩, h2.bad⟩

theorem ws_keeps {S : α → Prop} {p : XParser α} (h : Goods w (fun _ _ a => S a) p) : Goods w (fun _ _ a => S a) (xws p) := fun i hi => by
  have g := h _ (skip_suf hi)
  have h2 : Good w (skip isMulti i) (fun _ a => S a) ((p (skip isMulti i)).bind fun r a => .ok (skip isMulti r) a) :=
    g.bind fun r a _ q => .pure (List.dropWhile_suffix isMulti) q
  exact ⟨fun r a e => ⟨((h2.done r a e).1).trans (List.dropWhile_suffix isMulti), (h2.done r a e).2⟩, h2.bad⟩

theorem sepLoop_good {sep : XParser β} {f : XParser α} (hs : Goods w (fun _ => Any) sep) (hf : Goods w (fun _ => Any) f) :
    ∀ n i acc, i <:+ w → Good w i Any (xsepLoop sep f n i acc)
  | 0, i, acc, _ => .pure (List.suffix_refl _) trivial
  | n + 1, i, acc, hi => by
    unfold xsepLoop
    have g := hs i hi
    cases hx : sep i with
    | err e => exact .pure (List.suffix_refl _) trivial
    | fail e => exact .fail (g.bad e (.inr hx))
    | ok i1 b =>
      have h1 := (g.done i1 b hx).1
      dsimp only
      split
      · exact .err (kind_fits (h1.trans hi))
      · have g2 := hf i1 (h1.trans hi)
        cases hy : f i1 with
        | err e => exact .pure (List.suffix_refl _) trivial
        | fail e => exact .fail (g2.bad e (.inr hy))
        | ok i2 a =>
          have h2 := (g2.done i2 a hy).1
          have g3 := sepLoop_good hs hf n i2 (acc ++ [a]) ((h2.trans h1).trans hi)
          exact ⟨fun r a e => ⟨((g3.done r a e).1).trans (h2.trans h1), trivial⟩, g3.bad⟩

theorem sepList0_good {sep : XParser β} {f : XParser α} (hs : Goods w (fun _ => Any) sep) (hf : Goods w (fun _ => Any) f) :
    Goods w (fun _ => Any) (xsepList0 sep f) := fun i hi => by
  unfold xsepList0
  have g2 := hf i hi
  cases hy : f i with
  | err e => exact .pure (List.suffix_refl _) trivial
  | fail e => exact .fail (g2.bad e (.inr hy))
  | ok i2 a =>
    have h2 := (g2.done i2 a hy).1
    have g3 := sepLoop_good hs hf i2.length i2 [a] (h2.trans hi)
    exact ⟨fun r a e => ⟨((g3.done r a e).1).trans h2, trivial⟩, g3.bad⟩

theorem manyLoop_good {S : α → Prop} {f : XParser α} (hf : Goods w (fun _ _ a => S a) f) :
    ∀ n i acc, i <:+ w → (∀ a ∈ acc, S a) → Good w i (fun _ as => ∀ a ∈ as, S a) (xmanyLoop f n i acc)
  | 0, i, acc, hi, _ => .err (kind_fits hi)
  | n + 1, i, acc, hi, ha => by
    unfold xmanyLoop
    have g := hf i hi
    cases hx : f i with
    | err e => exact .pure (List.suffix_refl _) ha
    | fail e => exact .fail (g.bad e (.inr hx))
    | ok i1 a =>
      obtain ⟨h1, hs⟩ := g.done i1 a hx
      dsimp only
      split
      · exact .err (kind_fits hi)
      · have g3 := manyLoop_good hf n i1 (acc ++ [a]) (h1.trans hi) (fun b hb => by
          rcases List.mem_append.1 hb with hb | hb
          · exact ha b hb
          · rw [List.mem_singleton.1 hb]; exact hs)
        exact ⟨fun r a e => ⟨((g3.done r a e).1).trans h1, (g3.done r a e).2⟩, g3.bad⟩

theorem many0_good {S : α → Prop} {f : XParser α} (hf : Goods w (fun _ _ a => S a) f) : Goods w (fun _ _ as => ∀ a ∈ as, S a) (xmany0 f) :=
  fun i hi => manyLoop_good hf _ i [] hi (fun a ha => by cases ha)

theorem many1_good {f : XParser α} (hf : Goods w (fun _ => Any) f) : Goods w (fun _ => Any) (xmany1 f) := fun i hi => by
  have g : Good w i Any (firstErr i (f i)) := by
    have g := hf i hi
    cases hx : f i with
    | ok r a => rw [hx] at g; exact g
    | err e => exact .err (also_fits (g.bad e (.inl hx)) hi)
    | fail e => rw [hx] at g; exact g
  refine g.bind fun r a hr _ => ?_
  exact (manyLoop_good (S := fun _ => True) hf _ r [a] (hr.trans hi) (fun _ _ => trivial)).any

/-! ### Expressions -/

variable (k : Env)

theorem opIdent_good (c : Classes) : Goods w (fun i r t => t ≠ [] ∧ i = t ++ r) (xopIdent c) := fun i hi => by
  cases i with
  | nil => exact .err (plain_fits (here_in hi))
  | cons d s =>
    rw [xopIdent]
    split
    · exact .err (plain_fits (piece_in hi (by simp)))
    · exact takeWhile_good _ _ hi

theorem opIdent_any (c : Classes) : Goods w (fun _ => Any) (xopIdent c) := fun i hi => (opIdent_good c i hi).any

/-- The error of a missing identifier is at the place of the identifier. -/
theorem opIdent_at {c : Classes} {e : Err} (h : xopIdent c i = .err e ∨ xopIdent c i = .fail e) :
    ∃ p ps, e.locs = p :: ps ∧ p.text ++ p.after = i := by
  cases i with
  | nil => rcases h with h | h <;> cases h; exact ⟨_, _, rfl, rfl⟩
  | cons d s =>
    rw [xopIdent] at h
    split at h
    · rcases h with h | h <;> cases h
      exact ⟨_, _, rfl, rfl⟩
    · unfold xtakeWhile1 at h
      split at h
      · rcases h with h | h <;> cases h
        exact ⟨_, _, rfl, List.append_nil _⟩
      · rcases h with h | h <;> cases h

theorem optTy_good : Goods w (fun _ => Any) (xoptTy k) := fun i hi => by
  unfold xoptTy
  refine Good.opt (Q := Any) (Good.bind (chr_good ':' i hi) fun r _ hr q => ?_)
  have hr' := hr.trans hi
  have h1 : Good w r Any (xcut (context "expecting a type identifier" (xopIdent k.cls)) r) := (Good.context hr' (opIdent_any k.cls r hr')).cut
  refine h1.mapErr fun e he => set_fits (h1.bad e he) (fun e => by cases e) (fun e => by cases e) (fun _ => .inl ?_)
  have h2 : ∃ e', (xopIdent k.cls r = .err e' ∨ xopIdent k.cls r = .fail e') ∧ e = e'.also r "expecting a type identifier" := by
    unfold xcut context at he
    cases hx : xopIdent k.cls r with
    | ok s a => rw [hx] at he; rcases he with he | he <;> cases he
    | err e' => rw [hx] at he; rcases he with he | he <;> cases he; exact ⟨e', .inl rfl, rfl⟩
    | fail e' => rw [hx] at he; rcases he with he | he <;> cases he; exact ⟨e', .inr rfl, rfl⟩
  obtain ⟨e', h3, rfl⟩ := h2
  obtain ⟨p, ps, h4, h5⟩ := opIdent_at h3
  obtain ⟨x, ex⟩ := hi
  exact behind_also ⟨x, p, ps, h4, by rw [h5, ← ex, q]⟩

theorem opTail_good : ∀ n i acc, Good w i Any (xopTail k n i acc)
  | 0, i, acc => .pure (List.suffix_refl _) trivial
  | n + 1, i, acc => by
    unfold xopTail
    have h : ∀ r t, ((xtag [':', ':'] i).bind fun i _ => xopIdent k.cls i) = .ok r t → r <:+ i := fun r t h => by
      have g : Good i i Any ((xtag [':', ':'] i).bind fun i _ => xopIdent k.cls i) :=
        (tag_good (w := i) [':', ':'] i (List.suffix_refl _)).bind fun r _ hr _ => opIdent_any k.cls r hr
      exact (g.done r t h).1
    split
    · rename_i r t hx
      have g := opTail_good n r (acc ++ [':', ':'] ++ t)
      exact ⟨fun s a e => ⟨((g.done s a e).1).trans (h r t hx), trivial⟩, g.bad⟩
    · exact .pure (List.suffix_refl _) trivial

theorem opName_good : Goods w (fun i r _ => r.length < i.length) (xopName k) := fun i hi => by
  refine (opIdent_good k.cls i hi).bind fun r t _ ht => (opTail_good k r.length r t).imp fun s a hs _ => ?_
  have h1 := hs.length_le
  have h2 : 0 < t.length := List.length_pos_iff.2 ht.1
  show s.length < i.length
  rw [ht.2, List.length_append]
  omega

theorem component_app (x : Str) : (component x).1 ++ (component x).2 = x := by
  unfold component
  split
  · exact List.append_nil _
  · exact List.takeWhile_append_dropWhile

theorem component_ne {x : Str} (h : x ≠ []) : (component x).1 ≠ [] := by
  unfold component
  split
  · exact h
  · rename_i hn; exact hn

theorem pathEnd_good (r : Str) (x : α) (hi : i <:+ w) (hr : r <:+ w) : Good w r Any (xpathEnd i r x) := by
  unfold xpathEnd
  split
  · refine .err ⟨fun e => (by cases e), fun q hq => ?_, fun _ => ?_, fun e => (by cases e), fun e => (by cases e)⟩
    · rw [List.mem_singleton.1 hq]; exact here_in hi
    · obtain ⟨x, e⟩ := hr; exact ⟨x, e.symm⟩
  · rename_i s hs
    refine .err (plain_fits (piece_in ?_ (component_ne ?_)))
    · rw [component_app]; exact (List.suffix_cons _ _).trans hr
    · intro e; exact hs (by rw [e])
  · exact .pure (List.suffix_refl _) trivial

theorem path_good : Goods w (fun i r _ => r.length < i.length) (xpath k) := fun i hi => by
  unfold xpath
  dsimp only
  have key : ∀ j, j <:+ i → Good w j (fun r (_ : Bool × List Str) => r.length < i.length)
      ((xsepList1 (xtag ['/']) (xopName k) j).bind fun r cs => xpathEnd i r ((tag ['/'] i).isOk, cs)) := fun j hj => by
    unfold xsepList1
    have h1 : Good w j (fun r _ => r.length < j.length)
        ((xopName k j).bind fun i a => xsepLoop (xtag ['/']) (xopName k) i.length i [a]) := by
      refine (opName_good k j (hj.trans hi)).bind fun r t hr ht => ?_
      refine (sepLoop_good (fun i hi => (tag_good ['/'] i hi).any) (fun i hi => (opName_good k i hi).any) _ r [t]
        ((hr.trans hj).trans hi)).imp fun s _ hs _ => ?_
      have := hs.length_le
      omega
    refine h1.bind fun r cs hr hl => (pathEnd_good r _ hi ((hr.trans hj).trans hi)).imp fun s _ hs _ => ?_
    have := hs.length_le
    have := hj.length_le
    omega
  split
  · have g := key (i.drop 1) (List.drop_suffix 1 i)
    exact ⟨fun r a e => ⟨((g.done r a e).1).trans (List.drop_suffix 1 i), (g.done r a e).2⟩, g.bad⟩
  · exact key i (List.suffix_refl _)

theorem specOp_less {r t : Str} (h : specOp i = .ok r t) : r <:+ i ∧ r.length < i.length := by
  unfold specOp at h
  split at h
  · rename_i t' ht
    cases h
    refine ⟨List.drop_suffix _ _, ?_⟩
    have h1 := List.find?_some ht
    have h2 := List.mem_of_find?_eq_some ht
    have h3 : t ≠ [] := by rintro rfl; revert h2; decide
    rw [List.isPrefixOf_iff_prefix] at h1
    have := h1.length_le
    have := List.length_pos_iff.2 h3
    rw [List.length_drop]
    omega
  · cases h

theorem op_good : Goods w (fun i r _ => r.length < i.length) (xop k) := fun i hi => by
  unfold xop
  split
  · rename_i r t h
    exact .pure (specOp_less h).1 (specOp_less h).2
  · exact (path_good k i hi).map fun r a _ q => q

theorem op_any : Goods w (fun _ => Any) (xop k) := fun i hi => (op_good k i hi).any

theorem wrapped_good (q : Char) : Goods w (fun _ => Any) (xwrapped q) := fun i hi => by
  refine (chr_good q i hi).bind fun r _ hr _ => ?_
  have hd : r.dropWhile (· != q) <:+ r := List.dropWhile_suffix _
  have g := (chr_good (w := w) q (r.dropWhile (· != q)) ((hd.trans hr).trans hi)).any
  have g2 : Good w (r.dropWhile (· != q)) Any ((xchr q (r.dropWhile (· != q))).map fun _ => r.takeWhile (· != q)) := g.map fun _ _ _ _ => trivial
  exact ⟨fun s a e => ⟨((g2.done s a e).1).trans hd, trivial⟩, g2.bad⟩

theorem ident_good : Goods w (fun _ => Any) xident := fun i hi => by
  unfold xident
  split
  · exact .fail (plain_fits (here_in hi))
  · exact wrapped_good _ _ hi
  · exact wrapped_good _ _ hi
  · exact (takeWhile_good _ _ hi).any

theorem flag_good : Goods w (fun _ => Any) xflag := fun i hi =>
  (tag_good _ i hi).bind fun r _ hr _ => ident_good r (hr.trans hi)

theorem infixRhs_good : Goods w (fun _ => Any) (xinfixRhs k) := fun i hi => by
  unfold xinfixRhs
  split
  · exact ident_good _ hi
  · exact ident_good _ hi
  · exact opIdent_any _ _ hi

theorem infixLoop_good : ∀ n i a, i <:+ w → Good w i Any (xinfixLoop k n i a)
  | 0, i, a, _ => .pure (List.suffix_refl _) trivial
  | n + 1, i, a, hi => by
    unfold xinfixLoop
    split
    · rename_i r
      have hr : r <:+ '.' :: r := List.suffix_cons _ _
      have g : Good w r Any ((xcut (xinfixRhs k) r).bind fun i rhs => (xoptTy k i).bind fun i out => xinfixLoop k n i (.dot a rhs out)) :=
        ((infixRhs_good k r (hr.trans hi)).cut).bind fun s rhs hs _ =>
          (optTy_good k s ((hs.trans hr).trans hi)).bind fun u out hu _ =>
            infixLoop_good n u _ (((hu.trans hs).trans hr).trans hi)
      exact ⟨fun s a e => ⟨((g.done s a e).1).trans hr, trivial⟩, g.bad⟩
    · exact .pure (List.suffix_refl _) trivial

theorem term_good {p : XParser Arg} (h : Goods w (fun _ => Any) p) : Goods w (fun _ => Any) (xterm k p) := fun i hi => by
  unfold xterm
  split
  · exact (flag_good i hi).map fun _ _ _ _ => trivial
  · exact Good.map (Q := Any) ((h i hi).bind fun r a hr _ => infixLoop_good k _ r a (hr.trans hi)) fun _ _ _ _ => trivial

theorem block_good {p : XParser Arg} (h : Goods w (fun _ => Any) p) : Goods w (fun _ => Any) (xblock k p) := fun i hi => by
  unfold xblock
  refine (optTy_good k i hi).bind fun i inTy h1 _ => ?_
  have hi := h1.trans hi
  have g : Good w i Any (xop k (skip isMulti i)) := by
    have g := op_any k (skip isMulti i) (skip_suf hi)
    exact ⟨fun s a e => ⟨((g.done s a e).1).trans (List.dropWhile_suffix isMulti), trivial⟩, g.bad⟩
  refine (Good.expecting (p := fun i => xop k (skip isMulti i)) g (fun e => by cases e) (fun e => by cases e) (fun e => by cases e)).bind fun i o h1 _ => ?_
  have hi := h1.trans hi
  refine (optTy_good k i hi).bind fun i out h1 _ => ?_
  exact (many0_good (S := fun _ => True) (ws_good (term_good k h)) i (h1.trans hi)).map fun _ _ _ _ => trivial

theorem blk_good {p : XParser Blk} (h : Goods w (fun _ => Any) p) : Goods w (fun _ => Any) (xblk p) :=
  fun i hi => Good.context hi (ws_good h i hi)

theorem pipes_good {p : XParser Blk} (h : Goods w (fun _ => Any) p) : ∀ n i acc, i <:+ w → Good w i Any (xpipes p n i acc)
  | 0, i, acc, _ => .pure (List.suffix_refl _) trivial
  | n + 1, i, acc, hi => by
    unfold xpipes
    split
    · rename_i r
      have hr : r <:+ '|' :: r := List.suffix_cons _ _
      have g : Good w r Any ((p r).bind fun i x => xpipes p n i (acc ++ [x])) :=
        (h r (hr.trans hi)).bind fun s x hs _ => pipes_good h n s _ ((hs.trans hr).trans hi)
      exact ⟨fun s a e => ⟨((g.done s a e).1).trans hr, trivial⟩, g.bad⟩
    · exact .pure (List.suffix_refl _) trivial

theorem expr_good {p : XParser Blk} (h : Goods w (fun _ => Any) p) : Goods w (fun _ => Any) (xexpr p) := fun i hi => by
  unfold xexpr
  refine (blk_good h i hi).bind fun i x h1 _ => ?_
  have hi := h1.trans hi
  refine (pipes_good (blk_good h) _ i [x] hi).bind fun i bs h1 _ => ?_
  have hi := h1.trans hi
  have g := blk_good h i hi
  split
  · rename_i r y hx
    exact .pure (g.done r y hx).1 trivial
  · exact .pure (List.suffix_refl _) trivial

theorem pound_good {r c : Str} (hw : '#' :: (c ++ r) <:+ w) (hc : c ≠ []) : Good w r Any (xpound r c) := by
  have hf : ∀ n, Fits w ⟨[⟨c, r, n⟩], .speclit⟩ := fun n => by
    obtain ⟨x, e⟩ := hw
    refine ⟨fun e => (by cases e), fun q hq => ?_, fun e => (by cases e), fun _ => ⟨x, _, [], rfl, e.symm⟩, fun e => (by cases e)⟩
    rw [List.mem_singleton.1 hq]
    exact piece_in (⟨x ++ ['#'], by rw [← e]; simp⟩) hc
  unfold xpound
  split
  · split
    · exact .pure (List.suffix_refl _) trivial
    · exact .fail (hf _)
  · exact .fail (hf _)

theorem word_good {p : XParser Blk} (h : Goods w (fun _ => Any) p) : Goods w (fun _ => Any) (xword k p) := fun i hi => by
  unfold xword
  split
  · rename_i r s hx
    refine .pure ?_ trivial
    unfold num takeTill1 at hx
    have g := takeWhile_good (w := i) (fun c => !breakon c) i (List.suffix_refl _)
    have e := is_takeWhile1 (fun c => !breakon c) i
    cases hy : xtakeWhile1 (fun c => !breakon c) i with
    | ok r' s' =>
      rw [← e, hy] at hx
      change (if k.isNum s' then PR.ok r' s' else PR.err) = .ok r s at hx
      split at hx
      · cases hx; exact (g.done _ _ hy).1
      · cases hx
    | err e' => rw [← e, hy] at hx; cases hx
    | fail e' => rw [← e, hy] at hx; cases hx
  · split
    · exact (ws_good h i hi).map fun _ _ _ _ => trivial
    · exact (ident_good i hi).map fun _ _ _ _ => trivial

theorem tail_good {d : Char} {r : Str} {x : XR α} (g : Good w r Any x) : Good w (d :: r) Any x :=
  ⟨fun s a e => ⟨((g.done s a e).1).trans (List.suffix_cons _ _), trivial⟩, g.bad⟩

theorem arg_good {p : XParser Blk} (h : Goods w (fun _ => Any) p) : Goods w (fun _ => Any) (xarg k p) := fun i hi => by
  unfold xarg
  split
  · rename_i r
    have hr : r <:+ w := (List.suffix_cons _ _).trans hi
    split
    · rename_i hb
      refine .fail (one_fits (piece_in ?_ (by simp)) (fun e => by cases e) (fun e => by cases e) (fun e => by cases e))
      have e : '{' :: (r.takeWhile isMulti ++ ['}']) ++ (skip isMulti r).drop 1 = '{' :: r := by
        have h1 : r.takeWhile isMulti ++ skip isMulti r = r := List.takeWhile_append_dropWhile
        cases hs : skip isMulti r with
        | nil => rw [hs] at hb; cases hb
        | cons d s =>
          rw [hs] at hb h1
          injection hb with hb
          rw [hb] at h1
          conv => rhs; rw [← h1]
          simp
      rw [e]
      exact hi
    · refine tail_good ?_
      refine Good.bind (Q := Any) (Good.cut ?_) fun i e h1 _ => (optTy_good k i (h1.trans hr)).map fun _ _ _ _ => trivial
      refine (ws_good (expr_good h) r hr).bind fun i e h1 _ => ?_
      exact Good.map (Q := Any) ((chr_good '}' i (h1.trans hr)).any.expecting (fun e => by cases e) (fun e => by cases e) (fun e => by cases e))
        fun _ _ _ _ => trivial
  · rename_i r
    refine .fail (one_fits (piece_in ?_ (by simp)) (fun e => by cases e) (fun e => by cases e) (fun e => by cases e))
    have e : ':' :: r.takeWhile (fun c => !breakon c) ++ r.dropWhile (fun c => !breakon c) = ':' :: r := by
      rw [List.cons_append, List.takeWhile_append_dropWhile]
    rw [e]
    exact hi
  · rename_i r
    exact tail_good ((opIdent_any k.cls r ((List.suffix_cons _ _).trans hi)).map fun _ _ _ _ => trivial)
  · rename_i r
    have hr : r <:+ w := (List.suffix_cons _ _).trans hi
    refine tail_good ?_
    have g := opIdent_good (w := w) k.cls r hr
    have g2 : Good w r (fun s t => t ≠ [] ∧ r = t ++ s) (expecting .speclit (xopIdent k.cls) r) := by
      refine g.mapErr fun e he => set_fits (g.bad e he) (fun e => by cases e) (fun _ => ?_) (fun e => by cases e)
      obtain ⟨p, ps, h1, h2⟩ := opIdent_at he
      obtain ⟨x, ex⟩ := hi
      exact ⟨x, p, ps, h1, by rw [h2, ex]⟩
    refine (g2.cut).bind fun s c _ hc => pound_good ?_ hc.1
    rw [← hc.2]
    exact hi
  · split
    · exact .err (kind_fits hi)
    · exact word_good k h i hi

theorem blockN_good : ∀ n, Goods w (fun _ => Any) (xblockN k n)
  | 0 => fun _ hi => .err (kind_fits hi)
  | n + 1 => block_good k (arg_good k (blockN_good n))

theorem lastBrace_suf {r : Str} : ∀ {i s : Str}, lastBrace r i = some s → '}' :: s <:+ i
  | [], s, h => by cases h
  | c :: i, s, h => by
    unfold lastBrace at h
    split at h
    · cases hl : lastBrace r i with
      | some s' =>
        rw [hl] at h
        have e : s' = s := by injection h
        exact ((e ▸ lastBrace_suf hl : '}' :: s <:+ i)).trans (List.suffix_cons _ _)
      | none =>
        rw [hl] at h
        change (if c = '}' then some i else none) = some s at h
        split at h
        · rename_i hc; cases h; rw [hc]; exact List.suffix_refl _
        · cases h
    · cases h

theorem trailing_fits {r : Str} (hi : i <:+ w) (hr : r <:+ i) : Fits w (trailing i r) := by
  refine ⟨fun e => (by cases e), fun p hp => ?_, fun e => (by cases e), fun e => (by cases e), fun e => (by cases e)⟩
  rcases List.mem_cons.1 hp with e | hp
  · rw [e]; exact here_in (hr.trans hi)
  · obtain ⟨s, hs, e⟩ := List.mem_map.1 hp
    rw [← e]
    exact piece_in ((lastBrace_suf (Option.mem_toList.1 hs)).trans hi) (by simp)

theorem noTrailing_good {p : XParser α} (h : Goods w (fun _ => Any) p) : Goods w (fun _ => Any) (xnoTrailing p) := fun i hi => by
  unfold xnoTrailing
  refine (h i hi).bind fun r a hr _ => ?_
  split
  · exact .pure (List.nil_suffix) trivial
  · exact .fail (trailing_fits hi hr)

theorem expression_good : Goods w (fun _ => Any) (xexpression k) := fun i hi => noTrailing_good (expr_good (blockN_good k _)) i hi

/-! ### Definitions -/

theorem defOp_good : Goods w (fun _ => Any) (xdefOp k) := fun i hi => by
  unfold xdefOp
  have g : Good w (skip isMulti i) Any ((xtag ['d', 'e', 'f', ' '] (skip isMulti i)).bind fun i _ => (xop k i).bind fun r o => nameOf i r o) := by
    refine (tag_good _ _ (skip_suf hi)).bind fun j _ hj _ => ?_
    have hj' := hj.trans (skip_suf hi)
    refine (op_good k j hj').bind fun r o hr hl => ?_
    cases o with
    | single t => exact .pure (List.dropWhile_suffix isMulti) trivial
    | path b cs =>
      refine .fail (plain_fits (piece_in ?_ ?_))
      · obtain ⟨x, e⟩ := hr
        have : j.take (j.length - r.length) ++ r = j := by
          rw [← e, List.length_append, Nat.add_sub_cancel, List.take_left]
        rw [this]
        exact hj'
      · intro e
        have := congrArg List.length e
        rw [List.length_take, List.length_nil] at this
        omega
  exact ⟨fun s a e => ⟨((g.done s a e).1).trans (List.dropWhile_suffix isMulti), trivial⟩, g.bad⟩

theorem defParam_good : Goods w (fun _ _ p => p.1.name ≠ [] ∧ p.1.name ++ p.2 <:+ w) (xdefParam k) := fun i hi => by
  unfold xdefParam
  refine (opIdent_good k.cls i hi).bind fun r t hr ht => ?_
  have hw : t ++ r <:+ w := by rw [← ht.2]; exact hi
  split
  · rename_i s
    have hs : s <:+ ':' :: s := List.suffix_cons _ _
    have g : Good w s (fun _ (p : Param × Str) => p.1.name ≠ [] ∧ p.1.name ++ p.2 <:+ w)
        ((xopIdent k.cls s).map fun u => (⟨t, some u⟩, ':' :: s)) :=
      (opIdent_any k.cls s ((hs.trans hr).trans hi)).map fun _ _ _ _ => ⟨ht.1, hw⟩
    exact ⟨fun s a e => ⟨((g.done s a e).1).trans hs, (g.done s a e).2⟩, g.bad⟩
  · exact .pure (List.suffix_refl _) ⟨ht.1, hw⟩

theorem repeated_mem : ∀ {seen : List Str} {ps : List (Param × Str)} {p : Param × Str}, repeated seen ps = some p → p ∈ ps
  | _, [], _, h => by cases h
  | seen, q :: ps, p, h => by
    unfold repeated at h
    split at h
    · cases h; exact List.mem_cons_self ..
    · exact List.mem_cons_of_mem _ (repeated_mem h)

theorem defParams_good : Goods w (fun _ => Any) (xdefParams k) := fun i hi => by
  unfold xdefParams
  refine (chr_good '(' i hi).bind fun i _ h1 _ => ?_
  have hi := h1.trans hi
  refine (many0_good (ws_keeps (defParam_good k)) i hi).bind fun i ps h1 hps => ?_
  have hi := h1.trans hi
  refine (chr_good ')' i hi).bind fun i _ h1 _ => ?_
  unfold distinct
  split
  · exact .pure (List.suffix_refl _) trivial
  · rename_i p hp
    obtain ⟨h2, h3⟩ := hps p (repeated_mem hp)
    exact .err (plain_fits (piece_in h3 h2))

theorem definitionImpl_good (hd : Defines w) : Goods w (fun _ => Any) (xdefinitionImpl k) := fun i hi => by
  unfold xdefinitionImpl
  dsimp only
  refine (defOp_good k i hi).bind fun i name h1 _ => ?_
  have hi := h1.trans hi
  refine (ws_good (fun i hi => (opIdent_any k.cls i hi).opt) i hi).bind fun i inTy h1 _ => ?_
  have hi := h1.trans hi
  have g := defParams_good (w := w) k i hi
  have g2 : Good w i Any (expecting (typeNext inTy) (xdefParams k) i) := by
    refine g.mapErr fun e he => set_fits (g.bad e he) (fun e => ?_) (fun e => ?_) (fun _ => .inr hd)
    · unfold typeNext at e; split at e <;> cases e
    · unfold typeNext at e; split at e <;> cases e
  refine g2.bind fun i ps h1 _ => ?_
  have hi := h1.trans hi
  refine Good.map (Q := Any) (noTrailing_good (ws_good ?_) i hi) fun _ _ _ _ => trivial
  intro i hi
  refine (chr_good '{' i hi).bind fun i _ h1 _ => ?_
  have hi := h1.trans hi
  refine (ws_good (expr_good (blockN_good k _)) i hi).bind fun i e h1 _ => ?_
  exact (chr_good '}' i (h1.trans hi)).map fun _ _ _ _ => trivial

theorem deftyField_good : Goods w (fun _ => Any) (xdeftyField k) := fun i hi => by
  unfold xdeftyField
  refine (opIdent_any k.cls i hi).bind fun i name h1 _ => ?_
  have hi := h1.trans hi
  refine (Good.context hi (chr_good ':' i hi)).cut.bind fun i _ h1 _ => ?_
  have hi := h1.trans hi
  refine (Good.context hi (opIdent_any k.cls i hi)).cut.bind fun i ty h1 _ => ?_
  have hi := h1.trans hi
  cases i with
  | nil => exact .pure (List.suffix_refl _) trivial
  | cons d r =>
  split
  · rename_i r' e
    injection e with e1 e2
    subst e2
    have hr : r <:+ w := (List.suffix_cons _ _).trans hi
    refine tail_good (Good.map (Q := Any) (Good.cut ?_) fun _ _ _ _ => trivial)
    refine (many1_good (ws_good (opIdent_any k.cls)) r hr).bind fun i ps h1 _ => ?_
    exact (ws_good (fun i hi => (chr_good '>' i hi).any) i (h1.trans hr)).map fun _ _ _ _ => trivial
  · exact .pure (List.suffix_refl _) trivial

theorem deftyFields_good : Goods w (fun _ => Any) (xdeftyFields k) := fun i hi => by
  unfold xdeftyFields
  refine (chr_good '{' i hi).bind fun i _ h1 _ => ?_
  have hi := h1.trans hi
  refine (many0_good (S := fun _ => True) (ws_good (deftyField_good k)) i hi).bind fun i fs h1 _ => ?_
  exact (chr_good '}' i (h1.trans hi)).map fun _ _ _ _ => trivial

theorem deftyVariant_good : Goods w (fun _ => Any) (xdeftyVariant k) := fun i hi => by
  unfold xdeftyVariant
  refine (ws_good (opIdent_any k.cls) i hi).bind fun i name h1 _ => ?_
  exact Good.map (Q := Any) ((ws_good (deftyFields_good k) i (h1.trans hi)).opt) fun _ _ _ _ => trivial

theorem deftyBody_good : Goods w (fun _ => Any) (xdeftyBody k) := fun i hi => by
  unfold xdeftyBody
  split
  · rename_i r u hx
    have hr : r <:+ i := by
      have e := is_ws (is_tag [':', ':']) i
      have g := ws_good (w := i) (p := xtag [':', ':']) (fun i hi => (tag_good _ i hi).any) i (List.suffix_refl _)
      rw [← e] at hx
      cases hy : xws (xtag [':', ':']) i with
      | ok r' a => rw [hy] at hx; cases hx; exact (g.done _ _ hy).1
      | err e => rw [hy] at hx; cases hx
      | fail e => rw [hy] at hx; cases hx
    have g : Good w r Any ((xsepList0 (xws (xchr '|')) (xws (xdeftyVariant k)) r).map TyBody.sum) :=
      (sepList0_good (ws_good (fun i hi => (chr_good '|' i hi).any)) (ws_good (deftyVariant_good k)) r (hr.trans hi)).map fun _ _ _ _ => trivial
    exact ⟨fun s a e => ⟨((g.done s a e).1).trans hr, trivial⟩, g.bad⟩
  · exact (deftyFields_good k i hi).map fun _ _ _ _ => trivial

theorem definitionType_good : Goods w (fun _ => Any) (xdefinitionType k) := fun i hi => by
  unfold xdefinitionType
  refine (ws_good (p := fun i => (xtag ['d', 'e', 'f', '-', 't', 'y', ' '] i).bind fun i _ => xopIdent k.cls i)
    (fun i hi => (tag_good _ i hi).bind fun r _ hr _ => opIdent_any k.cls r (hr.trans hi)) i hi).bind fun i name h1 _ => ?_
  have hi := h1.trans hi
  refine (deftyBody_good k i hi).bind fun i ty h1 _ => ?_
  split
  · exact .pure (List.suffix_refl _) trivial
  · exact .err (kind_fits (skip_suf (h1.trans hi)))

/-- Every error of the parser fits the text. -/
theorem parse_good (w : Str) : Good w w Any (xparse k w) := by
  unfold xparse
  split
  · rename_i h
    rw [List.isPrefixOf_iff_prefix] at h
    obtain ⟨x, e⟩ := h
    exact (definitionImpl_good k ⟨x, e.symm⟩ w (List.suffix_refl _)).map fun _ _ _ _ => trivial
  · split
    · exact (definitionType_good k w (List.suffix_refl _)).map fun _ _ _ _ => trivial
    · exact (expression_good k w (List.suffix_refl _)).map fun _ _ _ _ => trivial

end Verif.ParseErr
