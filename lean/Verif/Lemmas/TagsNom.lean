import Verif.Spec.Tags
import Verif.Props.ParseEnds
/-! Texts by bytes, and parsers which follow each other: one with tags and one with texts. -/
namespace Verif.Tags
open Verif.Nom Verif.File
open Verif.Parse (Env Str ws many0 many1 sepList0 manyLoop)

theorem size_append (a b : Str) : size (a ++ b) = size a + size b := by
  induction a with
  | nil => simp [size]
  | cons c a ih => simp [size, ih]; omega

theorem size_le {r i : Str} (h : r <:+ i) : size r ≤ size i := by
  obtain ⟨t, rfl⟩ := h
  rw [size_append]; omega

theorem utf8_pos (c : Char) : 0 < c.utf8Size := Char.utf8Size_pos c

theorem dropBytes_append (a b : Str) : dropBytes (size a) (a ++ b) = some b := by
  induction a with
  | nil => cases b <;> rfl
  | cons c a ih =>
    have h : size (c :: a) = c.utf8Size + size a := rfl
    have hp := utf8_pos c
    obtain ⟨n, hn⟩ : ∃ n, c.utf8Size + size a = n + 1 := ⟨c.utf8Size + size a - 1, by omega⟩
    rw [h, hn, List.cons_append]
    show (if c.utf8Size ≤ n + 1 then dropBytes (n + 1 - c.utf8Size) (a ++ b) else none) = some b
    rw [if_pos (by omega), show n + 1 - c.utf8Size = size a by omega]
    exact ih

theorem takeBytes_append (a b : Str) : takeBytes (size a) (a ++ b) = some a := by
  induction a with
  | nil => cases b <;> rfl
  | cons c a ih =>
    have h : size (c :: a) = c.utf8Size + size a := rfl
    have hp := utf8_pos c
    obtain ⟨n, hn⟩ : ∃ n, c.utf8Size + size a = n + 1 := ⟨c.utf8Size + size a - 1, by omega⟩
    rw [h, hn, List.cons_append]
    show (if c.utf8Size ≤ n + 1 then (takeBytes (n + 1 - c.utf8Size) (a ++ b)).map (c :: ·) else none) = some (c :: a)
    rw [if_pos (by omega), show n + 1 - c.utf8Size = size a by omega, ih]
    rfl

theorem slice_mid (a t r : Str) : slice (a ++ (t ++ r)) (size a) (size a + size t) = some t := by
  unfold slice
  rw [if_neg (by omega), dropBytes_append, show size a + size t - size a = size t by omega]
  exact takeBytes_append t r

theorem off_add {w i t r : Str} (h : i <:+ w) (e : i = t ++ r) : off w r = off w i + size t := by
  have h1 := size_le h
  have h2 : size i = size t + size r := by rw [e, size_append]
  unfold off; omega

theorem off_le {w i r : Str} (h : r <:+ i) : off w i ≤ off w r := by
  have := size_le h
  unfold off; omega

theorem off_self (w : Str) : off w w = 0 := by unfold off; omega

theorem off_nil (w : Str) : off w [] = size w := by unfold off; simp [size]

theorem off_pre {w i p : Str} (e : w = p ++ i) : off w i = size p := by
  unfold off; rw [e, size_append]; omega

theorem str_mk {w i t r : Str} (h : i <:+ w) (e : i = t ++ r) : (mkTag w i t).str w = some t := by
  obtain ⟨p, rfl⟩ := h
  unfold Span.str mkTag
  rw [off_pre rfl]
  subst e
  exact slice_mid p t r

theorem mk_eq {w i t r : Str} (h : i <:+ w) (e : i = t ++ r) : mkTag w i t = ⟨off w i, off w r⟩ := by
  unfold mkTag; rw [off_add h e]

/-- Between two remaining inputs the text can be sliced. -/
theorem str_between {w i r : Str} (h : i <:+ w) (hr : r <:+ i) :
    ∃ t, i = t ++ r ∧ Span.str w ⟨off w i, off w r⟩ = some t := by
  obtain ⟨t, e⟩ := hr
  refine ⟨t, e.symm, ?_⟩
  have := str_mk h e.symm
  rwa [mk_eq h e.symm] at this

/-- A position between two characters of the line. -/
def Bd (w : Str) (p : Nat) : Prop := ∃ a b, w = a ++ b ∧ size a = p

theorem bd_off {w i : Str} (h : i <:+ w) : Bd w (off w i) := by
  obtain ⟨p, rfl⟩ := h
  exact ⟨p, i, rfl, (off_pre rfl).symm⟩

theorem append_split {a b c d : Str} (h : a ++ b = c ++ d) (hl : size a ≤ size c) : ∃ t, c = a ++ t ∧ b = t ++ d := by
  rcases List.append_eq_append_iff.1 h with ⟨t, h1, h2⟩ | ⟨t, h1, h2⟩
  · exact ⟨t, h1, h2⟩
  · have : size a = size c + size t := by rw [h1, size_append]
    have ht : t = [] := by
      cases t with
      | nil => rfl
      | cons x t =>
        have := utf8_pos x
        have hx : size (x :: t) = x.utf8Size + size t := rfl
        omega
    subst ht
    exact ⟨[], by simpa using h1.symm, by simpa using h2.symm⟩

theorem slice_bd {w : Str} {a b : Nat} (ha : Bd w a) (hb : Bd w b) (h : a ≤ b) :
    ∃ p t r, w = p ++ (t ++ r) ∧ size p = a ∧ size p + size t = b ∧ slice w a b = some t := by
  obtain ⟨p, i, e1, h1⟩ := ha
  obtain ⟨q, r, e2, h2⟩ := hb
  obtain ⟨t, e3, e4⟩ := append_split (e1.symm.trans e2) (by omega)
  refine ⟨p, t, r, by rw [e1, e4], h1, ?_, ?_⟩
  · rw [← h2, e3, size_append]
  · subst e4
    have := slice_mid p t r
    rw [e1, ← h1, ← h2, e3, size_append]
    exact this

/-- One parser follows the other: they succeed together, with the same remaining input, and the text of what one
reads is what the other reads. -/
def Tracks {α β : Type} (f : β → Option α) (Q : Str → β → Prop) : PR β → PR α → Prop
  | .ok r b, .ok s a => r = s ∧ f b = some a ∧ Q r b
  | .err, .err => True
  | .fail, .fail => True
  | _, _ => False

theorem Tracks.ok {α β : Type} {f : β → Option α} {Q : Str → β → Prop} {r : Str} {b : β} {a : α}
    (h1 : f b = some a) (h2 : Q r b) : Tracks f Q (.ok r b) (.ok r a) := ⟨rfl, h1, h2⟩

theorem Tracks.cases {α β : Type} {f : β → Option α} {Q : Str → β → Prop} {x : PR β} {y : PR α}
    (h : Tracks f Q x y) :
    (∃ r b a, x = .ok r b ∧ y = .ok r a ∧ f b = some a ∧ Q r b) ∨ (x = .err ∧ y = .err) ∨ (x = .fail ∧ y = .fail) := by
  cases x <;> cases y <;> simp only [Tracks] at h <;> try contradiction
  · obtain ⟨rfl, h1, h2⟩ := h
    exact .inl ⟨_, _, _, rfl, rfl, h1, h2⟩
  · exact .inr (.inl ⟨rfl, rfl⟩)
  · exact .inr (.inr ⟨rfl, rfl⟩)

theorem Tracks.bind {α β γ δ : Type} {f : β → Option α} {Q : Str → β → Prop} {g : δ → Option γ} {R : Str → δ → Prop}
    {x : PR β} {y : PR α} {F : Str → β → PR δ} {G : Str → α → PR γ} (h : Tracks f Q x y)
    (hF : ∀ r b a, f b = some a → Q r b → Tracks g R (F r b) (G r a)) : Tracks g R (x.bind F) (y.bind G) := by
  rcases h.cases with ⟨r, b, a, rfl, rfl, h1, h2⟩ | ⟨rfl, rfl⟩ | ⟨rfl, rfl⟩
  · exact hF r b a h1 h2
  · exact True.intro
  · exact True.intro

theorem Tracks.map {α β γ δ : Type} {f : β → Option α} {Q : Str → β → Prop} {g : δ → Option γ} {R : Str → δ → Prop}
    {x : PR β} {y : PR α} {F : β → δ} {G : α → γ} (h : Tracks f Q x y)
    (hF : ∀ r b a, f b = some a → Q r b → g (F b) = some (G a) ∧ R r (F b)) : Tracks g R (x.map F) (y.map G) := by
  rcases h.cases with ⟨r, b, a, rfl, rfl, h1, h2⟩ | ⟨rfl, rfl⟩ | ⟨rfl, rfl⟩
  · exact ⟨rfl, hF r b a h1 h2⟩
  · exact True.intro
  · exact True.intro

theorem Tracks.mono {α β : Type} {f : β → Option α} {Q R : Str → β → Prop} {x : PR β} {y : PR α}
    (h : Tracks f Q x y) (hq : ∀ r b, Q r b → R r b) : Tracks f R x y := by
  rcases h.cases with ⟨r, b, a, rfl, rfl, h1, h2⟩ | ⟨rfl, rfl⟩ | ⟨rfl, rfl⟩
  · exact ⟨rfl, h1, hq _ _ h2⟩
  · exact True.intro
  · exact True.intro

/-- The same parser on both sides. -/
theorem Tracks.same {α : Type} {Q : Str → α → Prop} {x : PR α} (h : ∀ r a, x = .ok r a → Q r a) :
    Tracks some Q x x := by
  cases x with
  | ok r a => exact ⟨rfl, rfl, h r a rfl⟩
  | err => exact True.intro
  | fail => exact True.intro

/-- What a parser reads is made into a tag. -/
theorem Tracks.tag {α β : Type} {f : β → Option α} {Q : Str → β → Prop} {x : PR α} {F : α → β}
    (h : ∀ r a, x = .ok r a → f (F a) = some a ∧ Q r (F a)) : Tracks f Q (x.map F) x := by
  cases x with
  | ok r a => exact ⟨rfl, h r a rfl⟩
  | err => exact True.intro
  | fail => exact True.intro

/-- A parser with tags follows one with texts in every part of the line; `Q` is said of where it starts and ends. -/
def Sim {α β : Type} (w : Str) (f : β → Option α) (Q : Nat → Nat → β → Prop) (lp : Parser β) (p : Parser α) : Prop :=
  ∀ i : Str, i <:+ w → Tracks f (fun r b => r <:+ i ∧ Q (off w i) (off w r) b) (lp i) (p i)

theorem skip_suffix (p : Char → Bool) (i : Str) : skip p i <:+ i := List.dropWhile_suffix p

theorem Sim.ws {α β : Type} {w : Str} {f : β → Option α} {Q R : Nat → Nat → β → Prop} {lp : Parser β} {p : Parser α}
    (h : Sim w f Q lp p) (hq : ∀ lo' lo hi hi' b, lo' ≤ lo → hi ≤ hi' → Q lo hi b → R lo' hi' b) :
    Sim w f R (Parse.ws lp) (Parse.ws p) := by
  intro i hi
  unfold Parse.ws
  refine Tracks.bind (h _ ((skip_suffix _ i).trans hi)) ?_
  intro r b a h1 h2
  have s1 : r <:+ i := h2.1.trans (skip_suffix _ i)
  exact ⟨rfl, h1, (skip_suffix _ r).trans s1,
    hq _ _ _ _ b (off_le (skip_suffix _ i)) (off_le (skip_suffix _ r)) h2.2⟩

theorem Sim.cut {α β : Type} {w : Str} {f : β → Option α} {Q : Nat → Nat → β → Prop} {lp : Parser β} {p : Parser α}
    (h : Sim w f Q lp p) : Sim w f Q (cut lp) (cut p) := by
  intro i hi
  unfold Nom.cut
  rcases (h i hi).cases with ⟨r, b, a, h1, h2, h3, h4⟩ | ⟨h1, h2⟩ | ⟨h1, h2⟩
  · rw [h1, h2]; exact ⟨rfl, h3, h4⟩
  · rw [h1, h2]; exact True.intro
  · rw [h1, h2]; exact True.intro

/-- Text of an optional part. -/
def optText {α β : Type} (f : β → Option α) : Option β → Option (Option α)
  | none => some none
  | some b => (f b).map some

theorem Sim.opt {α β : Type} {w : Str} {f : β → Option α} {Q : Nat → Nat → β → Prop} {lp : Parser β} {p : Parser α}
    (h : Sim w f Q lp p) :
    Sim w (optText f) (fun lo hi o => lo ≤ hi ∧ ∀ b, o = some b → Q lo hi b) (opt lp) (opt p) := by
  intro i hi
  unfold Nom.opt
  rcases (h i hi).cases with ⟨r, b, a, h1, h2, h3, h4⟩ | ⟨h1, h2⟩ | ⟨h1, h2⟩
  · rw [h1, h2]
    exact ⟨rfl, by simp [optText, h3], h4.1, off_le h4.1, fun b' e => by cases e; exact h4.2⟩
  · rw [h1, h2]
    exact ⟨rfl, rfl, List.suffix_rfl, Nat.le_refl _, fun b' e => by cases e⟩
  · rw [h1, h2]; exact True.intro

theorem allO_snoc {α β : Type} {f : β → Option α} {bs : List β} {as : List α} {b : β} {a : α}
    (h : allO f bs = some as) (hb : f b = some a) : allO f (bs ++ [b]) = some (as ++ [a]) := by
  induction bs generalizing as with
  | nil => cases h; simp [allO, hb]
  | cons c bs ih =>
    simp only [allO] at h
    cases h1 : f c with
    | none => rw [h1] at h; cases h
    | some x =>
      cases h2 : allO f bs with
      | none => rw [h1, h2] at h; cases h
      | some xs =>
        rw [h1, h2] at h
        cases h
        simp [allO, h1, ih h2]

theorem many_sim {α β : Type} {w : Str} {f : β → Option α} {Q : Nat → Nat → β → Prop} {lp : Parser β} {p : Parser α}
    (h : Sim w f Q lp p) {Inv : Nat → List β → Prop}
    (step : ∀ hi hi' acc b, Inv hi acc → Q hi hi' b → Inv hi' (acc ++ [b])) (n : Nat) :
    ∀ (i : Str) (acc : List β) (acc' : List α), i <:+ w → allO f acc = some acc' → Inv (off w i) acc →
      Tracks (allO f) (fun r bs => r <:+ i ∧ Inv (off w r) bs) (manyLoop lp n i acc) (manyLoop p n i acc') := by
  induction n with
  | zero => intro i acc acc' hi h1 h2; exact True.intro
  | succ n ih =>
    intro i acc acc' hi h1 h2
    simp only [manyLoop]
    rcases (h i hi).cases with ⟨r, b, a, e1, e2, h3, h4⟩ | ⟨e1, e2⟩ | ⟨e1, e2⟩
    · rw [e1, e2]
      dsimp only
      by_cases hl : r.length = i.length
      · rw [if_pos hl, if_pos hl]; exact True.intro
      · rw [if_neg hl, if_neg hl]
        exact (ih r _ _ (h4.1.trans hi) (allO_snoc h1 h3) (step _ _ _ _ h2 h4.2)).mono
          fun s bs hs => ⟨hs.1.trans h4.1, hs.2⟩
    · rw [e1, e2]; exact ⟨rfl, h1, List.suffix_rfl, h2⟩
    · rw [e1, e2]; exact True.intro

theorem sep_sim {α β γ : Type} {w : Str} {f : β → Option α} {Q : Nat → Nat → β → Prop} {sep : Parser γ}
    {lp : Parser β} {p : Parser α} (hs : ∀ i r a, sep i = .ok r a → r <:+ i) (h : Sim w f Q lp p)
    {Inv : Nat → List β → Prop}
    (step : ∀ hi m hi' acc b, Inv hi acc → hi ≤ m → Q m hi' b → Inv hi' (acc ++ [b])) (n : Nat) :
    ∀ (i : Str) (acc : List β) (acc' : List α), i <:+ w → allO f acc = some acc' → Inv (off w i) acc →
      Tracks (allO f) (fun r bs => r <:+ i ∧ Inv (off w r) bs) (sepLoop sep lp n i acc) (sepLoop sep p n i acc') := by
  induction n with
  | zero => intro i acc acc' hi h1 h2; exact ⟨rfl, h1, List.suffix_rfl, h2⟩
  | succ n ih =>
    intro i acc acc' hi h1 h2
    simp only [sepLoop]
    cases hsep : sep i with
    | err => exact ⟨rfl, h1, List.suffix_rfl, h2⟩
    | fail => exact True.intro
    | ok j u =>
      have hj := hs _ _ _ hsep
      dsimp only
      by_cases hl : j.length = i.length
      · rw [if_pos hl, if_pos hl]; exact True.intro
      · rw [if_neg hl, if_neg hl]
        rcases (h j (hj.trans hi)).cases with ⟨r, b, a, e1, e2, h3, h4⟩ | ⟨e1, e2⟩ | ⟨e1, e2⟩
        · rw [e1, e2]
          exact (ih r _ _ (h4.1.trans (hj.trans hi)) (allO_snoc h1 h3) (step _ _ _ _ _ h2 (off_le hj) h4.2)).mono
            fun s bs hs => ⟨hs.1.trans (h4.1.trans hj), hs.2⟩
        · rw [e1, e2]; exact ⟨rfl, h1, List.suffix_rfl, h2⟩
        · rw [e1, e2]; exact True.intro

theorem chr_suffix {c : Char} {i r : Str} {a : Unit} (h : chr c i = .ok r a) : i = c :: r := by
  unfold chr at h
  split at h
  · cases h
  · split at h
    · rename_i e; cases h; rw [e]
    · cases h

theorem sim_chr (w : Str) (c : Char) :
    Sim w some (fun lo hi (_ : Unit) => hi = lo + c.utf8Size) (chr c) (chr c) := by
  intro i hi
  refine Tracks.same ?_
  intro r a h
  have e := chr_suffix h
  refine ⟨⟨[c], e.symm⟩, ?_⟩
  have := off_add hi (t := [c]) e
  simpa [size] using this

theorem sim_tag (w t : Str) : Sim w some (fun lo hi (_ : Unit) => hi = lo + size t) (tag t) (tag t) := by
  intro i hi
  refine Tracks.same ?_
  intro r a h
  have e := tag_ok.1 h
  exact ⟨⟨t, e.symm⟩, off_add hi e⟩

end Verif.Tags
