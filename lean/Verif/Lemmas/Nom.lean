import Verif.Model.Nom
/-! What the `nom` parsers consume. -/
namespace Verif.Nom

/-- The parser returns a suffix of its input, and what it consumed satisfies `P` at each character. -/
def Eats {α : Type} (P : Char → Prop) (p : Parser α) : Prop :=
  ∀ i r a, p i = .ok r a → ∃ u, i = u ++ r ∧ ∀ c ∈ u, P c

theorem Eats.length {α : Type} {P : Char → Prop} {p : Parser α} (h : Eats P p) {i r : List Char} {a : α}
    (hp : p i = .ok r a) : r.length ≤ i.length := by
  obtain ⟨u, rfl, _⟩ := h i r a hp
  simp

theorem PR.bind_ok {α β : Type} {x : PR α} {f : List Char → α → PR β} {r : List Char} {b : β} :
    x.bind f = .ok r b ↔ ∃ i a, x = .ok i a ∧ f i a = .ok r b := by
  cases x with
  | ok i a =>
    simp only [PR.bind, PR.ok.injEq]
    exact ⟨fun h => ⟨_, _, ⟨rfl, rfl⟩, h⟩, fun ⟨_, _, ⟨h1, h2⟩, h⟩ => h1 ▸ h2 ▸ h⟩
  | err => simp [PR.bind]
  | fail => simp [PR.bind]

theorem PR.map_ok {α β : Type} {x : PR α} {f : α → β} {r : List Char} {b : β} :
    x.map f = .ok r b ↔ ∃ a, x = .ok r a ∧ f a = b := by
  cases x with
  | ok i a =>
    simp only [PR.map, PR.ok.injEq]
    exact ⟨fun h => ⟨_, ⟨h.1, rfl⟩, h.2⟩, fun ⟨_, ⟨h1, h2⟩, h⟩ => ⟨h1, h2 ▸ h⟩⟩
  | err => simp [PR.map]
  | fail => simp [PR.map]

theorem eats_chr {P : Char → Prop} (c : Char) (h : P c) : Eats P (chr c) := by
  intro i r a hp
  cases i with
  | nil => simp [chr] at hp
  | cons d i =>
    simp only [chr] at hp
    split at hp
    · rename_i e; cases hp; exact ⟨[d], rfl, by simpa [e] using h⟩
    · cases hp

theorem tag_ok {t i r : List Char} {a : Unit} : tag t i = .ok r a ↔ i = t ++ r := by
  unfold tag
  constructor
  · intro h
    split at h
    · rename_i hp
      cases h
      have := List.isPrefixOf_iff_prefix.1 hp
      obtain ⟨z, rfl⟩ := this
      simp
    · cases h
  · intro h
    subst h
    have : t.isPrefixOf (t ++ r) = true := List.isPrefixOf_iff_prefix.2 ⟨r, rfl⟩
    simp [this]

theorem eats_tag {P : Char → Prop} (t : List Char) (h : ∀ c ∈ t, P c) : Eats P (tag t) := by
  intro i r a hp
  rw [tag_ok] at hp
  exact ⟨t, hp, h⟩

theorem mem_takeWhile (p : Char → Bool) (s : List Char) : ∀ c ∈ s.takeWhile p, p c = true := by
  induction s with
  | nil => simp
  | cons c s ih =>
    by_cases h : p c = true
    · simpa [h] using ih
    · simp [h]

theorem eats_takeWhile1 {P : Char → Prop} (p : Char → Bool) (h : ∀ c, p c = true → P c) :
    Eats P (takeWhile1 p) := by
  intro i r a hp
  unfold takeWhile1 at hp
  split at hp
  · cases hp
  · cases hp
    exact ⟨i.takeWhile p, by simp, fun c hc => h c (mem_takeWhile p i c hc)⟩

theorem eats_takeTill1 {P : Char → Prop} (p : Char → Bool) (h : ∀ c, p c = false → P c) :
    Eats P (takeTill1 p) :=
  eats_takeWhile1 _ fun c hc => h c (by simpa using hc)

theorem Eats.skip {α : Type} {P : Char → Prop} {p : Parser α} (h : Eats P p) (q : Char → Bool)
    (hq : ∀ c, q c = true → P c) : Eats P (fun i => p (skip q i)) := by
  intro i r a hp
  obtain ⟨u, hu, hP⟩ := h _ _ _ hp
  refine ⟨i.takeWhile q ++ u, ?_, ?_⟩
  · rw [List.append_assoc, ← hu]; simp [Nom.skip]
  · intro c hc
    rcases List.mem_append.1 hc with hc | hc
    · exact hq c (mem_takeWhile q i c hc)
    · exact hP c hc

theorem Eats.bind {α β : Type} {P : Char → Prop} {p : Parser α} {f : α → Parser β} (h : Eats P p)
    (hf : ∀ a, Eats P (f a)) : Eats P (fun i => (p i).bind fun i a => f a i) := by
  intro i r b hp
  rw [PR.bind_ok] at hp
  obtain ⟨j, a, h1, h2⟩ := hp
  obtain ⟨u, rfl, hu⟩ := h _ _ _ h1
  obtain ⟨v, rfl, hv⟩ := hf a _ _ _ h2
  exact ⟨u ++ v, by simp, by
    intro c hc
    rcases List.mem_append.1 hc with hc | hc
    · exact hu c hc
    · exact hv c hc⟩

theorem Eats.map {α β : Type} {P : Char → Prop} {p : Parser α} (h : Eats P p) (g : α → β) :
    Eats P (fun i => (p i).map g) := by
  intro i r b hp
  rw [PR.map_ok] at hp
  obtain ⟨a, h1, _⟩ := hp
  exact h _ _ _ h1

theorem Eats.cut {α : Type} {P : Char → Prop} {p : Parser α} (h : Eats P p) : Eats P (cut p) := by
  intro i r a hp
  unfold Nom.cut at hp
  split at hp
  · cases hp
  · exact h _ _ _ hp

theorem eats_sepLoop {α β : Type} {P : Char → Prop} {sep : Parser β} {f : Parser α} (hs : Eats P sep)
    (hf : Eats P f) (n : Nat) : ∀ (acc : List α), Eats P (fun i => sepLoop sep f n i acc) := by
  induction n with
  | zero => intro acc i r a h; simp only [sepLoop] at h; cases h; exact ⟨[], rfl, by simp⟩
  | succ n ih =>
    intro acc i r a h
    simp only [sepLoop] at h
    split at h
    · cases h; exact ⟨[], rfl, by simp⟩
    · cases h
    · rename_i i1 b h1
      split at h
      · cases h
      · split at h
        · cases h; exact ⟨[], rfl, by simp⟩
        · cases h
        · rename_i i2 x h2
          obtain ⟨u, rfl, hu⟩ := hs _ _ _ h1
          obtain ⟨v, rfl, hv⟩ := hf _ _ _ h2
          obtain ⟨w, rfl, hw⟩ := ih _ _ _ _ h
          refine ⟨u ++ v ++ w, by simp, ?_⟩
          intro c hc
          simp only [List.mem_append] at hc
          rcases hc with (hc | hc) | hc
          · exact hu c hc
          · exact hv c hc
          · exact hw c hc

theorem eats_sepList1 {α β : Type} {P : Char → Prop} {sep : Parser β} {f : Parser α} (hs : Eats P sep)
    (hf : Eats P f) : Eats P (sepList1 sep f) := by
  intro i r a h
  unfold sepList1 at h
  rw [PR.bind_ok] at h
  obtain ⟨j, x, h1, h2⟩ := h
  obtain ⟨u, rfl, hu⟩ := hf _ _ _ h1
  obtain ⟨v, rfl, hv⟩ := eats_sepLoop hs hf _ _ _ _ _ h2
  exact ⟨u ++ v, by simp, by
    intro c hc
    rcases List.mem_append.1 hc with hc | hc
    · exact hu c hc
    · exact hv c hc⟩

/-- The fuel of the list loop never runs out: more of it changes nothing. -/
theorem sepLoop_fuel {α β : Type} {P : Char → Prop} {sep : Parser β} {f : Parser α} (hs : Eats P sep)
    (hf : Eats P f) (h0 : sep [] = .err) (n : Nat) : ∀ (m : Nat) (i : List Char) (acc : List α), i.length ≤ n → n ≤ m →
    sepLoop sep f m i acc = sepLoop sep f n i acc := by
  induction n with
  | zero =>
    intro m i acc hi hm
    have : i = [] := List.eq_nil_of_length_eq_zero (by omega)
    subst this
    cases m with
    | zero => rfl
    | succ m => simp only [sepLoop, h0]
  | succ n ih =>
    intro m i acc hi hm
    obtain ⟨m, rfl⟩ : ∃ m', m = m' + 1 := ⟨m - 1, by omega⟩
    simp only [sepLoop]
    split
    · rfl
    · rfl
    · rename_i i1 b h1
      have := hs.length h1
      split
      · rfl
      · split
        · rfl
        · rfl
        · rename_i i2 x h2
          have := hf.length h2
          exact ih _ _ _ (by omega) (by omega)

/-- The parser returns a suffix of its input; what it consumed and its result are related. -/
def Sound {α : Type} (R : List Char → α → Prop) (p : Parser α) : Prop :=
  ∀ i r a, p i = .ok r a → ∃ u, i = u ++ r ∧ R u a

theorem sound_takeWhile1 (p : Char → Bool) :
    Sound (fun u a => u = a ∧ a ≠ [] ∧ ∀ c ∈ a, p c = true) (takeWhile1 p) := by
  intro i r a hp
  unfold takeWhile1 at hp
  split at hp
  · cases hp
  · rename_i hne
    cases hp
    exact ⟨i.takeWhile p, by simp, rfl, by simpa using hne, mem_takeWhile p i⟩

end Verif.Nom
