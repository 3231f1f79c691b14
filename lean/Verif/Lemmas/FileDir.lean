import Verif.Lemmas.Nom
import Verif.Lemmas.FileLoop
/-! The directive parsers accept only the directive grammar. -/
namespace Verif.File
open Verif.Nom

theorem takeWhile_all (p : Char → Bool) (s : List Char) (h : ∀ c ∈ s, p c = true) : s.takeWhile p = s := by
  induction s with
  | nil => rfl
  | cons c s ih => simp [h c (by simp), ih fun d hd => h d (by simp [hd])]

theorem sound_sepLoop {α β : Type} {S : List Char → Prop} {R : List Char → α → Prop} {sep : Parser β}
    {f : Parser α} (hs : Sound (fun u _ => S u) sep) (hf : Sound R f) (n : Nat) :
    ∀ (i r : List Char) (acc as : List α), sepLoop sep f n i acc = .ok r as →
      ∃ u bs, i = u ++ r ∧ as = acc ++ bs ∧ Tail S R u bs := by
  induction n with
  | zero =>
    intro i r acc as h
    simp only [sepLoop] at h; cases h
    exact ⟨[], [], rfl, by simp, .nil⟩
  | succ n ih =>
    intro i r acc as h
    simp only [sepLoop] at h
    split at h
    · cases h; exact ⟨[], [], rfl, by simp, .nil⟩
    · cases h
    · rename_i i1 b h1
      split at h
      · cases h
      · split at h
        · cases h; exact ⟨[], [], rfl, by simp, .nil⟩
        · cases h
        · rename_i i2 x h2
          obtain ⟨u, rfl, hu⟩ := hs _ _ _ h1
          obtain ⟨v, rfl, hv⟩ := hf _ _ _ h2
          obtain ⟨w, bs, rfl, rfl, hw⟩ := ih _ _ _ _ h
          exact ⟨u ++ v ++ w, x :: bs, by simp, by simp, .cons hu hv hw⟩

theorem sound_sepList1 {α β : Type} {S : List Char → Prop} {R : List Char → α → Prop} {sep : Parser β}
    {f : Parser α} (hs : Sound (fun u _ => S u) sep) (hf : Sound R f) :
    Sound (SepBy S R) (sepList1 sep f) := by
  intro i r a h
  unfold sepList1 at h
  rw [PR.bind_ok] at h
  obtain ⟨j, x, h1, h2⟩ := h
  obtain ⟨u, rfl, hu⟩ := hf _ _ _ h1
  obtain ⟨v, bs, rfl, rfl, hv⟩ := sound_sepLoop hs hf _ _ _ _ _ h2
  exact ⟨u ++ v, by simp, u, x, v, bs, rfl, by simp, hu, hv⟩

theorem chr_ok {c : Char} {i r : List Char} {a : Unit} : chr c i = .ok r a ↔ i = c :: r := by
  cases i with
  | nil => simp [chr]
  | cons d i =>
    simp only [chr]
    split
    · rename_i h; simp [h]
    · rename_i h; simp [h]

theorem spaces_skip (i : List Char) : ∃ w, Spaces w ∧ i = w ++ skip isSpace i := by
  refine ⟨i.takeWhile isSpace, ?_, by simp [skip]⟩
  intro c hc
  have := Nom.mem_takeWhile isSpace i c hc
  simpa [isSpace] using this

theorem sound_space1 : Sound (fun u _ => Spaces1 u) space1 := by
  intro i r a h
  obtain ⟨u, h1, rfl, h3, h4⟩ := sound_takeWhile1 _ _ _ _ h
  exact ⟨u, h1, h3, fun c hc => by simpa [isSpace] using h4 c hc⟩

theorem sound_glob : Sound (fun u g => u = g ∧ GlobText g) glob := by
  intro i r a h
  obtain ⟨u, h1, rfl, h3, h4⟩ := sound_takeWhile1 _ _ _ _ h
  refine ⟨u, h1, rfl, h3, fun c hc => ?_⟩
  have := h4 c hc
  simpa using this

theorem sound_skip {α : Type} {R : List Char → α → Prop} {p : Parser α} (h : Sound R p) :
    Sound (fun s a => ∃ w t, Spaces w ∧ s = w ++ t ∧ R t a) (fun i => p (skip isSpace i)) := by
  intro i r a hp
  obtain ⟨w, hw, hi⟩ := spaces_skip i
  obtain ⟨u, hu, hR⟩ := h _ _ _ hp
  refine ⟨w ++ u, ?_, w, u, hw, rfl, hR⟩
  rw [List.append_assoc, ← hu]; exact hi

theorem sound_exports : Sound (fun s gs => ∃ t w', Spaces w' ∧ s = ['('] ++ t ++ w' ++ [')'] ∧
    SepBy Spaces1 (fun s g => ∃ w, Spaces w ∧ s = w ++ g ∧ GlobText g) t gs) exports := by
  intro i r gs h
  unfold exports at h
  rw [PR.bind_ok] at h
  obtain ⟨i1, _, h1, h⟩ := h
  rw [PR.bind_ok] at h
  obtain ⟨i2, x, h2, h⟩ := h
  rw [PR.map_ok] at h
  obtain ⟨_, h3, rfl⟩ := h
  rw [chr_ok] at h1 h3
  obtain ⟨w, hw, hi⟩ := spaces_skip i2
  have hg : Sound (fun s g => ∃ w, Spaces w ∧ s = w ++ g ∧ GlobText g)
      (fun i => glob (skip isSpace i)) := by
    intro i r a hp
    obtain ⟨u, hu, w, t, hw, rfl, rfl, hg⟩ := sound_skip sound_glob _ _ _ hp
    exact ⟨_, hu, w, hw, rfl, hg⟩
  obtain ⟨u, rfl, hu⟩ := sound_sepList1 sound_space1 hg _ _ _ h2
  refine ⟨['('] ++ u ++ w ++ [')'], ?_, u, w, hw, rfl, hu⟩
  rw [h1, hi, h3]; simp

theorem opIdent_ok (k : Classes) {i r x : List Char} (h : opIdent k i = .ok r x) :
    i = x ++ r ∧ (∃ c cs, x = c :: cs ∧ k.alpha c = true) ∧ (∀ c ∈ x, k.ident c = true) ∧
      ∀ c, r.head? = some c → k.ident c = false := by
  cases i with
  | nil => simp [opIdent] at h
  | cons c cs =>
    simp only [opIdent] at h
    by_cases ha : k.alpha c = true
    · simp only [ha, Bool.not_true, Bool.false_eq_true, if_false] at h
      unfold takeWhile1 at h
      split at h
      · cases h
      · rename_i hne
        cases h
        refine ⟨by simp, ?_, Nom.mem_takeWhile _ _, ?_⟩
        · by_cases hc : k.ident c = true
          · exact ⟨c, cs.takeWhile k.ident, by simp [hc], ha⟩
          · simp [hc] at hne
        · intro d hd
          have := List.head?_dropWhile_not k.ident (c :: cs)
          rw [hd] at this
          simpa using this
    · simp [ha] at h

theorem importPath_ok (k : Classes) (ps : List (List Char)) : ∀ (r : List Char) (xs : List (List Char)),
    importPath k ps = .ok r xs → Each (Component k) ps xs := by
  induction ps with
  | nil => intro r xs h; simp only [importPath] at h; cases h; exact .nil
  | cons p ps ih =>
    intro r xs h
    simp only [importPath] at h
    rw [PR.bind_ok] at h
    obtain ⟨j, x, h1, h⟩ := h
    rw [PR.map_ok] at h
    obtain ⟨ys, h2, rfl⟩ := h
    refine .cons ?_ (ih _ _ h2)
    split at h1
    · rename_i hp; cases h1; exact Or.inl ⟨hp, rfl⟩
    · rename_i hp
      obtain ⟨h3, h4, h5, h6⟩ := opIdent_ok k h1
      exact Or.inr ⟨hp, j, h3, h4, h5, h6⟩

theorem importPrefix_ok (i : List Char) : ∃ pre, i = pre ++ (importPrefix i).1 ∧
    (pre = ['/', '/'] ∧ (importPrefix i).2 = .plugins ∨ pre = ['/'] ∧ (importPrefix i).2 = .root ∨
      pre = [] ∧ (importPrefix i).2 = .none) := by
  unfold importPrefix
  split
  · exact ⟨['/', '/'], by simp⟩
  · exact ⟨['/'], by simp⟩
  · exact ⟨[], by simp⟩

theorem tail_mem {α : Type} {S : List Char → Prop} {R : List Char → α → Prop} {t : List Char} {as : List α}
    (h : Tail S R t as) : ∀ a ∈ as, ∃ s, R s a := by
  induction h with
  | nil => simp
  | cons h1 h2 h3 ih => 
    intro a ha
    rcases List.mem_cons.1 ha with rfl | ha
    · exact ⟨_, h2⟩
    · exact ih a ha

theorem sepBy_mem {α : Type} {S : List Char → Prop} {R : List Char → α → Prop} {t : List Char} {as : List α}
    (h : SepBy S R t as) : as ≠ [] ∧ ∀ a ∈ as, ∃ s, R s a := by
  obtain ⟨s, a, t', as', rfl, rfl, h1, h2⟩ := h
  refine ⟨by simp, ?_⟩
  intro b hb
  rcases List.mem_cons.1 hb with rfl | hb
  · exact ⟨_, h1⟩
  · exact tail_mem h2 b hb

theorem sound_import (k : Classes) : Sound (ImportText k) (import_ k) := by
  intro i r x h
  obtain ⟨pre, hpre, hkind⟩ := importPrefix_ok i
  unfold import_ at h
  simp only at h
  rw [PR.bind_ok] at h
  obtain ⟨i1, path, h1, h⟩ := h
  rw [PR.bind_ok] at h
  obtain ⟨i2, g, h2, h⟩ := h
  rw [PR.bind_ok] at h
  obtain ⟨i3, ps, h3, h⟩ := h
  cases h
  have hc : Sound (fun s a => s = a ∧ CompText s) (takeTill1 fun c => isWs c || c == ')' || c == '/') := by
    intro i r a h
    obtain ⟨u, h1, rfl, h3, h4⟩ := sound_takeWhile1 _ _ _ _ h
    refine ⟨u, h1, rfl, ⟨h3, fun c hc => ?_⟩, fun hc => ?_⟩
    · have := h4 c hc
      simp at this
      exact ⟨this.1.1, this.1.2⟩
    · have := h4 _ hc
      simp at this
  have hsep : Sound (fun u _ => u = ['/']) (chr '/') := by
    intro i r a h
    rw [chr_ok] at h
    exact ⟨['/'], h, rfl⟩
  obtain ⟨u, hu, hs⟩ := sound_sepList1 hsep hc _ _ _ h1
  obtain ⟨hne, hmem⟩ := sepBy_mem hs
  have hlast : path.getLast?.getD [] = path.getLast hne := by
    rw [List.getLast?_eq_some_getLast hne]; rfl
  obtain ⟨s0, rfl, hct⟩ := hmem _ (List.getLast_mem hne)
  have hg : g = path.getLast hne := by
    rw [hlast] at h2
    unfold glob takeTill1 takeWhile1 at h2
    have : ∀ c ∈ path.getLast hne, (!(isWs c || c == ')')) = true := by
      intro c hc; have := hct.1.2 c hc; simp [this.1, this.2]
    rw [takeWhile_all _ _ this] at h2
    split at h2
    · cases h2
    · cases h2; rfl
  refine ⟨pre ++ u, ?_, pre, u, path.dropLast, rfl, hkind, ?_, importPath_ok k _ _ _ h3⟩
  · rw [List.append_assoc, ← hu]; exact hpre
  · simp only [hg, List.dropLast_concat_getLast]; exact hs

theorem sound_imports (k : Classes) : Sound (fun s is => ∃ t w', Spaces w' ∧ s = ['('] ++ t ++ w' ++ [')'] ∧
    SepBy Spaces1 (fun s i => ∃ w t, Spaces w ∧ s = w ++ t ∧ ImportText k t i) t is) (imports k) := by
  intro i r gs h
  unfold imports at h
  rw [PR.bind_ok] at h
  obtain ⟨i1, _, h1, h⟩ := h
  rw [PR.bind_ok] at h
  obtain ⟨i2, x, h2, h⟩ := h
  rw [PR.map_ok] at h
  obtain ⟨_, h3, rfl⟩ := h
  rw [chr_ok] at h1 h3
  obtain ⟨w, hw, hi⟩ := spaces_skip i2
  obtain ⟨u, rfl, hu⟩ := sound_sepList1 sound_space1 (sound_skip (sound_import k)) _ _ _ h2
  refine ⟨['('] ++ u ++ w ++ [')'], ?_, u, w, hw, rfl, hu⟩
  rw [h1, hi, h3]; simp

theorem sound_directive (k : Classes) : Sound (DirectiveText k) (directive k) := by
  intro i r d h
  obtain ⟨w, hw, hi⟩ := spaces_skip i
  unfold directive at h
  simp only at h
  split at h
  · rename_i r' _ h1
    cases h
    rw [tag_ok] at h1
    exact ⟨w ++ "no-parallelise".toList, by rw [List.append_assoc, ← h1]; exact hi, w, hw, rfl⟩
  split at h
  · rename_i r' _ h1
    cases h
    rw [tag_ok] at h1
    exact ⟨w ++ "fail-fast".toList, by rw [List.append_assoc, ← h1]; exact hi, w, hw, rfl⟩
  split at h
  · rename_i r' _ h1
    rw [tag_ok] at h1
    rw [PR.map_ok] at h
    obtain ⟨is, h2, rfl⟩ := h
    obtain ⟨u, rfl, t, w', hw', rfl, hs⟩ := sound_imports k _ _ _ h2
    refine ⟨w ++ "import(".toList ++ t ++ w' ++ [')'], ?_, w, t, w', hw, hw', rfl, hs⟩
    rw [hi, h1]; simp
  split at h
  · rename_i r' _ h1
    rw [tag_ok] at h1
    rw [PR.map_ok] at h
    obtain ⟨is, h2, rfl⟩ := h
    obtain ⟨u, rfl, t, w', hw', rfl, hs⟩ := sound_exports _ _ _ h2
    refine ⟨w ++ "export(".toList ++ t ++ w' ++ [')'], ?_, w, t, w', hw, hw', rfl, hs⟩
    rw [hi, h1]; simp
  · cases h

/-! ### One line at a time -/

abbrev NoNl (c : Char) : Prop := c ≠ '\n'

theorem noNl_space (c : Char) (h : isSpace c = true) : NoNl c := by
  rintro rfl; exact absurd h (by decide)

theorem eats_space1 : Eats NoNl space1 := eats_takeWhile1 _ noNl_space

theorem eats_glob : Eats NoNl glob := eats_takeTill1 _ fun c hc => by
  rintro rfl; exact absurd hc (by decide)

theorem eats_exports : Eats NoNl exports :=
  (eats_chr '(' (by decide)).bind fun _ =>
    (eats_sepList1 eats_space1 (eats_glob.skip _ noNl_space)).bind fun _ =>
      ((eats_chr ')' (by decide)).skip _ noNl_space).map _

theorem eats_import (k : Classes) : Eats NoNl (import_ k) := by
  intro i r x h
  obtain ⟨pre, hpre, hkind⟩ := importPrefix_ok i
  unfold import_ at h
  simp only at h
  rw [PR.bind_ok] at h
  obtain ⟨i1, path, h1, h⟩ := h
  rw [PR.bind_ok] at h
  obtain ⟨i2, g, h2, h⟩ := h
  rw [PR.bind_ok] at h
  obtain ⟨i3, ps, h3, h⟩ := h
  cases h
  have hc : Eats NoNl (takeTill1 fun c => isWs c || c == ')' || c == '/') :=
    eats_takeTill1 _ fun c hc => by rintro rfl; exact absurd hc (by decide)
  obtain ⟨u, hu, hn⟩ := eats_sepList1 (eats_chr '/' (by decide)) hc _ _ _ h1
  refine ⟨pre ++ u, by rw [List.append_assoc, ← hu]; exact hpre, ?_⟩
  intro c hc
  rcases List.mem_append.1 hc with hc | hc
  · rcases hkind with ⟨rfl, _⟩ | ⟨rfl, _⟩ | ⟨rfl, _⟩
    · simp at hc; subst hc; decide
    · simp at hc; subst hc; decide
    · simp at hc
  · exact hn c hc

theorem eats_imports (k : Classes) : Eats NoNl (imports k) :=
  (eats_chr '(' (by decide)).bind fun _ =>
    (eats_sepList1 eats_space1 ((eats_import k).skip _ noNl_space)).bind fun _ =>
      ((eats_chr ')' (by decide)).skip _ noNl_space).map _

def directiveBody (k : Classes) : Parser Directive := fun i =>
  match tag "no-parallelise".toList i with
  | .ok r _ => .ok r .noParallelise
  | _ => match tag "fail-fast".toList i with
    | .ok r _ => .ok r .failFast
    | _ => match tag "import".toList i with
      | .ok r _ => (imports k r).map .import_
      | _ => match tag "export".toList i with
        | .ok r _ => (exports r).map .export_
        | _ => .err

theorem eats_directive (k : Classes) : Eats NoNl (directive k) := by
  have : directive k = fun i => directiveBody k (skip isSpace i) := rfl
  rw [this]
  refine Eats.skip (p := directiveBody k) ?_ _ noNl_space
  intro i r d h
  unfold directiveBody at h
  split at h
  · rename_i h1; cases h; exact eats_tag _ (by decide) _ _ _ h1
  split at h
  · rename_i h1; cases h; exact eats_tag _ (by decide) _ _ _ h1
  split at h
  · rename_i r' _ h1
    exact ((eats_tag "import".toList (by decide)).bind (P := NoNl) fun _ =>
      (eats_imports k).map Directive.import_) i r d (by simp only [h1, PR.bind]; exact h)
  split at h
  · rename_i r' _ h1
    exact ((eats_tag "export".toList (by decide)).bind (P := NoNl) fun _ =>
      eats_exports.map Directive.export_) i r d (by simp only [h1, PR.bind]; exact h)
  · cases h

theorem lineEnding_ok {i r : List Char} {a : Unit} (h : lineEnding i = .ok r a) :
    i = '\n' :: r ∨ i = '\r' :: '\n' :: r := by
  unfold lineEnding at h
  split at h
  · cases h; exact Or.inl rfl
  · cases h; exact Or.inr rfl
  · cases h

theorem cut_ok {α : Type} {p : Parser α} {i r : List Char} {a : α} (h : cut p i = .ok r a) :
    p i = .ok r a := by
  unfold cut at h
  split at h
  · cases h
  · exact h

theorem directiveLine_sound (k : Classes) : Sound (DirectiveLine k)
    (fun i => (directiveLine k i).bind fun i ds => (cut lineEnding i).map fun _ => ds) := by
  intro i r ds h
  simp only at h
  rw [PR.bind_ok] at h
  obtain ⟨i3, ds', h, h4⟩ := h
  rw [PR.map_ok] at h4
  obtain ⟨_, h4, rfl⟩ := h4
  unfold directiveLine at h
  rw [PR.bind_ok] at h
  obtain ⟨i1, _, h1, h⟩ := h
  rw [PR.bind_ok] at h
  obtain ⟨i2, ds'', h2, h⟩ := h
  rw [PR.map_ok] at h
  obtain ⟨_, h3, rfl⟩ := h
  rw [chr_ok] at h1
  have h3 := cut_ok h3
  rw [chr_ok] at h3
  obtain ⟨w', hw', hi2⟩ := spaces_skip i2
  obtain ⟨t, ht, hs⟩ := sound_sepList1 sound_space1 (sound_directive k) _ _ _ h2
  obtain ⟨t', ht', hn⟩ := eats_sepList1 eats_space1 (eats_directive k) _ _ _ h2
  have : t = t' := List.append_cancel_right (ht.symm.trans ht')
  subst this
  have hi : i = i.takeWhile isWs ++ trimStart i := by simp [trimStart]
  have he : ∃ e, (e = ['\n'] ∨ e = ['\r', '\n']) ∧ i3 = e ++ r := by
    rcases lineEnding_ok (cut_ok h4) with h | h
    · exact ⟨_, Or.inl rfl, h⟩
    · exact ⟨_, Or.inr rfl, h⟩
  obtain ⟨e, he, hi3⟩ := he
  refine ⟨_, ?_, i.takeWhile isWs, t, w', e, Nom.mem_takeWhile _ _, hw', he, rfl,
    fun h => hn _ h rfl, hs⟩
  calc i = i.takeWhile isWs ++ trimStart i := hi
    _ = _ := by rw [h1, ht, hi2, h3, hi3]; simp [List.append_assoc]

theorem directives_ok (k : Classes) (n : Nat) : ∀ (i r : List Char) (ds0 ds : List Directive),
    directives k n i ds0 = some (ds, r) →
    ∃ u es, i = u ++ r ∧ ds = ds0 ++ es ∧ DirectiveLines k u es := by
  induction n with
  | zero =>
    intro i r ds0 ds h
    simp only [directives] at h; cases h
    exact ⟨[], [], rfl, by simp, .nil⟩
  | succ n ih =>
    intro i r ds0 ds h
    simp only [directives] at h
    split at h
    · rename_i r' new h1
      obtain ⟨u, es, rfl, rfl, hu⟩ := ih _ _ _ _ h
      have : ∃ v, i = v ++ (u ++ r) ∧ DirectiveLine k v new := by
        unfold opt at h1
        split at h1
        · rename_i h2; cases h1; exact directiveLine_sound k _ _ _ h2
        · cases h1
        · cases h1
      obtain ⟨v, rfl, hv⟩ := this
      exact ⟨v ++ u, new ++ es, by simp, by simp, .cons hv hu⟩
    · rename_i h1
      cases h
      have : r = i := by
        unfold opt at h1
        split at h1
        · cases h1
        · cases h1; rfl
        · cases h1
      exact ⟨[], [], by simp [this], by simp, .nil⟩
    · cases h

/-- The directive loop stops only where no directive line follows; its fuel does not run out. -/
theorem directives_stop (k : Classes) (n : Nat) : ∀ (i r : List Char) (ds0 ds : List Directive),
    i.length < n → directives k n i ds0 = some (ds, r) → directiveLine k r = .err := by
  induction n with
  | zero => intro i r ds0 ds h; omega
  | succ n ih =>
    intro i r ds0 ds hlen h
    simp only [directives] at h
    split at h
    · rename_i r' new h1
      refine ih _ _ _ _ ?_ h
      unfold opt at h1
      split at h1
      · rename_i h2; cases h1
        obtain ⟨v, rfl, hv⟩ := directiveLine_sound k _ _ _ h2
        obtain ⟨w, t, w', e, _, _, _, rfl, _⟩ := hv
        simp at hlen ⊢
        omega
      · cases h1
      · cases h1
    · rename_i h1
      cases h
      unfold opt at h1
      split at h1
      · cases h1
      · rename_i h2
        cases h1
        cases hd : directiveLine k i with
        | err => rfl
        | fail => simp [hd, PR.bind] at h2
        | ok r' ds' =>
          simp only [hd, PR.bind, cut] at h2
          cases hl : lineEnding r' <;> simp [hl, PR.map] at h2
      · cases h1
    · cases h

end Verif.File
