import Verif.Lemmas.Tuple
/-! Reading tuple names: what is accepted, and that the fuel suffices. -/
namespace Verif.Tuple
open Verif.Nom Verif.Defs

mutual
def renderS : Split → List Char
  | .ty n => n
  | .tuple [] => []
  | .tuple (s :: ss) => ['U', '_'] ++ (renderS s ++ renderTail ss) ++ ['_']
def renderTail : List Split → List Char
  | [] => []
  | s :: ss => '-' :: renderS s ++ renderTail ss
end

mutual
/-- No tuple in it is empty. -/
def Full : Split → Prop
  | .ty _ => True
  | .tuple ss => ss ≠ [] ∧ FullAll ss
def FullAll : List Split → Prop
  | [] => True
  | s :: ss => Full s ∧ FullAll ss
end

theorem full_ne {s : Split} (h : Full s) : ∀ ss, s = .tuple ss → ss ≠ [] := by
  rintro ss rfl; exact h.1

theorem fullAll_append {a b : List Split} (ha : FullAll a) (hb : FullAll b) : FullAll (a ++ b) := by
  induction a with
  | nil => exact hb
  | cons x a ih => simp only [FullAll] at ha; exact ⟨ha.1, ih ha.2⟩

theorem renderTail_append (a : List Split) (s : Split) :
    renderTail (a ++ [s]) = renderTail a ++ '-' :: renderS s := by
  induction a with
  | nil => simp [renderTail]
  | cons x a ih => simp [renderTail, ih]

theorem chr_ok {c : Char} {i r : List Char} {a : Unit} (h : chr c i = .ok r a) : i = c :: r := by
  cases i with
  | nil => cases h
  | cons d i =>
    simp only [chr] at h
    split at h
    · rename_i e; cases h; rw [e]
    · cases h

theorem sepLoop_sound {f : Parser Split} (hf : ∀ i r s, f i = .ok r s → i = renderS s ++ r) (n : Nat) :
    ∀ (i r : List Char) (s : Split) (acc ss : List Split), sepLoop (chr '-') f n i (s :: acc) = .ok r ss →
      ∃ more, ss = s :: acc ++ more ∧ i = renderTail more ++ r := by
  induction n with
  | zero => intro i r s acc ss h; cases h; exact ⟨[], by simp, rfl⟩
  | succ n ih =>
    intro i r s acc ss h
    simp only [sepLoop] at h
    split at h
    · cases h; exact ⟨[], by simp, rfl⟩
    · cases h
    · rename_i i1 b h1
      have e1 := chr_ok h1
      split at h
      · cases h
      · split at h
        · cases h; exact ⟨[], by simp, rfl⟩
        · cases h
        · rename_i i2 x h2
          have e2 := hf _ _ _ h2
          obtain ⟨more, e3, e4⟩ := ih i2 r s (acc ++ [x]) ss h
          refine ⟨x :: more, by rw [e3]; simp, ?_⟩
          rw [e1, e2, e4]; simp [renderTail]

theorem parseSplit_sound (n : Nat) : ∀ (i r : List Char) (s : Split), parseSplit n i = .ok r s →
    i = renderS s ++ r := by
  induction n with
  | zero => intro i r s h; cases h
  | succ n ih =>
    intro i r s h
    simp only [parseSplit] at h
    split at h
    · obtain ⟨i1, _, h1, h⟩ := PR.bind_ok.1 h
      obtain ⟨i2, ss, h2, h⟩ := PR.bind_ok.1 h
      obtain ⟨i3, _, h3, h⟩ := PR.bind_ok.1 h
      cases h
      have e1 := tag_ok.1 h1
      have e3 := chr_ok h3
      unfold sepList1 at h2
      obtain ⟨j, s, h4, h5⟩ := PR.bind_ok.1 h2
      have e4 := ih _ _ _ h4
      obtain ⟨more, e5, e6⟩ := sepLoop_sound ih _ _ _ _ _ _ h5
      rw [e5, e1, e4, e6, e3]
      simp [renderS]
    · obtain ⟨a, h1, e⟩ := PR.map_ok.1 h
      subst e
      unfold takeTill1 takeWhile1 at h1
      split at h1
      · cases h1
      · cases h1; simp [renderS]

theorem parseTop_sound {i : List Char} {s : Split} (h : parseTop i = some s) :
    renderS s = i ∧ ∃ x xs, s = .tuple (x :: xs) := by
  unfold parseTop at h
  split at h
  · rename_i hpre
    split at h
    · rename_i s' hp
      cases h
      refine ⟨by have := parseSplit_sound _ _ _ _ hp; simpa using this.symm, ?_⟩
      simp only [parseSplit, if_pos hpre] at hp
      obtain ⟨i1, _, h1, h⟩ := PR.bind_ok.1 hp
      obtain ⟨i2, ss, h2, h⟩ := PR.bind_ok.1 h
      obtain ⟨i3, _, h3, h⟩ := PR.bind_ok.1 h
      cases h
      unfold sepList1 at h2
      obtain ⟨j, s, h4, h5⟩ := PR.bind_ok.1 h2
      obtain ⟨more, e5, e6⟩ := sepLoop_sound (parseSplit_sound _) _ _ _ _ _ _ h5
      exact ⟨s, more, by rw [e5]; rfl⟩
    · cases h
  · cases h

theorem sepLoop_full {f : Parser Split} (hf : ∀ i r s, f i = .ok r s → Full s) (n : Nat) :
    ∀ (i r : List Char) (acc ss : List Split), FullAll acc → sepLoop (chr '-') f n i acc = .ok r ss →
      FullAll ss ∧ acc.length ≤ ss.length := by
  induction n with
  | zero => intro i r acc ss ha h; cases h; exact ⟨ha, Nat.le_refl _⟩
  | succ n ih =>
    intro i r acc ss ha h
    simp only [sepLoop] at h
    split at h
    · cases h; exact ⟨ha, Nat.le_refl _⟩
    · cases h
    · split at h
      · cases h
      · split at h
        · cases h; exact ⟨ha, Nat.le_refl _⟩
        · cases h
        · rename_i i2 x h2
          obtain ⟨e1, e2⟩ := ih i2 r (acc ++ [x]) ss (fullAll_append ha ⟨hf _ _ _ h2, trivial⟩) h
          exact ⟨e1, by simp at e2; omega⟩

theorem parseSplit_full (n : Nat) : ∀ (i r : List Char) (s : Split), parseSplit n i = .ok r s → Full s := by
  induction n with
  | zero => intro i r s h; cases h
  | succ n ih =>
    intro i r s h
    simp only [parseSplit] at h
    split at h
    · obtain ⟨i1, _, h1, h⟩ := PR.bind_ok.1 h
      obtain ⟨i2, ss, h2, h⟩ := PR.bind_ok.1 h
      obtain ⟨i3, _, h3, h⟩ := PR.bind_ok.1 h
      cases h
      unfold sepList1 at h2
      obtain ⟨j, s, h4, h5⟩ := PR.bind_ok.1 h2
      obtain ⟨e1, e2⟩ := sepLoop_full ih _ _ _ [s] ss (show FullAll [s] from ⟨ih _ _ _ h4, trivial⟩) h5
      refine ⟨?_, e1⟩
      rintro rfl
      simp at e2
    · obtain ⟨a, h1, e⟩ := PR.map_ok.1 h
      subst e
      trivial

/-! ### Fuel -/

theorem sepLoop_congr {f g : Parser Split} (L : Nat) (hfg : ∀ i, i.length < L → f i = g i)
    (hf : ∀ i r s, f i = .ok r s → i = renderS s ++ r) (n : Nat) :
    ∀ (i : List Char) (acc : List Split), i.length ≤ L →
      sepLoop (chr '-') f n i acc = sepLoop (chr '-') g n i acc := by
  induction n with
  | zero => intro i acc _; rfl
  | succ n ih =>
    intro i acc hi
    simp only [sepLoop]
    cases hc : chr '-' i with
    | err => rfl
    | fail => rfl
    | ok i1 u =>
      have e1 := chr_ok hc
      have hl : i1.length < L := by rw [e1] at hi; simp at hi; omega
      simp only []
      split
      · rfl
      · rw [hfg i1 hl]
        cases hg : g i1 with
        | err => rfl
        | fail => rfl
        | ok i2 x =>
          have e2 := hf i1 i2 x (by rw [hfg i1 hl]; exact hg)
          apply ih
          have : i2.length ≤ i1.length := by rw [e2]; simp
          omega

/-- More fuel changes nothing: the nesting is bounded by the length of the input. -/
theorem parseSplit_fuel (n : Nat) : ∀ (m : Nat) (i : List Char), i.length < n → n ≤ m →
    parseSplit m i = parseSplit n i := by
  induction n with
  | zero => intro m i h _; omega
  | succ n ih =>
    intro m i hi hm
    obtain ⟨m, rfl⟩ : ∃ m', m = m' + 1 := ⟨m - 1, by omega⟩
    simp only [parseSplit]
    split
    · cases ht : tag ['U', '_'] i with
      | err => rfl
      | fail => rfl
      | ok i1 u =>
        have e1 := tag_ok.1 ht
        have hl : i1.length + 2 = i.length := by rw [e1]; simp
        have hcongr : ∀ j : List Char, j.length < n → parseSplit m j = parseSplit n j :=
          fun j hj => ih m j hj (by omega)
        have : sepList1 (chr '-') (parseSplit m) i1 = sepList1 (chr '-') (parseSplit n) i1 := by
          unfold sepList1
          rw [hcongr i1 (by omega)]
          cases hp : parseSplit n i1 with
          | err => rfl
          | fail => rfl
          | ok i2 s =>
            have e2 := parseSplit_sound _ _ _ _ hp
            have : i2.length ≤ i1.length := by rw [e2]; simp
            exact sepLoop_congr n hcongr (parseSplit_sound _) _ _ _ (by omega)
        simp only [PR.bind, this]
    · rfl

mutual
theorem convert_name (tys : AMap String TyEntry)
    (ht : ∀ n t, tyOf tys n = some t → baseName t = n.toList) (s : Split) (t : TTy)
    (hs : ∀ ss, s = .tuple ss → ss ≠ [] ) (h : convert tys s = some t) (hp : Full s) : tyname t = renderS s := by
  match s with
  | .ty n =>
    simp only [convert] at h
    cases hx : tyOf tys (String.ofList n) with
    | none => rw [hx] at h; cases h
    | some u =>
      rw [hx] at h; cases h
      have := ht _ _ hx
      simp [tyname, renderS, this]
  | .tuple [] => exact absurd rfl (hs [] rfl)
  | .tuple (s :: ss) =>
    simp only [convert, convertAll] at h
    cases h1 : convert tys s with
    | none => rw [h1] at h; cases h
    | some u =>
      rw [h1] at h
      cases h2 : convertAll tys ss with
      | none => rw [h2] at h; cases h
      | some us =>
        rw [h2] at h; cases h
        simp only [Full] at hp
        rw [tyname_tuple, renderS, convert_name tys ht s u (full_ne hp.2.1) h1 hp.2.1,
          convert_names tys ht ss us h2 hp.2.2]
theorem convert_names (tys : AMap String TyEntry)
    (ht : ∀ n t, tyOf tys n = some t → baseName t = n.toList) (ss : List Split) (ts : List TTy)
    (h : convertAll tys ss = some ts) (hp : FullAll ss) : tailNames ts = renderTail ss := by
  match ss with
  | [] => cases h; rfl
  | s :: ss =>
    simp only [convertAll] at h
    cases h1 : convert tys s with
    | none => rw [h1] at h; cases h
    | some u =>
      rw [h1] at h
      cases h2 : convertAll tys ss with
      | none => rw [h2] at h; cases h
      | some us =>
        rw [h2] at h; cases h
        simp only [FullAll] at hp
        rw [tailNames, renderTail, convert_name tys ht s u (full_ne hp.1) h1 hp.1,
          convert_names tys ht ss us h2 hp.2]
end

end Verif.Tuple
