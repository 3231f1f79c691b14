import Verif.Lemmas.Parse
/-! The parsers for operators do not look beyond a quote. -/
namespace Verif.Parse
open Verif.Nom Verif.File
set_option linter.unusedSectionVars false

/-- The same result with more text left. -/
def ext {α : Type} (X : Str) : PR α → PR α
  | .ok r a => .ok (r ++ X) a
  | .err => .err
  | .fail => .fail

/-- On a text with a quote the parser does not look beyond it. -/
def Local {α : Type} (p : Parser α) : Prop :=
  ∀ s X : Str, '"' ∈ s → p (s ++ X) = ext X (p s) ∧ ∀ r a, p s = .ok r a → '"' ∈ r ∧ r.length ≤ s.length

theorem takeWhile1_local {p : Char → Bool} (hp : p '"' = false) : Local (takeWhile1 p) := by
  intro s X h
  have key : (s ++ X).takeWhile p = s.takeWhile p ∧ (s ++ X).dropWhile p = s.dropWhile p ++ X ∧
      '"' ∈ s.dropWhile p := by
    induction s with
    | nil => cases h
    | cons c s ih =>
      cases hc : p c with
      | false => simp [hc, h]
      | true =>
        have : '"' ∈ s := by
          rcases List.mem_cons.1 h with e | h
          · rw [← e, hp] at hc; cases hc
          · exact h
        simp [hc, ih this]
  obtain ⟨k1, k2, k3⟩ := key
  unfold takeWhile1
  rw [k1, k2]
  constructor
  · split <;> rfl
  · intro r a e
    split at e
    · cases e
    · cases e
      exact ⟨k3, (List.dropWhile_suffix p).length_le⟩

theorem prefix_local {t s : Str} (X : Str) (ht : '"' ∉ t) (hs : '"' ∈ s) :
    t.isPrefixOf (s ++ X) = t.isPrefixOf s := by
  induction t generalizing s with
  | nil => simp
  | cons c t ih =>
    cases s with
    | nil => cases hs
    | cons d s =>
      simp only [List.cons_append, List.isPrefixOf]
      by_cases e : c = d
      · subst e
        have h1 : '"' ∈ s := by
          rcases List.mem_cons.1 hs with e | h
          · exact absurd (by simp [← e]) ht
          · exact h
        rw [ih (by simp_all) h1]
      · have : (c == d) = false := by simpa using e
        rw [this]
        rfl

theorem tag_local {t : Str} (ht : '"' ∉ t) : Local (tag t) := by
  intro s X h
  unfold tag
  rw [prefix_local X ht h]
  constructor
  · split
    · rename_i hp
      rw [List.isPrefixOf_iff_prefix] at hp
      obtain ⟨z, rfl⟩ := hp
      simp [ext]
    · rfl
  · intro r a e
    split at e
    · rename_i hp
      rw [List.isPrefixOf_iff_prefix] at hp
      obtain ⟨z, rfl⟩ := hp
      cases e
      simp only [List.drop_left, List.length_append]
      exact ⟨(List.mem_append.1 h).resolve_left ht, by omega⟩
    · cases e

section
variable {k : Env} (L : Laws k)
include L

theorem opIdent_local : Local (opIdent k.cls) := by
  intro s X h
  cases s with
  | nil => cases h
  | cons c s =>
    simp only [List.cons_append, opIdent]
    split
    · exact ⟨rfl, by simp⟩
    · exact takeWhile1_local (L.ident_off (by simp)) (c :: s) X h

omit L in
theorem Local.bind {α β : Type} {p : Parser α} {f : α → Parser β} (hp : Local p) (hf : ∀ a, Local (f a)) :
    Local (fun i => (p i).bind fun i a => f a i) := by
  intro s X h
  obtain ⟨h1, h2⟩ := hp s X h
  dsimp only
  rw [h1]
  cases e : p s with
  | err => exact ⟨rfl, by simp [PR.bind]⟩
  | fail => exact ⟨rfl, by simp [PR.bind]⟩
  | ok r a =>
    obtain ⟨h3, h4⟩ := h2 r a e
    obtain ⟨h5, h6⟩ := hf a r X h3
    refine ⟨h5, ?_⟩
    intro r2 b e2
    have := h6 r2 b e2
    exact ⟨this.1, by omega⟩

theorem opTail_local (m : Nat) : ∀ n (s : Str) (X acc : Str), '"' ∈ s → s.length ≤ m → s.length + X.length ≤ n →
    opTail k n (s ++ X) acc = ext X (opTail k m s acc) ∧
      ∀ r a, opTail k m s acc = .ok r a → '"' ∈ r ∧ r.length ≤ s.length := by
  have hl : Local (fun i => (tag [':', ':'] i).bind fun i _ => opIdent k.cls i) :=
    (tag_local (by simp)).bind (fun _ => opIdent_local L)
  induction m with
  | zero =>
    intro n s X acc h hm
    cases s with
    | nil => cases h
    | cons c s => simp at hm
  | succ m ih =>
    intro n s X acc h hm hn
    cases n with
    | zero =>
      cases s with
      | nil => cases h
      | cons c s => simp at hn
    | succ n =>
      obtain ⟨h1, h2⟩ := hl s X h
      dsimp only at h1 h2
      simp only [opTail]
      rw [h1]
      cases e : ((tag [':', ':'] s).bind fun i _ => opIdent k.cls i) with
      | err => exact ⟨rfl, by intro r a e; cases e; exact ⟨h, Nat.le_refl _⟩⟩
      | fail => exact ⟨rfl, by intro r a e; cases e; exact ⟨h, Nat.le_refl _⟩⟩
      | ok r t =>
        obtain ⟨h3, h4⟩ := h2 r t e
        have h5 : r.length < s.length := by
          obtain ⟨j, u, e1, e2⟩ := PR.bind_ok.1 e
          rw [tag_ok] at e1
          have : '"' ∈ j := by
            rw [e1] at h
            simpa using h
          have := (opIdent_local L j X this).2 r t e2
          rw [e1]
          simp only [List.length_append, List.length_cons]
          omega
        simp only [ext]
        obtain ⟨h6, h7⟩ := ih n r X (acc ++ [':', ':'] ++ t) h3 (by omega) (by omega)
        refine ⟨h6, ?_⟩
        intro r2 a e2
        have := h7 r2 a e2
        exact ⟨this.1, by omega⟩

theorem opName_local : Local (opName k) := by
  have : Local (fun i => (opIdent k.cls i).bind fun i t => (fun i => opTail k i.length i t) i) := by
    apply Local.bind (opIdent_local L)
    intro t s X h
    exact opTail_local L s.length (s ++ X).length s X t h (Nat.le_refl _) (by simp)
  exact this

theorem pathLoop_local (m : Nat) : ∀ n (s : Str) (X : Str) (acc : List Str), '"' ∈ s → s.length ≤ m →
    s.length + X.length ≤ n →
    sepLoop (tag ['/']) (opName k) n (s ++ X) acc = ext X (sepLoop (tag ['/']) (opName k) m s acc) ∧
      ∀ r a, sepLoop (tag ['/']) (opName k) m s acc = .ok r a → '"' ∈ r ∧ r.length ≤ s.length := by
  induction m with
  | zero =>
    intro n s X acc h hm
    cases s with
    | nil => cases h
    | cons c s => simp at hm
  | succ m ih =>
    intro n s X acc h hm hn
    cases n with
    | zero =>
      cases s with
      | nil => cases h
      | cons c s => simp at hn
    | succ n =>
      obtain ⟨h1, h2⟩ := tag_local (t := ['/']) (by simp) s X h
      simp only [sepLoop]
      rw [h1]
      cases e : tag ['/'] s with
      | err => exact ⟨rfl, by intro r a e; cases e; exact ⟨h, Nat.le_refl _⟩⟩
      | fail => exact ⟨rfl, by intro r a e; cases e⟩
      | ok r t =>
        obtain ⟨h3, h4⟩ := h2 r t e
        have e1 := e
        rw [tag_ok] at e1
        have l1 : r.length < s.length := by rw [e1]; simp
        simp only [ext]
        rw [if_neg (by simp only [List.length_append]; omega), if_neg (by omega)]
        obtain ⟨h5, h6⟩ := opName_local L r X h3
        rw [h5]
        cases e2 : opName k r with
        | err => exact ⟨rfl, by intro r a e; cases e; exact ⟨h, Nat.le_refl _⟩⟩
        | fail => exact ⟨rfl, by intro r a e; cases e⟩
        | ok r2 t2 =>
          obtain ⟨h7, h8⟩ := h6 r2 t2 e2
          simp only [ext]
          obtain ⟨h9, h10⟩ := ih n r2 X (acc ++ [t2]) h7 (by omega) (by omega)
          refine ⟨h9, ?_⟩
          intro r3 a e3
          have := h10 r3 a e3
          exact ⟨this.1, by omega⟩

/-- Whether a text starts with a defined command does not depend on what comes after a quote in it. -/
theorem knownOp_local {s : Str} (X : Str) (h : '"' ∈ s) : knownOp k (s ++ X) = knownOp k s := by
  have hop : ∃ f : PR Op → PR Op, (∀ x, (∃ r r' o, x = .ok r o ∧ f x = .ok r' o) ∨ ((∀ r o, x ≠ .ok r o) ∧ ∀ r o, f x ≠ .ok r o))
      ∧ op k (s ++ X) = f (op k s) := by
    refine ⟨ext X, ?_, ?_⟩
    · intro x
      cases x with
      | ok r o => exact Or.inl ⟨_, _, _, rfl, rfl⟩
      | err => exact Or.inr ⟨by simp, by simp [ext]⟩
      | fail => exact Or.inr ⟨by simp, by simp [ext]⟩
    · have h1 : specOp (s ++ X) = ext X (specOp s) := by
        unfold specOp
        have : ∀ l : List Str, (∀ t ∈ l, '"' ∉ t) →
            l.find? (fun t => t.isPrefixOf (s ++ X)) = l.find? (fun t => t.isPrefixOf s) := by
          intro l hl
          induction l with
          | nil => rfl
          | cons t l ih =>
            simp only [List.find?_cons]
            rw [prefix_local X (hl t (by simp)) h, ih (fun t ht => hl t (by simp [ht]))]
        rw [this specOps (by decide)]
        split
        · rename_i t ht
          have := List.find?_some ht
          rw [List.isPrefixOf_iff_prefix] at this
          obtain ⟨z, rfl⟩ := this
          simp [ext]
        · rfl
      have h2 : path k (s ++ X) = ext X (path k s) := by
        obtain ⟨t1, t2⟩ := tag_local (t := ['/']) (by simp) s X h
        have t3 : (tag ['/'] (s ++ X)).isOk = (tag ['/'] s).isOk := by
          rw [t1]; cases tag ['/'] s <;> rfl
        have t4 : ∃ s', '"' ∈ s' ∧ (if (tag ['/'] s).isOk = true then (s ++ X).drop 1 else s ++ X) = s' ++ X ∧
            (if (tag ['/'] s).isOk = true then s.drop 1 else s) = s' := by
          cases e : tag ['/'] s with
          | ok r u =>
            have := (t2 r u e).1
            rw [tag_ok] at e
            refine ⟨r, this, ?_, ?_⟩ <;> simp [PR.isOk, e]
          | err => exact ⟨s, h, by simp [PR.isOk], by simp [PR.isOk]⟩
          | fail => exact ⟨s, h, by simp [PR.isOk], by simp [PR.isOk]⟩
        obtain ⟨s', q, e1, e2⟩ := t4
        unfold path
        dsimp only
        rw [t3, e1, e2]
        have t5 : Local (sepList1 (tag ['/']) (opName k)) := by
          have : Local (fun i => (opName k i).bind fun i a =>
              (fun i => sepLoop (tag ['/']) (opName k) i.length i [a]) i) := by
            apply Local.bind (opName_local L)
            intro t s X h
            exact pathLoop_local L s.length (s ++ X).length s X [t] h (Nat.le_refl _) (by simp)
          exact this
        obtain ⟨t6, t7⟩ := t5 s' X q
        rw [t6]
        cases e : sepList1 (tag ['/']) (opName k) s' with
        | err => rfl
        | fail => rfl
        | ok r a =>
          have := (t7 r a e).1
          simp only [ext, PR.bind]
          cases r with
          | nil => cases this
          | cons c r =>
            have key : ∀ i : Str, i.head? ≠ some '/' → ∀ x : Bool × List Str, pathEnd i x = .ok i x := by
              intro i hi x
              unfold pathEnd
              split
              · simp at hi
              · rfl
            by_cases e : c = '/'
            · subst e; rfl
            · rw [key (c :: r ++ X) (by simpa using e), key (c :: r) (by simpa using e)]
      unfold op
      rw [h1, h2]
      cases specOp s with
      | ok r t => rfl
      | err =>
        simp only [ext]
        cases path k s <;> rfl
      | fail =>
        simp only [ext]
        cases path k s <;> rfl
  obtain ⟨f, hf, e⟩ := hop
  unfold knownOp
  rw [e]
  rcases hf (op k s) with ⟨r, r', o, h1, h2⟩ | ⟨h1, h2⟩
  · rw [h2, h1]
    cases o <;> rfl
  · split
    · exact absurd (by assumption) (h2 _ _)
    · split
      · exact absurd (by assumption) (h1 _ _)
      · rfl

end

end Verif.Parse
