import Verif.Lemmas.FileItems
namespace Verif.File

theorem lineNum_ok (text : List Char) (s : Sl) (n : Nat) :
    lineNum text s = .ok n ↔ n = lineOf text s.off ∧ n < 65536 := by
  unfold lineNum lineOf
  have : (text.take s.off).countP (· == '\n') = (text.take s.off).count '\n' := rfl
  simp only [this]
  split
  · simp only [Except.ok.injEq]; omega
  · simp only [reduceCtorEq, false_iff, not_and]; omega

/-- What the loop makes of one block, apart from the documentation. -/
def ItemR (text : List Char) (it : Sl) (x : Kind × Item) : Prop :=
  x.1 = kind (docComment it).2.trim.str ∧ x.2.code = (docComment it).2.trim.str ∧
    x.2.line = lineOf text (docComment it).2.trim.off ∧ x.2.line < 65536

def optDoc (d : List Char) : Option (List Char) := if d.isEmpty then none else some d

def ofKind (k : Kind) (items : List (Kind × Item)) : List Item :=
  (items.filter (fun x => x.1 == k)).map (·.2)

def addItem (f : File) : Kind → Item → File
  | .type_, x => { f with types := f.types ++ [x] }
  | .impl, x => { f with impls := f.impls ++ [x] }
  | .expr, x => { f with exprs := f.exprs ++ [x] }

theorem itemLoop_cons (head : List Char → Bool) (text : List Char) (it : Sl) (its : List Sl) (mv : Bool)
    (doc : Option (List Char)) (f : File) :
    itemLoop head text (it :: its) mv doc f =
      if kind (docComment it).2.trim.str = .expr ∨ head (docComment it).2.trim.str = true then
        match lineNum text (docComment it).2.trim with
        | .ok n => itemLoop head text its false (if mv then none else doc)
            (addItem f (kind (docComment it).2.trim.str)
              ⟨if mv then doc else optDoc (docComment it).1, (docComment it).2.trim.str, n⟩)
        | .error e => .error e
      else .error .parse := by
  rw [itemLoop]
  simp only
  cases hk : kind (docComment it).2.trim.str <;>
    cases hh : head (docComment it).2.trim.str <;>
    cases hl : lineNum text (docComment it).2.trim <;>
    simp [addItem, optDoc, bind, Except.bind]

theorem itemLoop_ok (head : List Char → Bool) (text : List Char) (its : List Sl) :
    ∀ (mv : Bool) (doc : Option (List Char)) (f f' : File), itemLoop head text its mv doc f = .ok f' →
    ∃ items : List (Kind × Item),
      Each (ItemR text) its items ∧
      f'.types = f.types ++ ofKind .type_ items ∧ f'.impls = f.impls ++ ofKind .impl items ∧
      f'.exprs = f.exprs ++ ofKind .expr items ∧ f'.directives = f.directives ∧
      (mv = false → f'.doc = doc ∧ Each (fun it x => x.2.doc = optDoc (docComment it).1) its items) ∧
      (mv = true → match its, items with
        | it :: its, x :: xs => f'.doc = none ∧ x.2.doc = doc ∧
            Each (fun it x => x.2.doc = optDoc (docComment it).1) its xs
        | _, _ => f'.doc = doc) := by
  induction its with
  | nil =>
    intro mv doc f f' h
    simp only [itemLoop, Except.ok.injEq] at h
    subst h
    exact ⟨[], .nil, by simp [ofKind], by simp [ofKind], by simp [ofKind], rfl,
      fun _ => ⟨rfl, .nil⟩, fun _ => rfl⟩
  | cons it its ih =>
    intro mv doc f f' h
    rw [itemLoop_cons] at h
    split at h
    case isFalse => cases h
    split at h
    case h_2 => cases h
    rename_i n hn
    rw [lineNum_ok] at hn
    obtain ⟨items, h1, h2, h3, h4, h5, h6, _⟩ := ih _ _ _ _ h
    have h7 := h6 rfl
    refine ⟨(kind (docComment it).2.trim.str,
      ⟨if mv then doc else optDoc (docComment it).1, (docComment it).2.trim.str, n⟩) :: items,
      .cons ⟨rfl, rfl, hn.1, hn.2⟩ h1, ?_, ?_, ?_, ?_, ?_, ?_⟩
    · rw [h2]; cases kind (docComment it).2.trim.str <;> simp [addItem, ofKind]
    · rw [h3]; cases kind (docComment it).2.trim.str <;> simp [addItem, ofKind]
    · rw [h4]; cases kind (docComment it).2.trim.str <;> simp [addItem, ofKind]
    · rw [h5]; cases kind (docComment it).2.trim.str <;> simp [addItem]
    · intro hm; subst hm
      exact ⟨by simpa using h7.1, .cons (by simp) h7.2⟩
    · intro hm; subst hm
      exact ⟨by simpa using h7.1, by simp, h7.2⟩

theorem itemLoop_total (head : List Char → Bool) (text : List Char) (its : List Sl)
    (hh : ∀ it ∈ its, kind (docComment it).2.trim.str ≠ .expr → head (docComment it).2.trim.str = true)
    (hl : lineOf text text.length < 65536) :
    ∀ (mv : Bool) (doc : Option (List Char)) (f : File), ∃ f', itemLoop head text its mv doc f = .ok f' := by
  induction its with
  | nil => intro mv doc f; exact ⟨_, rfl⟩
  | cons it its ih =>
    intro mv doc f
    rw [itemLoop_cons]
    have h1 : kind (docComment it).2.trim.str = .expr ∨ head (docComment it).2.trim.str = true := by
      by_cases h : kind (docComment it).2.trim.str = .expr
      · exact Or.inl h
      · exact Or.inr (hh it (by simp) h)
    rw [if_pos h1]
    have hle : lineOf text (docComment it).2.trim.off ≤ lineOf text text.length := by
      unfold lineOf
      have : (text.take (docComment it).2.trim.off).count '\n' ≤ (text.take text.length).count '\n' := by
        rw [List.take_length]
        exact (List.take_sublist _ _).count_le '\n'
      omega
    have h2 : lineNum text (docComment it).2.trim = .ok (lineOf text (docComment it).2.trim.off) :=
      (lineNum_ok _ _ _).2 ⟨rfl, by omega⟩
    rw [h2]
    exact ih (fun x hx => hh x (by simp [hx])) _ _ _

theorem Each.map_left {α β γ : Type} {R : α → β → Prop} {S : γ → β → Prop} (f : γ → α) :
    ∀ {as : List γ} {bs : List β}, Each R (as.map f) bs → (∀ a ∈ as, ∀ b, R (f a) b → S a b) →
    Each S as bs := by
  intro as
  induction as with
  | nil => intro bs h _; cases h; exact .nil
  | cons a as ih =>
    intro bs h hs
    cases h with
    | cons h1 h2 =>
      exact .cons (hs a (by simp) _ h1) (ih h2 fun a ha b hb => hs a (by simp [ha]) b hb)

end Verif.File
