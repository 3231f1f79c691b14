import Verif.Props.ParseRound
/-! Every expression which is read can be written again. -/
namespace Verif.Parse
open Verif.Nom Verif.File
set_option linter.unusedSectionVars false

theorem takeWhile1_sound {p : Char → Bool} {i r s : Str} (h : takeWhile1 p i = .ok r s) :
    i = s ++ r ∧ s ≠ [] ∧ (∀ c ∈ s, p c = true) ∧ Off p r := by
  unfold takeWhile1 at h
  split at h
  · cases h
  · rename_i hne
    cases h
    refine ⟨by simp, by simpa using hne, mem_takeWhile p i, ?_⟩
    exact skip_off' p i

theorem opIdent_sound {k : Classes} {i r s : Str} (h : opIdent k i = .ok r s) : IsName k s ∧ i = s ++ r := by
  cases i with
  | nil => cases h
  | cons c cs =>
    simp only [opIdent] at h
    split at h
    · cases h
    · rename_i hc
      obtain ⟨h1, h2, h3, _⟩ := takeWhile1_sound h
      refine ⟨⟨?_, h3⟩, h1⟩
      cases s with
      | nil => exact absurd rfl h2
      | cons d ds =>
        simp only [List.cons_append, List.cons.injEq] at h1
        exact ⟨d, ds, rfl, by rw [← h1.1]; simpa using hc⟩

theorem optTy_sound {k : Env} {i r : Str} {t : Option Str} (h : optTy k i = .ok r t) : IsTy k.cls t := by
  unfold optTy opt at h
  split at h
  · rename_i r' a h1
    cases h
    obtain ⟨j, u, h2, h3⟩ := PR.bind_ok.1 h1
    unfold cut at h3
    split at h3
    · cases h3
    · exact (opIdent_sound h3).1
  · cases h; trivial
  · cases h

theorem IsName.op {k : Classes} {s : Str} (h : IsName k s) : IsOpName k s := ⟨[s], by simp, by simpa using h, by simp [join]⟩

theorem IsOpName.snoc {k : Classes} {s t : Str} (h : IsOpName k s) (ht : IsName k t) :
    IsOpName k (s ++ [':', ':'] ++ t) := by
  obtain ⟨ss, hne, hall, rfl⟩ := h
  refine ⟨ss ++ [t], by simp, ?_, ?_⟩
  · intro n hn
    rcases List.mem_append.1 hn with hn | hn
    · exact hall n hn
    · simp only [List.mem_cons, List.not_mem_nil, or_false] at hn
      subst hn; exact ht
  · cases ss with
    | nil => exact absurd rfl hne
    | cons s ss => simp [join_cons]

theorem opTail_sound {k : Env} {n : Nat} {i r acc s : Str} (ha : IsOpName k.cls acc)
    (h : opTail k n i acc = .ok r s) : IsOpName k.cls s := by
  induction n generalizing i acc with
  | zero => cases h; exact ha
  | succ n ih =>
    simp only [opTail] at h
    split at h
    · rename_i r' t h1
      obtain ⟨j, u, h2, h3⟩ := PR.bind_ok.1 h1
      exact ih (ha.snoc (opIdent_sound h3).1) h
    · cases h; exact ha

theorem opName_sound {k : Env} {i r s : Str} (h : opName k i = .ok r s) : IsOpName k.cls s := by
  obtain ⟨j, u, h2, h3⟩ := PR.bind_ok.1 h
  exact opTail_sound (opIdent_sound h2).1.op h3

theorem sepLoop_all {α β : Type} {sep : Parser β} {f : Parser α} {P : α → Prop}
    (hf : ∀ i r a, f i = .ok r a → P a) {n : Nat} {i r : Str} {acc l : List α} (ha : ∀ a ∈ acc, P a)
    (h : sepLoop sep f n i acc = .ok r l) : (∀ a ∈ l, P a) ∧ acc.length ≤ l.length := by
  induction n generalizing i acc with
  | zero => cases h; exact ⟨ha, Nat.le_refl _⟩
  | succ n ih =>
    simp only [sepLoop] at h
    split at h
    · cases h; exact ⟨ha, Nat.le_refl _⟩
    · cases h
    · split at h
      · cases h
      · split at h
        · cases h; exact ⟨ha, Nat.le_refl _⟩
        · cases h
        · rename_i i2 a h2
          have := ih (acc := acc ++ [a]) (by
            intro x hx
            rcases List.mem_append.1 hx with hx | hx
            · exact ha x hx
            · simp only [List.mem_cons, List.not_mem_nil, or_false] at hx
              subst hx; exact hf _ _ _ h2) h
          refine ⟨this.1, ?_⟩
          have := this.2
          simp at this
          omega

theorem manyLoop_all {α : Type} {f : Parser α} {P : α → Prop}
    (hf : ∀ i r a, f i = .ok r a → P a) {n : Nat} {i r : Str} {acc l : List α} (ha : ∀ a ∈ acc, P a)
    (h : manyLoop f n i acc = .ok r l) : ∀ a ∈ l, P a := by
  induction n generalizing i acc with
  | zero => cases h
  | succ n ih =>
    simp only [manyLoop] at h
    split at h
    · cases h; exact ha
    · cases h
    · rename_i i1 a h2
      split at h
      · cases h
      · refine ih (acc := acc ++ [a]) ?_ h
        intro x hx
        rcases List.mem_append.1 hx with hx | hx
        · exact ha x hx
        · simp only [List.mem_cons, List.not_mem_nil, or_false] at hx
          subst hx; exact hf _ _ _ h2

theorem ws_sound {α : Type} {f : Parser α} {P : α → Prop} (hf : ∀ i r a, f i = .ok r a → P a) :
    ∀ i r a, ws f i = .ok r a → P a := by
  intro i r a h
  obtain ⟨j, b, h1, h2⟩ := PR.bind_ok.1 h
  cases h2
  exact hf _ _ _ h1

theorem cut_ok {α : Type} {f : Parser α} {i r : Str} {a : α} (h : cut f i = .ok r a) : f i = .ok r a := by
  unfold cut at h
  split at h
  · cases h
  · exact h

theorem op_sound {k : Env} {i r : Str} {o : Op} (h : op k i = .ok r o) : IsOp k.cls o := by
  unfold op at h
  split at h
  · rename_i r' t h1
    cases h
    unfold specOp at h1
    split at h1
    · rename_i u h2
      cases h1
      exact Or.inl (List.mem_of_find?_eq_some h2)
    · cases h1
  · rename_i hs
    obtain ⟨⟨rooted, cs⟩, h1, h2⟩ := PR.map_ok.1 h
    have hr : (tag ['/'] i).isOk = false := by
      cases h3 : (tag ['/'] i).isOk with
      | false => rfl
      | true =>
        exfalso
        unfold tag at h3
        split at h3
        · rename_i hp
          rw [List.isPrefixOf_iff_prefix] at hp
          obtain ⟨z, rfl⟩ := hp
          exact hs z ['/'] (by simp [specOp, specOps, List.isPrefixOf])
        · cases h3
    unfold path at h1
    simp only [hr, Bool.false_eq_true, if_false] at h1
    obtain ⟨j, ds, h3, h4⟩ := PR.bind_ok.1 h1
    have h5 : rooted = false ∧ ds = cs := by
      unfold pathEnd at h4
      split at h4
      · cases h4
      · cases h4; exact ⟨rfl, rfl⟩
    obtain ⟨rfl, rfl⟩ := h5
    obtain ⟨j2, a, h6, h7⟩ := PR.bind_ok.1 h3
    have h8 := sepLoop_all (P := IsOpName k.cls) (acc := [a]) (fun i r a h => opName_sound h)
      (by intro x hx; simp at hx; subst hx; exact opName_sound h6) h7
    dsimp only at h2
    split at h2
    · subst h2
      exact Or.inr (h8.1 _ (by simp))
    · rename_i hnot
      subst h2
      refine ⟨rfl, ?_, h8.1⟩
      have := h8.2
      match ds, hnot, this with
      | [], _, h => simp at h
      | [t], h, _ => exact absurd rfl (h t)
      | _ :: _ :: _, _, _ => simp

theorem wrapped_sound {q : Char} {i r s : Str} (h : wrapped q i = .ok r s) : q ∉ s := by
  obtain ⟨j, u, h1, h2⟩ := PR.bind_ok.1 h
  obtain ⟨_, h3, rfl⟩ := PR.map_ok.1 h2
  intro hm
  have := mem_takeWhile (· != q) j q hm
  simp at this

theorem ident_sound {i r s : Str} (h : ident i = .ok r s) :
    Quotable s ∨ (IsBare s ∧ i = s ++ r ∧ Off (fun c => !breakon c) r) := by
  unfold ident at h
  split at h
  · cases h
  · exact Or.inl fun hb => wrapped_sound h hb.1
  · exact Or.inl fun hb => wrapped_sound h hb.2
  · rename_i n1 n2 n3
    obtain ⟨h1, h2, h3, h4⟩ := takeWhile1_sound h
    refine Or.inr ⟨⟨h2, fun c hc => by simpa using h3 c hc, ?_, ?_⟩, h1, h4⟩
    · cases s with
      | nil => simp
      | cons c cs =>
        intro e
        simp at e
        subst e
        exact n2 _ h1
    · cases s with
      | nil => simp
      | cons c cs =>
        intro e
        simp at e
        subst e
        exact n3 _ h1

section
variable {k : Env} (L : Laws k)
include L

omit L in
theorem num_sound {i r s : Str} (h : num k i = .ok r s) :
    i = s ++ r ∧ s ≠ [] ∧ (∀ c ∈ s, breakon c = false) ∧ k.isNum s = true ∧ r.head? ≠ some '.' := by
  obtain ⟨j, t, h1, h2⟩ := PR.bind_ok.1 h
  split at h2
  · cases h2
    obtain ⟨a, b, c, d⟩ := takeWhile1_sound h1
    refine ⟨a, b, fun x hx => by simpa using c x hx, by assumption, ?_⟩
    intro e
    have := d '.' e
    exact absurd this (by decide)
  · cases h2

theorem rhs_sound {i r s : Str} (h : infixRhs k i = .ok r s) : Quotable s := by
  unfold infixRhs at h
  split at h
  · rename_i z
    exact fun hb => wrapped_sound (q := '"') h hb.1
  · rename_i z
    exact fun hb => wrapped_sound (q := '\'') h hb.2
  · intro hb
    have := (opIdent_sound h).1.2 '"' hb.1
    rw [L.ident_off (by simp)] at this
    cases this

/-- Numbers and bare words are not followed by a dot. -/
def NoDot (a : Arg) (r : Str) : Prop :=
  (∀ s, a = .num s → r.head? ≠ some '.') ∧ ∀ s, a = .ident s → Quotable s ∨ r.head? ≠ some '.'

theorem infix_sound {n : Nat} {i r : Str} {a b : Arg} (hg : GoodA k a) (hn : NoDot a i)
    (h : infixLoop k n i a = .ok r b) : GoodA k b := by
  induction n generalizing i a with
  | zero => cases h; exact hg
  | succ n ih =>
    simp only [infixLoop] at h
    split at h
    · rename_i z
      obtain ⟨j, rhs, h1, h2⟩ := PR.bind_ok.1 h
      obtain ⟨j2, out, h3, h4⟩ := PR.bind_ok.1 h2
      have hg' : GoodA k (.dot a rhs out) :=
        ⟨hg, fun s e => hn.1 s e rfl, fun s e => (hn.2 s e).resolve_right (fun h => h rfl),
          rhs_sound L (cut_ok h1), optTy_sound h3⟩
      exact ih hg' ⟨by simp, by simp⟩ h4
    · cases h; exact hg

/-- The blocks which the parser yields are good. -/
def Sounds (k : Env) (b : Parser Blk) : Prop := ∀ i r a, b i = .ok r a → GoodB k a

omit L in
theorem goodBs_of : {bs : List Blk} → (∀ b ∈ bs, GoodB k b) → GoodBs k bs
  | [], _ => trivial
  | b :: _, h => ⟨h b (by simp), goodBs_of fun c hc => h c (by simp [hc])⟩

omit L in
theorem goodTs_of : {ts : List Term} → (∀ b ∈ ts, GoodT k b) → GoodTs k ts
  | [], _ => trivial
  | b :: _, h => ⟨h b (by simp), goodTs_of fun c hc => h c (by simp [hc])⟩

omit L in
theorem pipes_sound {b : Parser Blk} (hb : Sounds k b) {n : Nat} {i r : Str} {acc l : List Blk}
    (ha : ∀ a ∈ acc, GoodB k a) (hne : acc ≠ []) (h : pipes b n i acc = .ok r l) :
    (∀ a ∈ l, GoodB k a) ∧ l ≠ [] := by
  induction n generalizing i acc with
  | zero => cases h; exact ⟨ha, hne⟩
  | succ n ih =>
    simp only [pipes] at h
    split at h
    · obtain ⟨j, x, h1, h2⟩ := PR.bind_ok.1 h
      refine ih ?_ (by simp) h2
      intro a ha'
      rcases List.mem_append.1 ha' with ha' | ha'
      · exact ha a ha'
      · simp only [List.mem_cons, List.not_mem_nil, or_false] at ha'
        subst ha'; exact hb _ _ _ h1
    · cases h; exact ⟨ha, hne⟩

omit L in
theorem expr_sound {b : Parser Blk} (hb : Sounds k b) {i r : Str} {e : Expr} (h : expr b i = .ok r e) :
    GoodE k e ∧ e = e.setOut none := by
  obtain ⟨j, x, h1, h2⟩ := PR.bind_ok.1 h
  obtain ⟨j2, bs, h3, h4⟩ := PR.bind_ok.1 h2
  have hw := ws_sound hb
  have h5 := pipes_sound hw (by intro a ha; simp at ha; subst ha; exact hw _ _ _ h1) (by simp) h3
  split at h4
  · rename_i r' y h6
    cases h4
    refine ⟨⟨by simp, goodBs_of ?_, trivial⟩, rfl⟩
    intro c hc
    rcases List.mem_append.1 hc with hc | hc
    · exact h5.1 c hc
    · simp at hc; subst hc; exact hw _ _ _ h6
  · cases h4
    exact ⟨⟨h5.2, goodBs_of h5.1, trivial⟩, rfl⟩

theorem arg_sound {b : Parser Blk} (hb : Sounds k b) {i r : Str} {a : Arg} (hd : ¬ ['-', '-'] <+: i)
    (h : arg k b i = .ok r a) : GoodA k a ∧ NoDot a r := by
  unfold arg at h
  split at h
  · split at h
    · cases h
    · obtain ⟨j, e, h1, h2⟩ := PR.bind_ok.1 h
      obtain ⟨t, h3, rfl⟩ := PR.map_ok.1 h2
      obtain ⟨j2, e2, h4, h5⟩ := PR.bind_ok.1 (cut_ok h1)
      obtain ⟨_, h6, rfl⟩ := PR.map_ok.1 h5
      have h7 := ws_sound (P := fun e => GoodE k e ∧ e = e.setOut none) (fun i r a h => expr_sound hb h) _ _ _ h4
      cases e2 with
      | mk bs out => exact ⟨⟨h7.1.1, h7.1.2.1, optTy_sound h3⟩, by simp [NoDot]⟩
  · cases h
  · obtain ⟨s, h1, rfl⟩ := PR.map_ok.1 h
    exact ⟨(opIdent_sound h1).1, by simp [NoDot]⟩
  · obtain ⟨j, c, h1, h2⟩ := PR.bind_ok.1 h
    split at h2
    · split at h2
      · cases h2
        obtain ⟨⟨c, cs, e, h3⟩, _⟩ := (opIdent_sound (cut_ok h1)).1
        cases e
        exact ⟨⟨h3, by assumption⟩, by simp [NoDot]⟩
      · cases h2
    · cases h2
  · rename_i n1 n2 n3 n4
    split at h
    · cases h
    · split at h
      · rename_i r' s h1
        cases h
        obtain ⟨e, h2, h3, h4, h5⟩ := num_sound h1
        refine ⟨⟨h4, h2, h3, ?_, ?_, ?_⟩, ?_⟩
        · cases s with
          | nil => simp
          | cons c cs =>
            intro e'
            simp at e'
            subst e'
            exact n3 _ e
        · cases s with
          | nil => simp
          | cons c cs =>
            intro e'
            simp at e'
            subst e'
            exact n4 _ e
        · intro hp
          exact hd (e ▸ hp.trans (List.prefix_append _ _))
        · exact ⟨fun _ _ => h5, by simp⟩
      · split at h
        · obtain ⟨x, h1, rfl⟩ := PR.map_ok.1 h
          exact ⟨⟨by simp, ⟨ws_sound hb _ _ _ h1, trivial⟩, trivial⟩, by simp [NoDot]⟩
        · obtain ⟨s, h1, rfl⟩ := PR.map_ok.1 h
          rename_i hbr hnum hko
          have hko : knownOp k i = false := by simpa using hko
          rcases ident_sound h1 with hq | ⟨hw, e, hoff⟩
          · exact ⟨Or.inl hq, by simp, fun s' e => by cases e; exact Or.inl hq⟩
          · refine ⟨?_, by simp, fun s' _ => Or.inr ?_⟩
            · by_cases hb : '"' ∈ s ∧ '\'' ∈ s
              · refine Or.inr ⟨hw, ?_, ?_, ?_, ?_, ?_⟩
                · cases s with
                  | nil => simp
                  | cons c cs =>
                    intro e'
                    simp at e'
                    subst e'
                    exact n3 _ e
                · cases s with
                  | nil => simp
                  | cons c cs =>
                    intro e'
                    simp at e'
                    subst e'
                    exact n4 _ e
                · intro hp
                  exact hd (e ▸ hp.trans (List.prefix_append _ _))
                · cases hn : k.isNum s with
                  | false => rfl
                  | true =>
                    have e1 : takeTill1 breakon (s ++ r) = .ok r s :=
                      takeWhile1_app (fun c hc => by simp [hw.2.1 c hc]) hw.1 hoff
                    exact absurd (show num k i = .ok r s by simp [num, e, e1, PR.bind, hn]) (hnum _ _)
                · rw [e, knownOp_local L r hb.1] at hko
                  exact hko
              · exact Or.inl hb
            · intro e'
              exact absurd (hoff '.' e') (by decide)

theorem term_sound {b : Parser Blk} (hb : Sounds k b) {i r : Str} {t : Term}
    (h : term k (arg k b) i = .ok r t) : GoodT k t := by
  unfold term at h
  split at h
  · obtain ⟨s, h1, rfl⟩ := PR.map_ok.1 h
    obtain ⟨j, u, h2, h3⟩ := PR.bind_ok.1 h1
    exact (ident_sound h3).imp id (·.1)
  · rename_i hd
    rw [List.isPrefixOf_iff_prefix] at hd
    obtain ⟨a, h1, rfl⟩ := PR.map_ok.1 h
    obtain ⟨j, a0, h2, h3⟩ := PR.bind_ok.1 h1
    obtain ⟨h4, h5⟩ := arg_sound L hb hd h2
    exact infix_sound L h4 h5 h3

theorem block_sound {b : Parser Blk} (hb : Sounds k b) : Sounds k (block k (arg k b)) := by
  intro i r x h
  obtain ⟨i1, inTy, h1, h⟩ := PR.bind_ok.1 h
  obtain ⟨i2, o, h2, h⟩ := PR.bind_ok.1 h
  obtain ⟨i3, outTy, h3, h⟩ := PR.bind_ok.1 h
  obtain ⟨ts, h4, rfl⟩ := PR.map_ok.1 h
  refine ⟨optTy_sound h1, op_sound h2, optTy_sound h3, goodTs_of ?_⟩
  exact manyLoop_all (ws_sound fun i r a h => term_sound L hb h) (by simp) h4

theorem blockN_sound (n : Nat) : Sounds k (blockN k n) := by
  induction n with
  | zero => intro i r a h; cases h
  | succ n ih => exact block_sound L ih

/-- Every expression which is read is one which can be written: its names, operators, types and numbers are
ones. -/
theorem expression_good {i r : Str} {e : Expr} (h : expression k i = .ok r e) :
    GoodE k e ∧ e = e.setOut none ∧ r = [] := by
  obtain ⟨j, e', h1, h2⟩ := PR.bind_ok.1 h
  split at h2
  · cases h2
    have := expr_sound (blockN_sound L _) h1
    exact ⟨this.1, this.2, rfl⟩
  · cases h2

/-- Every expression which can be read from a text can be written in canonical form, and reading that yields
the same expression. -/
theorem reread {i r : Str} {e : Expr} (h : expression k i = .ok r e) : expression k (write e) = .ok [] e := by
  obtain ⟨h1, h2, _⟩ := expression_good L h
  rw [expression_round_trip L e h1, ← h2]

end

end Verif.Parse
