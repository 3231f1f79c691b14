import Verif.Props.ParseEnds
/-! Definitions of commands and types in canonical form are read back as they were written. -/
namespace Verif.Parse
open Verif.Nom Verif.File
set_option linter.unusedSectionVars false

theorem bind_ok' {α β : Type} (r : Str) (a : α) (f : List Char → α → PR β) : (PR.ok r a).bind f = f r a := rfl

/-- Items between spaces, up to something which is no item. -/
theorem many_round {α : Type} {f : Parser α} {w : α → Str} {l : List α} {R : Str}
    (hh : ∀ a ∈ l, ∃ c cs, w a = c :: cs ∧ isMulti c = false)
    (hf : ∀ a ∈ l, ∀ X, (∃ z, X = ' ' :: z) ∨ X = R → ∃ r, f (w a ++ X) = .ok r a ∧ skip isMulti r = skip isMulti X)
    (hR : f (skip isMulti R) = .err) (m : Nat) (hm : l.length < m) (i : Str)
    (hi : skip isMulti i = skip isMulti (l.flatMap (fun a => [' '] ++ w a) ++ R)) (acc : List α) :
    manyLoop (ws f) m i acc = .ok (if l.isEmpty then i else skip isMulti R) (acc ++ l) := by
  induction l generalizing m i acc with
  | nil =>
    cases m with
    | zero => omega
    | succ m =>
      have : ws f i = .err := by
        simp only [List.flatMap_nil, List.nil_append] at hi
        simp only [ws, hi, hR, PR.bind]
      simp [manyLoop, this]
  | cons t ts ih =>
    cases m with
    | zero => omega
    | succ m =>
      have h2 : skip isMulti i = w t ++ (ts.flatMap (fun a => [' '] ++ w a) ++ R) := by
        rw [hi]
        obtain ⟨c, cs, e, hc⟩ := hh t (by simp)
        simp only [List.flatMap_cons, List.cons_append, List.nil_append, List.append_assoc]
        rw [skip_space, e]
        exact skip_cons hc
      obtain ⟨r1, h1, h1'⟩ := hf t (by simp) (ts.flatMap (fun a => [' '] ++ w a) ++ R) (by
        cases ts with
        | nil => exact Or.inr (by simp)
        | cons u us => exact Or.inl ⟨_, rfl⟩)
      have h3 : ws f i = .ok (skip isMulti (ts.flatMap (fun a => [' '] ++ w a) ++ R)) t := by
        simp only [ws, h2, h1, PR.bind, h1']
      have h4 : (skip isMulti (ts.flatMap (fun a => [' '] ++ w a) ++ R)).length ≠ i.length := by
        have a1 := skip_length isMulti i
        have a2 := skip_length isMulti (ts.flatMap (fun a => [' '] ++ w a) ++ R)
        rw [h2] at a1
        obtain ⟨c, cs, e, _⟩ := hh t (by simp)
        rw [e] at a1
        simp only [List.length_append, List.length_cons] at a1 a2
        omega
      simp only [manyLoop, h3, if_neg h4]
      rw [ih (fun t ht => hh t (by simp [ht])) (fun t ht => hf t (by simp [ht])) m (by simpa using hm) _
        (skip_skip _ _)]
      cases ts with
      | nil => simp
      | cons u us => simp

theorem join_map {α : Type} (sep : Str) (w : α → Str) (a : α) (l : List α) :
    join sep ((a :: l).map w) = w a ++ l.flatMap (fun a => sep ++ w a) := by
  rw [List.map_cons, join_cons, List.flatMap_map]

theorem flat_length {α : Type} (w : α → Str) (l : List α) :
    l.length ≤ (l.flatMap (fun a => [' '] ++ w a)).length := by
  induction l with
  | nil => simp
  | cons u us ih => simp only [List.flatMap_cons, List.length_append, List.length_cons]; omega

/-- The same for items between spaces in brackets: nothing is left before the closing one. -/
theorem many0_round {α : Type} {f : Parser α} {w : α → Str} {l : List α} {c : Char} {R : Str}
    (hh : ∀ a ∈ l, ∃ c cs, w a = c :: cs ∧ isMulti c = false) (hc : isMulti c = false)
    (hf : ∀ a ∈ l, ∀ X, (∃ z, X = ' ' :: z) ∨ X = c :: R → 
      ∃ r, f (w a ++ X) = .ok r a ∧ skip isMulti r = skip isMulti X)
    (hR : f (c :: R) = .err) :
    many0 (ws f) (join [' '] (l.map w) ++ c :: R) = .ok (c :: R) l := by
  have hs : skip isMulti (c :: R) = c :: R := skip_cons hc
  cases l with
  | nil =>
    have := many_round (l := []) (w := w) (f := f) (R := c :: R) (by simp) (by simp) (by rw [hs]; exact hR)
      ((c :: R).length + 1) (by simp) (c :: R) (by simp) []
    simpa [many0, join] using this
  | cons a l =>
    have := many_round (l := a :: l) hh hf (by rw [hs]; exact hR)
      ((join [' '] ((a :: l).map w) ++ c :: R).length + 1)
      (by
        rw [join_map]
        have := flat_length w l
        simp only [List.length_append, List.length_cons] at this ⊢
        omega)
      (join [' '] ((a :: l).map w) ++ c :: R)
      (by
        rw [join_map]
        simp only [List.flatMap_cons, List.cons_append, List.nil_append, List.append_assoc]
        rw [skip_space]) []
    rw [hs] at this
    simpa [many0] using this

section
variable {k : Env} (L : Laws k)
include L

theorem IsName.start {s : Str} (h : IsName k.cls s) : ∃ c cs, s = c :: cs ∧ isMulti c = false := by
  obtain ⟨⟨c, cs, rfl, hc⟩, _⟩ := h
  refine ⟨c, cs, rfl, ?_⟩
  cases h2 : isMulti c with
  | false => rfl
  | true =>
    simp only [isMulti, Bool.or_eq_true, beq_iff_eq] at h2
    rcases h2 with ((rfl | rfl) | rfl) | rfl <;> (rw [L.alpha_off (by simp)] at hc; cases hc)

theorem off_cons {c : Char} (h : c ∈ [' ', '\t', '\r', '\n', '"', '\'', '.', ':', '/', '{', '}', '|', '(',
    ')', '<', '>', '$', '#', '\\', '+', '*', '×', '÷', '=', '!']) (z : Str) : Off k.cls.ident (c :: z) := by
  intro d hd
  simp at hd
  subst hd
  exact L.ident_off h

theorem param_round {p : Param} (h : IsName k.cls p.name ∧ IsTy k.cls p.ty) {X : Str} (hX : Off k.cls.ident X)
    (hc : X.head? ≠ some ':') : defParam k (writeParam p ++ X) = .ok X p := by
  obtain ⟨name, ty⟩ := p
  obtain ⟨h1, h2⟩ := h
  dsimp only at h1 h2
  cases ty with
  | none =>
    have e1 := opIdent_app h1 hX
    simp only [defParam, writeParam, writeTy, List.append_nil, e1, PR.bind]
    split
    · simp at hc
    · rfl
  | some t =>
    have e1 : opIdent k.cls (name ++ (':' :: (t ++ X))) = .ok (':' :: (t ++ X)) name :=
      opIdent_app h1 (off_cons L (by simp) _)
    have e2 : opIdent k.cls (t ++ X) = .ok X t := opIdent_app h2 hX
    simp only [defParam, writeParam, writeTy, List.cons_append, List.append_assoc, e1, PR.bind, e2, PR.map]

theorem params_round {ps : List Param} (h : ∀ p ∈ ps, IsName k.cls p.name ∧ IsTy k.cls p.ty)
    (hn : (ps.map (·.name)).Nodup) (X : Str) :
    defParams k ('(' :: (join [' '] (ps.map writeParam) ++ ')' :: X)) = .ok X ps := by
  have e1 : many0 (ws (defParam k)) (join [' '] (ps.map writeParam) ++ ')' :: X) = .ok (')' :: X) ps := by
    apply many0_round
    · intro p hp
      obtain ⟨c, cs, e, hc⟩ := IsName.start L (h p hp).1
      exact ⟨c, cs ++ writeTy p.ty, by simp [writeParam, e], hc⟩
    · decide
    · rintro p hp Y (⟨z, rfl⟩ | rfl)
      · exact ⟨_, param_round L (h p hp) (off_cons L (by simp) _) (by simp), rfl⟩
      · exact ⟨_, param_round L (h p hp) (off_cons L (by simp) _) (by simp), rfl⟩
    · have : opIdent k.cls (')' :: X) = .err := opIdent_none (by
        intro c hc; simp at hc; subst hc; exact L.alpha_off (by simp))
      simp [defParam, this, PR.bind]
  simp [defParams, chr, PR.bind, e1, hn]

/-- A definition of a command in canonical form is read back as it was written. -/
theorem definition_round_trip (d : DefImpl) (h : GoodDef k d) : definitionImpl k (writeDef d) = .ok [] d := by
  obtain ⟨name, inTy, ps, body⟩ := d
  obtain ⟨h1, h2, h3, h4, h5, h6⟩ := h
  dsimp only at h1 h2 h3 h4 h5 h6
  cases body with
  | mk bs out =>
    have ho : out = none := by simpa [Expr.setOut] using h6
    subst ho
    obtain ⟨g1, g2, _⟩ := h5
    -- what follows the parameters
    let T0 : Str := ' ' :: '{' :: ' ' :: (writeBs bs ++ [' ', '}'])
    let T1 : Str := '(' :: (join [' '] (ps.map writeParam) ++ ')' :: T0)
    let T2 : Str := writeIn inTy ++ T1
    have hw : writeDef ⟨name, inTy, ps, .mk bs none⟩ = ['d', 'e', 'f', ' '] ++ (name ++ ' ' :: T2) := by
      simp [writeDef, writeE, writeTy, T0, T1, T2]
    have s2 : skip isMulti T2 = T2 := by
      cases inTy with
      | none => exact skip_cons (by decide)
      | some t =>
        obtain ⟨c, cs, e, hc⟩ := IsName.start L h2
        subst e
        exact skip_cons hc
    have e1 : defOp k (writeDef ⟨name, inTy, ps, .mk bs none⟩) = .ok T2 name := by
      have o1 : op k (name ++ ' ' :: T2) = .ok (' ' :: T2) (.single name) :=
        op_app (o := .single name) L h1 (by
          intro c cs e
          cases e
          exact Or.inl rfl)
      rw [hw]
      have t1 : tag ['d', 'e', 'f', ' '] (['d', 'e', 'f', ' '] ++ (name ++ ' ' :: T2)) =
        .ok (name ++ ' ' :: T2) () := tag_ok.2 rfl
      have sk : skip isMulti (['d', 'e', 'f', ' '] ++ (name ++ ' ' :: T2)) =
        ['d', 'e', 'f', ' '] ++ (name ++ ' ' :: T2) := skip_cons (by decide)
      simp only [defOp, ws, sk, t1, PR.bind, o1]
      rw [skip_space, s2]
    have e2 : ws (opt (opIdent k.cls)) T2 = .ok T1 inTy := by
      simp only [ws, s2]
      cases inTy with
      | none =>
        have : opIdent k.cls T2 = .err := opIdent_none (by
          intro c hc; simp [T2, T1, writeIn] at hc; subst hc; exact L.alpha_off (by simp))
        simp only [opt, this, PR.bind]
        rw [s2]
        rfl
      | some t =>
        have e : T2 = t ++ ' ' :: T1 := by simp [T2, writeIn]
        have : opIdent k.cls T2 = .ok (' ' :: T1) t := by
          rw [e]
          exact opIdent_app h2 (off_cons L (by simp) _)
        simp only [opt, this, PR.bind]
        rw [skip_space]
        have : skip isMulti T1 = T1 := skip_cons (by decide)
        rw [this]
    have e3 : defParams k T1 = .ok T0 ps := params_round L h3 h4 T0
    have hd := depthBs_le L bs g2
    have hR : EFol [' ', '}'] := ⟨Or.inr ⟨_, rfl⟩, Or.inr ⟨_, rfl⟩⟩
    have e4 := expr_round L (n := (writeDef ⟨name, inTy, ps, .mk bs none⟩).length + 1) g1 (goodBs_mem L bs g2)
      (roundBs L bs g2 _ (by
        rw [hw]
        simp only [List.length_append, List.length_cons, T2, T1, T0]
        omega)) hR
    have e5 : ∃ c cs, writeBs bs = c :: cs ∧ isMulti c = false := by
      cases bs with
      | nil => exact absurd rfl g1
      | cons b bs =>
        obtain ⟨c, cs, e, h1, h2⟩ := writeB_head L (goodBs_mem L _ g2 b (by simp))
        rw [writeBs_cons, e]
        exact ⟨_, _, rfl, h1⟩
    have e6 : ws (expr (blockN k ((writeDef ⟨name, inTy, ps, .mk bs none⟩).length + 1)))
        (' ' :: (writeBs bs ++ [' ', '}'])) = .ok ['}'] (.mk bs none) := by
      simp only [ws]
      rw [skip_space, skip_head L e5, e4]
      rfl
    have sk : skip isMulti T0 = '{' :: ' ' :: (writeBs bs ++ [' ', '}']) := by
      simp only [T0]
      rw [skip_space, skip_cons (by decide)]
    unfold definitionImpl
    simp only [e1, bind_ok', e2, e3]
    have e7 : (ws fun i =>
        (chr '{' i).bind fun i _ =>
          (ws (expr (blockN k ((writeDef ⟨name, inTy, ps, .mk bs none⟩).length + 1))) i).bind fun i e =>
            (chr '}' i).map fun _ => e) T0 = .ok [] (.mk bs none) := by
      rw [ws, sk]
      simp only [chr, if_true, PR.bind, e6, PR.map]
      rfl
    rw [noTrailing, e7]
    rfl

/-- A field of a type. -/
theorem field_round {f : Field} (h : GoodField k f) {X : Str} (hX : Off k.cls.ident X) (hlt : X.head? ≠ some '<') :
    ∃ r, deftyField k (writeField f ++ X) = .ok r f ∧ skip isMulti r = skip isMulti X := by
  obtain ⟨name, ty, ps⟩ := f
  obtain ⟨h1, h2, h3⟩ := h
  dsimp only at h1 h2 h3
  cases ps with
  | nil =>
    have e1 : opIdent k.cls (name ++ (':' :: (ty ++ X))) = .ok (':' :: (ty ++ X)) name :=
      opIdent_app h1 (off_cons L (by simp) _)
    have e2 : opIdent k.cls (ty ++ X) = .ok X ty := opIdent_app h2 hX
    refine ⟨X, ?_, rfl⟩
    simp only [deftyField, writeField, List.append_nil, List.cons_append, List.append_assoc, e1, PR.bind, cut, chr,
      if_true, e2]
    split
    · simp at hlt
    · rfl
  | cons p ps =>
    have e1 : opIdent k.cls (name ++ (':' :: (ty ++ '<' :: (join [' '] (p :: ps) ++ '>' :: X)))) =
        .ok (':' :: (ty ++ '<' :: (join [' '] (p :: ps) ++ '>' :: X))) name :=
      opIdent_app h1 (off_cons L (by simp) _)
    have e2 : opIdent k.cls (ty ++ '<' :: (join [' '] (p :: ps) ++ '>' :: X)) =
        .ok ('<' :: (join [' '] (p :: ps) ++ '>' :: X)) ty := opIdent_app h2 (off_cons L (by simp) _)
    have hgt : skip isMulti ('>' :: X) = '>' :: X := skip_cons (by decide)
    have hgt' : opIdent k.cls ('>' :: X) = .err := opIdent_none (by
      intro c hc; simp at hc; subst hc; exact L.alpha_off (by simp))
    have e3 : many1 (ws (opIdent k.cls)) (join [' '] (p :: ps) ++ '>' :: X) = .ok ('>' :: X) (p :: ps) := by
      have hoff : Off k.cls.ident (ps.flatMap (fun a => [' '] ++ a) ++ '>' :: X) := by
        cases ps with
        | nil => exact off_cons L (by simp) _
        | cons q qs => exact off_cons L (by simp) _
      have a1 : ws (opIdent k.cls) (join [' '] (p :: ps) ++ '>' :: X) =
          .ok (skip isMulti (ps.flatMap (fun a => [' '] ++ a) ++ '>' :: X)) p := by
        rw [join_cons, List.append_assoc]
        simp only [ws]
        rw [skip_head L (IsName.start L (h3 p (by simp))), opIdent_app (h3 p (by simp)) hoff]
        rfl
      have a2 := many_round (f := opIdent k.cls) (w := id) (l := ps) (R := '>' :: X)
        (fun a ha => IsName.start L (h3 a (by simp [ha])))
        (by
          rintro a ha Y (⟨z, rfl⟩ | rfl)
          · exact ⟨_, opIdent_app (h3 a (by simp [ha])) (off_cons L (by simp) _), rfl⟩
          · exact ⟨_, opIdent_app (h3 a (by simp [ha])) (off_cons L (by simp) _), rfl⟩)
        (by rw [hgt]; exact hgt')
        ((skip isMulti (ps.flatMap (fun a => [' '] ++ a) ++ '>' :: X)).length + 1)
        (by
          cases ps with
          | nil => simp
          | cons q qs =>
            have := flat_length id qs
            simp only [id] at this
            simp only [List.flatMap_cons, List.cons_append, List.nil_append, List.append_assoc]
            rw [skip_space, skip_head L (IsName.start L (h3 q (by simp)))]
            obtain ⟨c, cs, e, _⟩ := IsName.start L (h3 q (by simp))
            simp only [List.cons_append, List.nil_append] at this
            simp only [e, List.length_append, List.length_cons]
            omega)
        (skip isMulti (ps.flatMap (fun a => [' '] ++ a) ++ '>' :: X)) (by rw [skip_skip]; rfl) [p]
      simp only [many1, a1, PR.bind]
      rw [a2, hgt]
      cases ps with
      | nil => simp [hgt]
      | cons q qs => simp
    refine ⟨skip isMulti X, ?_, skip_skip _ _⟩
    have e0 : writeField ⟨name, ty, p :: ps⟩ ++ X = name ++ (':' :: (ty ++ '<' :: (join [' '] (p :: ps) ++ '>' :: X))) := by
      simp [writeField]
    rw [e0]
    simp only [deftyField]
    simp only [e1, PR.bind, cut, chr, if_true, e2, e3]
    simp only [ws, hgt, chr, if_true, PR.bind, PR.map]

theorem GoodField.start {f : Field} (h : GoodField k f) : ∃ c cs, writeField f = c :: cs ∧ isMulti c = false := by
  obtain ⟨c, cs, e, hc⟩ := IsName.start L h.1
  simp only [writeField, e]
  exact ⟨_, _, rfl, hc⟩

theorem fields_round {fs : List Field} (h : ∀ f ∈ fs, GoodField k f) (X : Str) :
    deftyFields k (writeFields fs ++ X) = .ok X fs := by
  have e1 : many0 (ws (deftyField k)) (join [' '] (fs.map writeField) ++ '}' :: X) = .ok ('}' :: X) fs := by
    apply many0_round
    · intro f hf
      exact GoodField.start L (h f hf)
    · decide
    · rintro f hf Y (⟨z, rfl⟩ | rfl)
      · exact field_round L (h f hf) (off_cons L (by simp) _) (by simp)
      · exact field_round L (h f hf) (off_cons L (by simp) _) (by simp)
    · have : opIdent k.cls ('}' :: X) = .err := opIdent_none (by
        intro c hc; simp at hc; subst hc; exact L.alpha_off (by simp))
      simp [deftyField, this, PR.bind]
  have e0 : writeFields fs ++ X = '{' :: (join [' '] (fs.map writeField) ++ '}' :: X) := by simp [writeFields]
  rw [e0]
  simp [deftyFields, chr, PR.bind, e1, PR.map]

/-- What follows a variant: the end, or a space and a pipe. -/
def VFol (X : Str) : Prop := X = [] ∨ ∃ z, X = ' ' :: '|' :: z

omit L in
theorem variant_start {v : Str × Option (List Field)} {c : Char} {cs : Str} (e : v.1 = c :: cs)
    (hc : isMulti c = false) : ∃ c cs, writeVariant v = c :: cs ∧ isMulti c = false := by
  obtain ⟨n, fs⟩ := v
  cases e
  cases fs with
  | none => exact ⟨c, cs, by simp [writeVariant], hc⟩
  | some fs => exact ⟨c, cs ++ ' ' :: writeFields fs, by simp [writeVariant], hc⟩

theorem variant_round {v : Str × Option (List Field)} (h : GoodVariant k v) {X : Str} (hX : VFol X) :
    deftyVariant k (writeVariant v ++ X) = .ok (skip isMulti X) v := by
  obtain ⟨name, fs⟩ := v
  obtain ⟨h1, h2⟩ := h
  dsimp only at h1 h2
  have hs := IsName.start L h1
  cases fs with
  | none =>
    have hoff : Off k.cls.ident X := by
      rcases hX with rfl | ⟨z, rfl⟩
      · simp [Off]
      · exact off_cons L (by simp) _
    have e1 : ws (opIdent k.cls) (name ++ X) = .ok (skip isMulti X) name := by
      rw [ws, skip_head L hs, opIdent_app h1 hoff]
      rfl
    have e2 : ws (deftyFields k) (skip isMulti X) = .err := by
      rw [ws, skip_skip]
      rcases hX with rfl | ⟨z, rfl⟩
      · rfl
      · rw [skip_space, skip_cons (by decide)]
        rfl
    simp only [deftyVariant, writeVariant, List.append_nil]
    rw [e1, bind_ok', opt, e2]
    rfl
  | some fs =>
    have e1 : ws (opIdent k.cls) (name ++ ' ' :: (writeFields fs ++ X)) = .ok (writeFields fs ++ X) name := by
      rw [ws, skip_head L hs, opIdent_app h1 (off_cons L (by simp) _), bind_ok', skip_space]
      rw [show skip isMulti (writeFields fs ++ X) = writeFields fs ++ X from skip_cons (by decide)]
    have e2 : ws (deftyFields k) (writeFields fs ++ X) = .ok (skip isMulti X) fs := by
      rw [ws, show skip isMulti (writeFields fs ++ X) = writeFields fs ++ X from skip_cons (by decide),
        fields_round L (h2 fs rfl)]
      rfl
    simp only [deftyVariant, writeVariant, List.cons_append, List.append_assoc]
    rw [e1, bind_ok', opt, e2]
    rfl

theorem wsVariant_round {v : Str × Option (List Field)} (h : GoodVariant k v) {X : Str} (hX : VFol X) :
    ws (deftyVariant k) (writeVariant v ++ X) = .ok (skip isMulti X) v := by
  obtain ⟨c, cs, e, hc⟩ := IsName.start L h.1
  rw [ws, skip_head L (s := writeVariant v) (variant_start e hc), variant_round L h hX,
    bind_ok', skip_skip]

theorem variants_round {vs : List (Str × Option (List Field))} (h : ∀ v ∈ vs, GoodVariant k v) (m : Nat)
    (hm : vs.length ≤ m) (acc : List (Str × Option (List Field))) :
    sepLoop (ws (chr '|')) (ws (deftyVariant k)) m
      (skip isMulti (vs.flatMap (fun v => [' ', '|', ' '] ++ writeVariant v))) acc = .ok [] (acc ++ vs) := by
  induction vs generalizing m acc with
  | nil =>
    cases m with
    | zero => simp [sepLoop, skip]
    | succ m => simp [sepLoop, skip, ws, chr, PR.bind]
  | cons v vs ih =>
    cases m with
    | zero => simp at hm
    | succ m =>
      have hf : VFol (vs.flatMap (fun v => [' ', '|', ' '] ++ writeVariant v)) := by
        cases vs with
        | nil => exact Or.inl rfl
        | cons u us => exact Or.inr ⟨_, rfl⟩
      have e1 := wsVariant_round L (h v (by simp)) hf
      obtain ⟨c, cs, e, hc⟩ := IsName.start L (h v (by simp)).1
      have e2 : skip isMulti ((v :: vs).flatMap (fun v => [' ', '|', ' '] ++ writeVariant v)) =
          '|' :: ' ' :: (writeVariant v ++ vs.flatMap (fun v => [' ', '|', ' '] ++ writeVariant v)) := by
        simp only [List.flatMap_cons, List.cons_append, List.nil_append]
        rw [skip_space, skip_cons (by decide)]
      have e3 : ws (chr '|') ('|' :: ' ' :: (writeVariant v ++
          vs.flatMap (fun v => [' ', '|', ' '] ++ writeVariant v))) =
          .ok (writeVariant v ++ vs.flatMap (fun v => [' ', '|', ' '] ++ writeVariant v)) () := by
        rw [ws, skip_cons (by decide)]
        simp only [chr, if_true, bind_ok']
        rw [skip_space, skip_head L (s := writeVariant v) (variant_start e hc)]
      rw [e2]
      simp only [sepLoop, e3]
      rw [if_neg (by simp only [List.length_cons]; omega)]
      rw [e1]
      simp only
      rw [ih (fun v hv => h v (by simp [hv])) m (by simpa using hm)]
      simp

/-- A definition of a type in canonical form is read back as it was written. -/
theorem type_round_trip (d : DefTy) (h : GoodDefTy k d) : definitionType k (writeDefTy d) = .ok [] d := by
  obtain ⟨name, body⟩ := d
  obtain ⟨h1, h2⟩ := h
  dsimp only at h1 h2
  have step : ∀ T : Str, skip isMulti T = T →
      ws (fun i => (tag ['d', 'e', 'f', '-', 't', 'y', ' '] i).bind fun i _ => opIdent k.cls i)
        (['d', 'e', 'f', '-', 't', 'y', ' '] ++ (name ++ ' ' :: T)) = .ok T name := by
    intro T hT
    have t1 : tag ['d', 'e', 'f', '-', 't', 'y', ' '] (['d', 'e', 'f', '-', 't', 'y', ' '] ++ (name ++ ' ' :: T)) =
      .ok (name ++ ' ' :: T) () := tag_ok.2 rfl
    rw [ws, show skip isMulti (['d', 'e', 'f', '-', 't', 'y', ' '] ++ (name ++ ' ' :: T)) =
      ['d', 'e', 'f', '-', 't', 'y', ' '] ++ (name ++ ' ' :: T) from skip_cons (by decide)]
    rw [t1, bind_ok', opIdent_app h1 (off_cons L (by simp) _), bind_ok', skip_space, hT]
  cases body with
  | product fs =>
    have e1 := step (writeFields fs) (skip_cons (by decide))
    have e2 : ws (tag [':', ':']) (writeFields fs) = .err := by
      rw [ws, show skip isMulti (writeFields fs) = writeFields fs from skip_cons (by decide)]
      rfl
    have e3 := fields_round L h2 []
    rw [List.append_nil] at e3
    unfold definitionType
    simp only [writeDefTy, List.append_assoc, List.cons_append, List.nil_append] at e1 ⊢
    rw [e1, bind_ok', e2]
    simp only [e3]
    rfl
  | sum vs =>
    have e1 := step (':' :: ':' :: ' ' :: join [' ', '|', ' '] (vs.map writeVariant)) (skip_cons (by decide))
    have e2 : ∃ T, ws (tag [':', ':']) (':' :: ':' :: ' ' :: join [' ', '|', ' '] (vs.map writeVariant)) = .ok T () ∧
        sepList0 (ws (chr '|')) (ws (deftyVariant k)) T = .ok [] vs := by
      refine ⟨skip isMulti (join [' ', '|', ' '] (vs.map writeVariant)), ?_, ?_⟩
      · rw [ws, skip_cons (by decide)]
        simp only [tag, List.isPrefixOf]
        simp [PR.bind, skip_space]
      · cases vs with
        | nil => rfl
        | cons v vs =>
          have hf : VFol (vs.flatMap (fun v => [' ', '|', ' '] ++ writeVariant v)) := by
            cases vs with
            | nil => exact Or.inl rfl
            | cons u us => exact Or.inr ⟨_, rfl⟩
          obtain ⟨c, cs, e, hc⟩ := IsName.start L (h2 v (by simp)).1
          rw [join_map, skip_head L (s := writeVariant v) (variant_start e hc)]
          rw [sepList0, wsVariant_round L (h2 v (by simp)) hf]
          have := variants_round L (vs := vs) (fun u hu => h2 u (by simp [hu]))
            (skip isMulti (vs.flatMap (fun v => [' ', '|', ' '] ++ writeVariant v))).length (by
              cases vs with
              | nil => simp
              | cons u us =>
                simp only [List.flatMap_cons, List.cons_append, List.nil_append]
                rw [skip_space, skip_cons (by decide)]
                have : ∀ us : List (Str × Option (List Field)),
                    us.length ≤ (us.flatMap (fun b => ' ' :: '|' :: ' ' :: writeVariant b)).length := by
                  intro us
                  induction us with
                  | nil => simp
                  | cons u us ih => simp only [List.flatMap_cons, List.length_append, List.length_cons]; omega
                have := this us
                simp only [List.length_cons, List.length_append]
                omega) [v]
          simpa using this
    obtain ⟨T, e2, e3⟩ := e2
    unfold definitionType
    simp only [writeDefTy, List.append_assoc, List.cons_append, List.nil_append] at e1 ⊢
    rw [e1, bind_ok', e2]
    simp only [e3]
    rfl

/-- Leading white space does not matter for expressions. -/
theorem expression_space (i : Str) : expression k (' ' :: i) = expression k i := by
  rw [← expression_ends k i ((' ' :: i).length + 1) (by simp; omega)]
  simp only [expression, noTrailing, expr, ws, skip_space]

omit L in
theorem defOp_sound {i r s : Str} (h : defOp k i = .ok r s) : IsOp k.cls (.single s) := by
  obtain ⟨j, o, h1, h2⟩ := PR.bind_ok.1 h
  have := ws_sound (P := IsOp k.cls) (fun i r a h => by
    obtain ⟨j, u, h1, h2⟩ := PR.bind_ok.1 h
    exact op_sound h2) _ _ _ h1
  split at h2
  · cases h2; exact this
  · cases h2

omit L in
theorem opt_sound {α : Type} {f : Parser α} {P : α → Prop} (hf : ∀ i r a, f i = .ok r a → P a) :
    ∀ i r o, opt f i = .ok r o → ∀ a, o = some a → P a := by
  intro i r o h a e
  subst e
  unfold opt at h
  split at h
  · cases h; exact hf _ _ _ (by assumption)
  · cases h
  · cases h

/-- Every definition of a command which can be read can be written. -/
theorem definition_good {i r : Str} {d : DefImpl} (h : definitionImpl k i = .ok r d) : GoodDef k d := by
  unfold definitionImpl at h
  dsimp only at h
  obtain ⟨i1, name, h1, h⟩ := PR.bind_ok.1 h
  obtain ⟨i2, inTy, h2, h⟩ := PR.bind_ok.1 h
  obtain ⟨i3, ps, h3, h⟩ := PR.bind_ok.1 h
  obtain ⟨e, h4, rfl⟩ := PR.map_ok.1 h
  have g2 : IsTy k.cls inTy := by
    have := ws_sound (P := fun o : Option Str => ∀ a, o = some a → IsName k.cls a)
      (opt_sound fun i r a h => (opIdent_sound h).1) _ _ _ h2
    cases inTy with
    | none => trivial
    | some t => exact this t rfl
  have g3 : (∀ p ∈ ps, IsName k.cls p.name ∧ IsTy k.cls p.ty) ∧ (ps.map (·.name)).Nodup := by
    obtain ⟨j1, _, _, h3⟩ := PR.bind_ok.1 h3
    obtain ⟨j2, qs, h5, h3⟩ := PR.bind_ok.1 h3
    obtain ⟨j3, _, _, h3⟩ := PR.bind_ok.1 h3
    split at h3
    · rename_i hn
      cases h3
      refine ⟨?_, hn⟩
      refine manyLoop_all (ws_sound ?_) (by simp) h5
      intro i r p h
      obtain ⟨l1, nm, h6, h⟩ := PR.bind_ok.1 h
      split at h
      · obtain ⟨t, h7, rfl⟩ := PR.map_ok.1 h
        exact ⟨(opIdent_sound h6).1, (opIdent_sound h7).1⟩
      · cases h
        exact ⟨(opIdent_sound h6).1, trivial⟩
    · cases h3
  have g4 : GoodE k e ∧ e = e.setOut none := by
    obtain ⟨j1, e', h5, h6⟩ := PR.bind_ok.1 h4
    split at h6
    · cases h6
      refine ws_sound (P := fun e => GoodE k e ∧ e = e.setOut none) ?_ _ _ _ h5
      intro i r a h
      obtain ⟨l1, _, _, h⟩ := PR.bind_ok.1 h
      obtain ⟨l2, x, h7, h⟩ := PR.bind_ok.1 h
      obtain ⟨_, _, rfl⟩ := PR.map_ok.1 h
      exact ws_sound (P := fun e => GoodE k e ∧ e = e.setOut none)
        (fun i r a h => expr_sound (blockN_sound L _) h) _ _ _ h7
    · cases h6
  exact ⟨defOp_sound h1, g2, g3.1, g3.2, g4.1, g4.2⟩

omit L in
theorem fields_good {i r : Str} {fs : List Field} (h : deftyFields k i = .ok r fs) : ∀ f ∈ fs, GoodField k f := by
  obtain ⟨j1, _, _, h⟩ := PR.bind_ok.1 h
  obtain ⟨j2, gs, h1, h⟩ := PR.bind_ok.1 h
  obtain ⟨_, _, rfl⟩ := PR.map_ok.1 h
  refine manyLoop_all (ws_sound ?_) (by simp) h1
  intro i r f h
  obtain ⟨l1, nm, a1, h⟩ := PR.bind_ok.1 h
  obtain ⟨l2, _, a2, h⟩ := PR.bind_ok.1 h
  obtain ⟨l3, ty, a3, h⟩ := PR.bind_ok.1 h
  split at h
  · obtain ⟨ps, a4, rfl⟩ := PR.map_ok.1 h
    obtain ⟨l4, qs, a5, h⟩ := PR.bind_ok.1 (cut_ok a4)
    obtain ⟨_, _, rfl⟩ := PR.map_ok.1 h
    refine ⟨(opIdent_sound a1).1, (opIdent_sound (cut_ok a3)).1, ?_⟩
    obtain ⟨l5, q, a6, a7⟩ := PR.bind_ok.1 a5
    have hn := ws_sound (f := opIdent k.cls) (P := IsName k.cls) (fun i r a h => (opIdent_sound h).1)
    exact manyLoop_all hn (acc := [q]) (by intro x hx; simp at hx; subst hx; exact hn _ _ _ a6) a7
  · cases h
    exact ⟨(opIdent_sound a1).1, (opIdent_sound (cut_ok a3)).1, by simp⟩

omit L in
theorem variant_good {i r : Str} {v : Str × Option (List Field)} (h : deftyVariant k i = .ok r v) :
    GoodVariant k v := by
  obtain ⟨j1, nm, h1, h⟩ := PR.bind_ok.1 h
  obtain ⟨fs, h2, rfl⟩ := PR.map_ok.1 h
  exact ⟨ws_sound (P := IsName k.cls) (fun i r a h => (opIdent_sound h).1) _ _ _ h1,
    opt_sound (ws_sound fun i r a h => fields_good h) _ _ _ h2⟩

omit L in
/-- Every definition of a type which can be read can be written. -/
theorem type_good {i r : Str} {d : DefTy} (h : definitionType k i = .ok r d) : GoodDefTy k d := by
  obtain ⟨j1, nm, h1, h⟩ := PR.bind_ok.1 h
  obtain ⟨j2, ty, h2, h⟩ := PR.bind_ok.1 h
  have g1 : IsName k.cls nm := ws_sound (P := IsName k.cls) (fun i r a h => by
    obtain ⟨j, u, h1, h2⟩ := PR.bind_ok.1 h
    exact (opIdent_sound h2).1) _ _ _ h1
  split at h
  · cases h
    refine ⟨g1, ?_⟩
    dsimp only
    split at h2
    · obtain ⟨vs, h3, rfl⟩ := PR.map_ok.1 h2
      dsimp only
      have hv := ws_sound (f := deftyVariant k) (P := GoodVariant k) (fun i r a h => variant_good h)
      unfold sepList0 at h3
      split at h3
      · cases h3; simp
      · cases h3
      · rename_i l a h4
        exact (sepLoop_all hv (acc := [a]) (by intro x hx; simp at hx; subst hx; exact hv _ _ _ h4) h3).1
    · obtain ⟨fs, h3, rfl⟩ := PR.map_ok.1 h2
      exact fields_good h3
  · cases h

/-- Whatever can be entered, an expression or a definition, can be written in canonical form, and reading
that yields the same again. -/
theorem parse_reread {i r : Str} {x : Parsed} (h : parse k i = .ok r x) : parse k (writeInput x) = .ok [] x := by
  unfold parse at h
  split at h
  · obtain ⟨d, h1, rfl⟩ := PR.map_ok.1 h
    have e1 := definition_round_trip L d (definition_good L h1)
    have e2 : ['d', 'e', 'f', ' '].isPrefixOf (writeDef d) = true := by simp [writeDef, List.isPrefixOf]
    show parse k (writeDef d) = _
    unfold parse
    rw [if_pos e2, e1]
    rfl
  · split at h
    · obtain ⟨d, h1, rfl⟩ := PR.map_ok.1 h
      have e1 := type_round_trip L d (type_good h1)
      have e2 : ['d', 'e', 'f', '-', 't', 'y', ' '].isPrefixOf (writeDefTy d) = true := by
        simp [writeDefTy, List.isPrefixOf]
      have e3 : ['d', 'e', 'f', ' '].isPrefixOf (writeDefTy d) = false := by
        simp [writeDefTy, List.isPrefixOf]
      show parse k (writeDefTy d) = _
      unfold parse
      rw [if_neg (by rw [e3]; simp), if_pos e2, e1]
      rfl
    · obtain ⟨e, h1, rfl⟩ := PR.map_ok.1 h
      have e1 := reread L h1
      have e2 : ['d', 'e', 'f', ' '].isPrefixOf (' ' :: write e) = false := by simp [List.isPrefixOf]
      have e3 : ['d', 'e', 'f', '-', 't', 'y', ' '].isPrefixOf (' ' :: write e) = false := by
        simp [List.isPrefixOf]
      show parse k (' ' :: write e) = _
      unfold parse
      rw [if_neg (by rw [e2]; simp), if_neg (by rw [e3]; simp), expression_space L, e1]
      rfl

end

end Verif.Parse
