import Verif.Lemmas.TagsExpr
/-! Definitions: the parser with tags follows the parser with texts. -/
namespace Verif.Tags
open Verif.Nom Verif.File
open Verif.Parse (Env Str ws many0 many1 sepList0 manyLoop noTrailing)

/-- The parts stand in their order between the positions. -/
def GoodOf {β : Type} (w : Str) (g : β → List Node) : Nat → Nat → β → Prop := fun lo hi b => Good w lo hi (g b)

theorem Sim.wsGood {α β : Type} {w : Str} {f : β → Option α} {g : β → List Node} {lp : Parser β} {p : Parser α}
    (h : Sim w f (GoodOf w g) lp p) : Sim w f (GoodOf w g) (Parse.ws lp) (Parse.ws p) :=
  h.ws fun _ _ _ _ _ h1 h2 (h3 : Good w _ _ _) => h3.mono h1 h2

theorem manyLoop_good {α β : Type} {w : Str} {f : β → Option α} {g : β → List Node} {lp : Parser β} {p : Parser α}
    (h : Sim w f (GoodOf w g) lp p) (lo n : Nat) (i : Str) (acc : List β) (acc' : List α) (hi : i <:+ w) (ha : allO f acc = some acc')
    (hg : Good w lo (off w i) (acc.flatMap g)) :
    Tracks (allO f) (fun r bs => r <:+ i ∧ Good w lo (off w r) (bs.flatMap g)) (manyLoop lp n i acc) (manyLoop p n i acc') := by
  refine many_sim h (Inv := fun hi bs => Good w lo hi (bs.flatMap g)) ?_ n i acc acc' hi ha hg
  intro a b acc t h1 h2
  have h3 : Good w a b (g t) := h2
  simpa [List.flatMap_append] using h1.append h3

theorem many0_good {α β : Type} {w : Str} {f : β → Option α} {g : β → List Node} {lp : Parser β} {p : Parser α}
    (h : Sim w f (GoodOf w g) lp p) : Sim w (allO f) (GoodOf w (List.flatMap g)) (many0 lp) (many0 p) := by
  intro i hi
  exact manyLoop_good h (off w i) _ i [] [] hi rfl (.nil (Nat.le_refl _))

theorem many1_good {α β : Type} {w : Str} {f : β → Option α} {g : β → List Node} {lp : Parser β} {p : Parser α}
    (h : Sim w f (GoodOf w g) lp p) : Sim w (allO f) (GoodOf w (List.flatMap g)) (many1 lp) (many1 p) := by
  intro i hi
  unfold Parse.many1
  refine Tracks.bind (h i hi) ?_
  intro r b a h1 h2
  have h3 : Good w _ _ (g b) := h2.2
  refine (manyLoop_good h (off w i) _ r [b] [a] (h2.1.trans hi) (by simp [allO, h1]) (by simpa using h3)).mono ?_
  intro s bs hs
  exact ⟨hs.1.trans h2.1, hs.2⟩

theorem sepList0_good {α β γ : Type} {w : Str} {f : β → Option α} {g : β → List Node} {sep : Parser γ} {lp : Parser β} {p : Parser α}
    (hs : ∀ i r a, sep i = .ok r a → r <:+ i) (h : Sim w f (GoodOf w g) lp p) :
    Sim w (allO f) (GoodOf w (List.flatMap g)) (sepList0 sep lp) (sepList0 sep p) := by
  intro i hi
  unfold Parse.sepList0
  rcases (h i hi).cases with ⟨r, b, a, e1, e2, h1, h2⟩ | ⟨e1, e2⟩ | ⟨e1, e2⟩
  · rw [e1, e2]
    have h3 : Good w _ _ (g b) := h2.2
    refine (sep_sim hs h (Inv := fun hi bs => Good w (off w i) hi (bs.flatMap g)) ?_ r.length r [b] [a] (h2.1.trans hi) (by simp [allO, h1])
      (by simpa using h3)).mono ?_
    · intro a m b acc t h4 h5 h6
      have h7 : Good w m b (g t) := h6
      simpa [List.flatMap_append] using (h4.mono (Nat.le_refl _) h5).append h7
    · intro s bs hs
      exact ⟨hs.1.trans h2.1, hs.2⟩
  · rw [e1, e2]; exact ⟨rfl, rfl, List.suffix_rfl, .nil (Nat.le_refl _)⟩
  · rw [e1, e2]; exact True.intro

theorem lName_good (k : Env) (w : Str) {ty : NodeType} (h1 : ty ≠ .var) (h2 : ty ≠ .flag) :
    Sim w (Span.str w) (GoodOf w fun t => [⟨t, ty⟩]) (lName k w) (opIdent k.cls) := by
  intro i hi
  refine (lName_sim k w i hi).mono ?_
  rintro r t ⟨hr, hlt, rfl⟩
  exact ⟨hr, .one (stands_plain hi hr hlt h1 h2)⟩

theorem noTrailing_sim {α β : Type} {f : β → Option α} {Q : Str → β → Prop} {lp : Parser β} {p : Parser α} {i : Str}
    (h : Tracks f Q (lp i) (p i)) : Tracks f (fun _ b => ∃ r, Q r b) (noTrailing lp i) (noTrailing p i) := by
  unfold Parse.noTrailing
  refine Tracks.bind h ?_
  intro r b a h1 h2
  split
  · exact ⟨rfl, h1, r, h2⟩
  · exact True.intro

/-- The name of a parameter. -/
def paramLeaves (p : LParam) : List Node := [⟨p.name, .parameter⟩]

theorem lDefParam_sim (k : Env) (w : Str) : Sim w (LParam.text w) (GoodOf w paramLeaves) (lDefParam k w) (Parse.defParam k) := by
  intro i hi
  unfold lDefParam Parse.defParam
  refine Tracks.bind (lName_good k w (ty := .parameter) (by simp) (by simp) i hi) ?_
  intro r b a h1 h2
  have hg : Good w (off w i) (off w r) [⟨b, .parameter⟩] := h2.2
  cases r with
  | nil => exact ⟨rfl, by simp [LParam.text, h1, textO], h2.1, hg⟩
  | cons c r =>
    by_cases hc : c = ':'
    · subst hc
      have hr : r <:+ i := (List.suffix_cons _ _).trans h2.1
      refine (lName_sim k w r (hr.trans hi)).map ?_
      rintro s t t' h3 ⟨h4, _⟩
      refine ⟨by simp [LParam.text, h1, h3, textO], h4.trans hr, ?_⟩
      exact hg.mono (Nat.le_refl _) (off_le (h4.trans (List.suffix_cons _ _)))
    · split
      · rename_i e; injection e with e _; exact absurd e hc
      · split
        · rename_i e; injection e with e _; exact absurd e hc
        · exact ⟨rfl, by simp [LParam.text, h1, textO], h2.1, hg⟩

theorem names_text {w : Str} : ∀ {ps : List LParam} {qs : List Parse.Param}, allO (LParam.text w) ps = some qs →
    ps.map (fun p => p.name.str w) = qs.map fun q => some q.name := by
  intro ps
  induction ps with
  | nil => intro qs h; cases h; rfl
  | cons p ps ih =>
    intro qs h
    simp only [allO] at h
    obtain ⟨a, h1, h2⟩ := Option.bind_eq_some_iff.1 h
    obtain ⟨as, h3, rfl⟩ := Option.map_eq_some_iff.1 h2
    obtain ⟨n, h4, h5⟩ := Option.bind_eq_some_iff.1 h1
    obtain ⟨t, h6, rfl⟩ := Option.map_eq_some_iff.1 h5
    simp [ih h3, h4]

theorem nodup_some {l : List Parse.Param} : (l.map fun q => some q.name).Nodup ↔ (l.map (·.name)).Nodup := by
  unfold List.Nodup
  rw [List.pairwise_map, List.pairwise_map]
  simp

theorem lDefParams_sim (k : Env) (w : Str) :
    Sim w (allO (LParam.text w)) (GoodOf w (List.flatMap paramLeaves)) (lDefParams k w) (Parse.defParams k) := by
  intro i hi
  unfold lDefParams Parse.defParams
  refine Tracks.bind (sim_chr w '(' i hi) ?_
  intro i1 _ _ _ h1
  refine Tracks.bind (many0_good (lDefParam_sim k w).wsGood i1 (h1.1.trans hi)) ?_
  intro i2 ps qs a2 h2
  have s2 := h2.1.trans h1.1
  refine Tracks.bind (sim_chr w ')' i2 (s2.trans hi)) ?_
  intro i3 _ _ _ h3
  have e : (ps.map (fun p => p.name.str w)).Nodup ↔ (qs.map (·.name)).Nodup := by
    rw [names_text a2]; exact nodup_some
  have g : Good w (off w i1) (off w i2) (ps.flatMap paramLeaves) := h2.2
  by_cases hn : (qs.map (·.name)).Nodup
  · rw [if_pos (e.2 hn), if_pos hn]
    exact ⟨rfl, a2, h3.1.trans s2, g.mono (off_le h1.1) (off_le h3.1)⟩
  · rw [if_neg (fun h => hn (e.1 h)), if_neg hn]
    exact True.intro

/-- The word before the name, and the name. -/
def headLeaves (ty : NodeType) (t : Span) : List Node := [⟨defTag t, .command⟩, ⟨t, ty⟩]

theorem head_good {w i r s pre : Str} (hi : i <:+ w) (e : i = pre ++ ' ' :: r) (hp : pre ≠ []) (hs : s <:+ r) (hlt : off w r < off w s)
    {ty : NodeType} (h1 : ty ≠ .var) (h2 : ty ≠ .flag) : Good w 0 (off w s) (headLeaves ty ⟨off w r, off w s⟩) := by
  have hr' : ' ' :: r <:+ w := (⟨pre, e.symm⟩ : ∃ t, t ++ ' ' :: r = i).elim fun t ht => by
    have : ' ' :: r <:+ i := ⟨t, ht⟩
    exact this.trans hi
  have hr : r <:+ ' ' :: r := List.suffix_cons _ _
  have o1 : off w r = off w (' ' :: r) + 1 := off_add hr' (t := [' ']) rfl
  have o2 : off w (' ' :: r) = off w i + size pre := off_add hi e
  have := size_pos hp
  have g1 : Good w (off w w) (off w (' ' :: r)) [⟨⟨off w w, off w (' ' :: r)⟩, .command⟩] :=
    .one (stands_plain List.suffix_rfl hr' (by rw [off_self]; omega) (by simp) (by simp))
  have g2 : Good w (off w r) (off w s) [⟨⟨off w r, off w s⟩, ty⟩] := .one (stands_plain (hr.trans hr') hs hlt h1 h2)
  have g := g1.append (g2.mono (lo' := off w (' ' :: r)) (by omega) (Nat.le_refl _))
  rw [off_self] at g
  have e3 : defTag ⟨off w r, off w s⟩ = ⟨0, off w (' ' :: r)⟩ := by
    unfold defTag; dsimp only; rw [o1]; rfl
  unfold headLeaves
  rw [e3]
  exact g

theorem lDefOp_sim (k : Env) (w : Str) :
    Sim w (Span.str w) (fun _ hi t => Good w 0 hi (headLeaves .command t)) (lDefOp k w) (Parse.defOp k) := by
  have hin : Sim w (LOp.text w) (fun _ hi o => Good w 0 hi (headLeaves .command o.tag))
      (fun i => (tag ['d', 'e', 'f', ' '] i).bind fun i _ => lOp k w i) (fun i => (tag ['d', 'e', 'f', ' '] i).bind fun i _ => Parse.op k i) := by
    intro i hi
    dsimp only
    refine Tracks.bind (Tracks.same (Q := fun r _ => i = ['d', 'e', 'f', ' '] ++ r) (fun r a h => tag_ok.1 h)) ?_
    intro r b a _ e
    have hr : r <:+ i := ⟨_, e.symm⟩
    refine (lOp_sim k w r (hr.trans hi)).mono ?_
    rintro s o ⟨hs, hlt, et⟩
    rw [et]
    exact ⟨hs.trans hr, head_good (pre := ['d', 'e', 'f']) hi e (by simp) hs hlt (by simp) (by simp)⟩
  have hws : Sim w (LOp.text w) (fun _ hi o => Good w 0 hi (headLeaves .command o.tag)) _ _ :=
    hin.ws fun _ _ _ _ _ _ h2 h3 => h3.mono (Nat.le_refl _) h2
  intro i hi
  unfold lDefOp Parse.defOp
  refine Tracks.bind (hws i hi) ?_
  intro r o o' h1 h2
  cases o with
  | single t =>
    obtain ⟨x, h3, rfl⟩ := Option.map_eq_some_iff.1 h1
    exact ⟨rfl, h3, h2⟩
  | path rt cs =>
    obtain ⟨x, h3, rfl⟩ := Option.map_eq_some_iff.1 h1
    exact True.intro

theorem expr_good {w : Str} {lo hi : Nat} {e : LExpr} (h : QExpr w lo hi e) : Good w lo hi e.leaves ∧ NestE e ∧ e.Nested := ⟨h.good, h.nest, h.wf⟩

/-- What is known of parsed input as a whole. -/
structure QParsed (w : Str) (x : LParsed) : Prop where
  good : Good w 0 (size w) x.leaves
  nest : match x with
    | .impl d => NestE d.body
    | .ty _ => True
    | .expr e => NestE e
  wf : x.Nested
  head : match x with
    | .impl d => ∀ n ∈ x.leaves, n = ⟨defTag d.name, .command⟩ ∨ d.name.start ≤ n.tag.start
    | .ty d => ∀ n ∈ x.leaves, n = ⟨defTag d.name, .command⟩ ∨ d.name.start ≤ n.tag.start
    | .expr _ => True

theorem head_first {w : Str} {mid hi : Nat} {t : Span} {ty : NodeType} {ns : List Node} (h1 : Good w 0 mid (headLeaves ty t))
    (h2 : Good w mid hi ns) : ∀ n ∈ headLeaves ty t ++ ns, n = ⟨defTag t, .command⟩ ∨ t.start ≤ n.tag.start := by
  intro n hn
  have h3 : t.start < mid := (h1.mem (n := ⟨t, ty⟩) (by simp [headLeaves])).lt
  simp only [headLeaves, List.cons_append, List.nil_append, List.mem_cons] at hn
  rcases hn with rfl | rfl | hn
  · exact .inl rfl
  · exact .inr (Nat.le_refl _)
  · have st := h2.mem hn
    have := st.low; have := st.start
    exact .inr (by omega)

theorem off_le_size {w i : Str} : off w i ≤ size w := by unfold off; omega

theorem definitionImpl_sim (k : Env) (w : Str) :
    Tracks (LDefImpl.text w) (fun _ d => QParsed w (.impl d)) (definitionImpl k w) (Parse.definitionImpl k w) := by
  unfold definitionImpl Parse.definitionImpl
  dsimp only
  have hi : w <:+ w := List.suffix_rfl
  refine Tracks.bind (lDefOp_sim k w w hi) ?_
  intro i1 name name' a1 b1
  have hname : Good w 0 (off w i1) (headLeaves .command name) := b1.2
  have hty : Sim w (textO w) (GoodOf w typeLeaf) (opt (lName k w)) (opt (opIdent k.cls)) := by
    rw [← optText_str]
    intro i hi
    refine ((lName_good k w (ty := .type) (by simp) (by simp)).opt i hi).mono ?_
    rintro r o ⟨hr, h1, h2⟩
    refine ⟨hr, ?_⟩
    cases o with
    | none => exact .nil h1
    | some t => exact h2 t rfl
  refine Tracks.bind (hty.wsGood i1 b1.1) ?_
  intro i2 ty ty' a2 b2
  have htyg : Good w (off w i1) (off w i2) (typeLeaf ty) := b2.2
  have s2 := b2.1.trans b1.1
  refine Tracks.bind (lDefParams_sim k w i2 s2) ?_
  intro i3 ps ps' a3 b3
  have hps : Good w (off w i2) (off w i3) (ps.flatMap paramLeaves) := b3.2
  have s3 := b3.1.trans s2
  have hbody : Sim w (LExpr.text w) (fun lo hi e => Good w lo hi e.leaves ∧ NestE e ∧ e.Nested)
      (fun i => (chr '{' i).bind fun i _ => (ws (lExpr w (lBlockN k w (w.length + 1))) i).bind fun i e => (chr '}' i).map fun _ => e)
      (fun i => (chr '{' i).bind fun i _ => (ws (Parse.expr (Parse.blockN k (w.length + 1))) i).bind fun i e => (chr '}' i).map fun _ => e) := by
    intro i hi
    dsimp only
    refine Tracks.bind (sim_chr w '{' i hi) ?_
    intro r _ _ _ h1
    refine (inBraces_sim (lBlockN_sim k w (w.length + 1)) r (h1.1.trans hi)).mono ?_
    rintro s e ⟨hs, lo', hi', h2, h3, q⟩
    have := off_le (w := w) h1.1
    exact ⟨hs.trans h1.1, q.good.mono (by omega) (by omega), q.nest, q.wf⟩
  have hb2 := hbody.ws (R := fun lo hi e => Good w lo hi e.leaves ∧ NestE e ∧ e.Nested) fun _ _ _ _ _ h1 h2 h3 => ⟨h3.1.mono h1 h2, h3.2⟩
  refine (noTrailing_sim (hb2 i3 s3)).map ?_
  rintro _ e e' a4 ⟨r, hr, g, n, n2⟩
  refine ⟨by simp [LDefImpl.text, a1, a2, a3, a4], ?_, n, n2, ?_⟩
  all_goals
   have g2 := ((hname.append htyg).append hps).append g
   have g3 := g2.mono (Nat.le_refl _) (off_le_size (i := r))
   have em : ps.map (fun p => (⟨p.name, .parameter⟩ : Node)) = ps.flatMap paramLeaves := by
     unfold paramLeaves
     rw [List.map_eq_flatMap]
   have el : (LParsed.impl ⟨name, ty, ps, e⟩).leaves = headLeaves .command name ++ typeLeaf ty ++ ps.flatMap paramLeaves ++ e.leaves := by
     simp [LParsed.leaves, headLeaves, em]
  · rw [el]
    exact g3
  · dsimp only
    rw [el, List.append_assoc, List.append_assoc]
    have h5 := htyg.append (hps.append g)
    exact head_first hname h5

theorem lDeftyField_sim (k : Env) (w : Str) : Sim w (LField.text w) (GoodOf w LField.leaves) (lDeftyField k w) (Parse.deftyField k) := by
  intro i hi
  unfold lDeftyField Parse.deftyField
  refine Tracks.bind (lName_good k w (ty := .field) (by simp) (by simp) i hi) ?_
  intro i1 n n' a1 b1
  have g1 : Good w (off w i) (off w i1) [⟨n, .field⟩] := b1.2
  refine Tracks.bind ((sim_chr w ':').cut i1 (b1.1.trans hi)) ?_
  intro i2 _ _ _ b2
  have s2 := b2.1.trans b1.1
  refine Tracks.bind ((lName_good k w (ty := .type) (by simp) (by simp)).cut i2 (s2.trans hi)) ?_
  intro i3 t t' a3 b3
  have g3 : Good w (off w i2) (off w i3) [⟨t, .type⟩] := b3.2
  have s3 := b3.1.trans s2
  have g : Good w (off w i) (off w i3) [⟨n, .field⟩, ⟨t, .type⟩] := (g1.mono (Nat.le_refl _) (off_le b2.1)).append g3
  have plain : ∀ {Q : Str → LField → Prop}, Q i3 ⟨n, t, []⟩ → Tracks (LField.text w) Q (.ok i3 ⟨n, t, []⟩) (.ok i3 ⟨n', t', []⟩) := by
    intro Q hq
    exact ⟨rfl, by simp [LField.text, a1, a3, allO], hq⟩
  cases i3 with
  | nil => exact plain ⟨s3, g⟩
  | cons c r =>
    by_cases hc : c = '<'
    · subst hc
      have hr : r <:+ '<' :: r := List.suffix_cons _ _
      have hps : Sim w (allO (Span.str w)) (GoodOf w (List.flatMap fun p => [⟨p, .tyParameter⟩]))
          (fun i => (many1 (ws (lName k w)) i).bind fun i ps => (ws (chr '>') i).map fun _ => ps)
          (fun i => (many1 (ws (opIdent k.cls)) i).bind fun i ps => (ws (chr '>') i).map fun _ => ps) := by
        intro i hi
        dsimp only
        refine Tracks.bind (many1_good (lName_good k w (ty := .tyParameter) (by simp) (by simp)).wsGood i hi) ?_
        intro r ps ps' h1 h2
        have h3 : Good w _ _ (ps.flatMap fun p => [⟨p, .tyParameter⟩]) := h2.2
        refine (((sim_chr w '>').ws (R := fun lo hi _ => lo ≤ hi) (by intro _ _ _ _ _ h1 h2 h3; omega)) r (h2.1.trans hi)).map ?_
        intro s _ _ _ h4
        exact ⟨h1, h4.1.trans h2.1, h3.mono (Nat.le_refl _) h4.2⟩
      refine (hps.cut r ((hr.trans s3).trans hi)).map ?_
      intro s ps ps' a4 b4
      have g4 : Good w _ _ (ps.flatMap fun p => [(⟨p, .tyParameter⟩ : Node)]) := b4.2
      refine ⟨by simp [LField.text, a1, a3, a4], b4.1.trans (hr.trans s3), ?_⟩
      have g5 := g.append (g4.mono (off_le hr) (Nat.le_refl _))
      rw [← List.map_eq_flatMap] at g5
      exact g5
    · split
      · rename_i e; injection e with e _; exact absurd e hc
      · split
        · rename_i e; injection e with e _; exact absurd e hc
        · exact plain ⟨s3, g⟩

theorem lDeftyFields_sim (k : Env) (w : Str) :
    Sim w (allO (LField.text w)) (GoodOf w (List.flatMap LField.leaves)) (lDeftyFields k w) (Parse.deftyFields k) := by
  intro i hi
  unfold lDeftyFields Parse.deftyFields
  refine Tracks.bind (sim_chr w '{' i hi) ?_
  intro i1 _ _ _ b1
  refine Tracks.bind (many0_good (lDeftyField_sim k w).wsGood i1 (b1.1.trans hi)) ?_
  intro i2 fs fs' a2 b2
  have s2 := b2.1.trans b1.1
  have g : Good w _ _ (fs.flatMap LField.leaves) := b2.2
  refine (sim_chr w '}' i2 (s2.trans hi)).map ?_
  intro i3 _ _ _ b3
  exact ⟨a2, b3.1.trans s2, g.mono (off_le b1.1) (off_le b3.1)⟩

theorem lDeftyVariant_sim (k : Env) (w : Str) :
    Sim w (variantText w) (GoodOf w variantLeaves) (lDeftyVariant k w) (Parse.deftyVariant k) := by
  intro i hi
  unfold lDeftyVariant Parse.deftyVariant
  refine Tracks.bind ((lName_good k w (ty := .variant) (by simp) (by simp)).wsGood i hi) ?_
  intro i1 n n' a1 b1
  have g1 : Good w (off w i) (off w i1) [⟨n, .variant⟩] := b1.2
  refine ((lDeftyFields_sim k w).wsGood.opt i1 (b1.1.trans hi)).map ?_
  intro i2 fs fs' a2 b2
  have ef : fieldsText w fs = some fs' := by cases fs <;> exact a2
  refine ⟨by simp [variantText, a1, ef], b2.1.trans b1.1, ?_⟩
  cases fs with
  | none => exact g1.mono (Nat.le_refl _) (off_le b2.1)
  | some fs =>
    have g2 : Good w _ _ (fs.flatMap LField.leaves) := b2.2.2 fs rfl
    exact g1.append g2

theorem lTyBody_sim (k : Env) (w : Str) (i : Str) (hi : i <:+ w) :
    Tracks (LTyBody.text w) (fun r b => r <:+ i ∧ Good w (off w i) (off w r) b.leaves) (lTyBody k w i)
      (match ws (tag [':', ':']) i with
        | .ok i _ => (sepList0 (ws (chr '|')) (ws (Parse.deftyVariant k)) i).map Parse.TyBody.sum
        | _ => (Parse.deftyFields k i).map Parse.TyBody.product) := by
  have hp : Tracks (LTyBody.text w) (fun r b => r <:+ i ∧ Good w (off w i) (off w r) b.leaves)
      ((lDeftyFields k w i).map LTyBody.product) ((Parse.deftyFields k i).map Parse.TyBody.product) := by
    refine (lDeftyFields_sim k w i hi).map ?_
    intro r fs fs' h1 h2
    exact ⟨by simp [LTyBody.text, h1], h2⟩
  have ht := (sim_tag w [':', ':']).ws (R := fun lo hi _ => lo ≤ hi) (by intro _ _ _ _ _ h1 h2 h3; omega)
  unfold lTyBody
  rcases (ht i hi).cases with ⟨r, b, a, e1, e2, h1, h2⟩ | ⟨e1, e2⟩ | ⟨e1, e2⟩
  · rw [e1]
    dsimp only
    have hsep : ∀ i r a, ws (chr '|') i = .ok r a → r <:+ i := by
      intro i r a h
      unfold Parse.ws at h
      obtain ⟨j, b, h1, h2⟩ := PR.bind_ok.1 h
      cases h2
      have := chr_suffix h1
      have h3 : j <:+ skip isMulti i := ⟨['|'], this.symm⟩
      exact (skip_suffix _ _).trans (h3.trans (skip_suffix _ _))
    refine (sepList0_good hsep (lDeftyVariant_sim k w).wsGood r (h2.1.trans hi)).map ?_
    intro s vs vs' h3 h4
    have g : Good w _ _ (vs.flatMap variantLeaves) := h4.2
    exact ⟨by simp [LTyBody.text, h3], h4.1.trans h2.1, g.mono (off_le h2.1) (Nat.le_refl _)⟩
  · rw [e1]; exact hp
  · rw [e1]; exact hp

theorem definitionType_sim (k : Env) (w : Str) :
    Tracks (LDefTy.text w) (fun _ d => QParsed w (.ty d)) (definitionType k w) (Parse.definitionType k w) := by
  have hin : Sim w (Span.str w) (fun _ hi t => Good w 0 hi (headLeaves .type t))
      (fun i => (tag ['d', 'e', 'f', '-', 't', 'y', ' '] i).bind fun i _ => lName k w i)
      (fun i => (tag ['d', 'e', 'f', '-', 't', 'y', ' '] i).bind fun i _ => opIdent k.cls i) := by
    intro i hi
    dsimp only
    refine Tracks.bind (Tracks.same (Q := fun r _ => i = ['d', 'e', 'f', '-', 't', 'y', ' '] ++ r) (fun r a h => tag_ok.1 h)) ?_
    intro r b a _ e
    have hr : r <:+ i := ⟨_, e.symm⟩
    refine (lName_sim k w r (hr.trans hi)).mono ?_
    rintro s o ⟨hs, hlt, et⟩
    rw [et]
    exact ⟨hs.trans hr, head_good (pre := ['d', 'e', 'f', '-', 't', 'y']) hi e (by simp) hs hlt (by simp) (by simp)⟩
  have hws := hin.ws (R := fun _ hi t => Good w 0 hi (headLeaves .type t)) fun _ _ _ _ _ _ h2 h3 => h3.mono (Nat.le_refl _) h2
  have hi : w <:+ w := List.suffix_rfl
  unfold definitionType Parse.definitionType
  refine Tracks.bind (hws w hi) ?_
  intro i1 n n' a1 b1
  refine Tracks.bind (lTyBody_sim k w i1 b1.1) ?_
  intro i2 b b' a2 b2
  split
  · refine ⟨rfl, by simp [LDefTy.text, a1, a2], ?_, True.intro, True.intro, head_first b1.2 b2.2⟩
    exact ((b1.2.append b2.2).mono (Nat.le_refl _) off_le_size)
  · exact True.intro

theorem expression_sim (k : Env) (w : Str) :
    Tracks (LExpr.text w) (fun _ e => QParsed w (.expr e)) (expression k w) (Parse.expression k w) := by
  unfold expression Parse.expression
  have h := lExpr_sim (lBlockN_sim k w (w.length + 1)) w List.suffix_rfl
  refine (noTrailing_sim h).mono ?_
  rintro _ e ⟨r, hr, _, q⟩
  exact ⟨q.good.mono (Nat.zero_le _) off_le_size, q.nest, q.wf, True.intro⟩

theorem parse_sim (k : Env) (w : Str) : Tracks (LParsed.text w) (fun _ x => QParsed w x) (parse k w) (Parse.parse k w) := by
  unfold parse Parse.parse
  split
  · refine (definitionImpl_sim k w).map ?_
    intro r x y h1 h2
    exact ⟨by simp [LParsed.text, h1], h2⟩
  · split
    · refine (definitionType_sim k w).map ?_
      intro r x y h1 h2
      exact ⟨by simp [LParsed.text, h1], h2⟩
    · refine (expression_sim k w).map ?_
      intro r x y h1 h2
      exact ⟨by simp [LParsed.text, h1], h2⟩

end Verif.Tags
