import Verif.Lemmas.PartPhase1
namespace Verif.Part

/-- A glob matches the name of an item. -/
def Match (g : Glob) (ps : Parts) (pat : String) (x : Nat) : Prop :=
  ∃ (m : String → Bool) (n : Node), g pat = some m ∧ ps[x]? = some n ∧ m n.name = true

theorem match_same {g : Glob} {ps qs : Parts} (h : Same ps qs) {pat : String} {x : Nat} (k : Match g ps pat x) :
    Match g qs pat x := by
  obtain ⟨m, n, h1, h2, h3⟩ := k
  obtain ⟨n', e, a1, _⟩ := h.node h2
  exact ⟨m, n', h1, e, by rw [a1]; exact h3⟩

theorem is_bnd_same {ps qs : Parts} (h : Same ps qs) (x : Nat) :
    is ps (fun n => n.item.isBoundary) x = is qs (fun n => n.item.isBoundary) x :=
  h.is _ (fun _ _ _ a _ => a) x

/-! ### Globs -/

theorem globFind_spec (g : Glob) {ps : Parts} {b : Nat} {q : Node} (hq : ps[b]? = some q)
    (hb : q.item.isBoundary = true) (pat : String) :
    globFind g ps b pat ≠ .error .panic ∧
    ∀ xs, globFind g ps b pat = .ok xs → ∀ x, x ∈ xs ↔ x ∈ q.item.children ∧ Match g ps pat x := by
  unfold globFind
  cases hg : g pat with
  | none => exact ⟨by simp, fun xs h => by cases h⟩
  | some m =>
    simp only [children_of hq hb, Except.map]
    refine ⟨by simp, fun xs h x => ?_⟩
    cases h
    rw [List.mem_filter, is_iff]
    constructor
    · rintro ⟨h1, n, h2, h3⟩; exact ⟨h1, m, n, hg, h2, h3⟩
    · rintro ⟨h1, m', n, h2, h3, h4⟩
      rw [hg] at h2; cases h2
      exact ⟨h1, n, h3, h4⟩

/-- The types and commands of boundary `q` that a glob matches. -/
def Matched (g : Glob) (ps : Parts) (q : Node) (pat : String) (x : Nat) : Prop :=
  x ∈ q.item.children ∧ is ps (fun n => n.item.isBoundary) x = false ∧ Match g ps pat x

theorem exportIds_spec (g : Glob) {ps : Parts} {b : Nat} {q : Node} (hq : ps[b]? = some q)
    (hb : q.item.isBoundary = true) (es : List String) : ∀ xs, exportIds g ps b es xs ≠ .error .panic ∧
    ∀ ys, exportIds g ps b es xs = .ok ys →
      (∀ x, x ∈ ys ↔ x ∈ xs ∨ ∃ e ∈ es, Matched g ps q e x) ∧ ∀ e ∈ es, ∃ x, Matched g ps q e x := by
  induction es with
  | nil =>
    intro xs
    refine ⟨by simp [exportIds], fun ys h => ?_⟩
    simp only [exportIds, Except.ok.injEq] at h
    subst h
    exact ⟨by simp, by simp⟩
  | cons e es ih =>
    intro xs
    obtain ⟨h1, h2⟩ := globFind_spec g hq hb e
    unfold exportIds
    cases hr : globFind g ps b e with
    | error y => rw [hr] at h1; exact ⟨by simp only [Except.bind]; exact h1, fun ys h => by cases h⟩
    | ok zs =>
      have hz := h2 zs hr
      simp only [Except.bind]
      have hm : ∀ x, x ∈ zs.filter (fun n => !is ps (fun n => n.item.isBoundary) n) ↔ Matched g ps q e x := by
        intro x
        rw [List.mem_filter, hz]
        unfold Matched
        simp only [Bool.not_eq_true']
        constructor
        · rintro ⟨⟨a, b⟩, c⟩; exact ⟨a, c, b⟩
        · rintro ⟨a, c, b⟩; exact ⟨⟨a, b⟩, c⟩
      cases hl : zs.filter (fun n => !is ps (fun n => n.item.isBoundary) n) with
      | nil => exact ⟨by simp, fun ys h => by simp at h⟩
      | cons w ws =>
        rw [hl] at hm
        obtain ⟨g1, g2⟩ := ih (xs ++ w :: ws)
        simp only [List.isEmpty_cons, Bool.false_eq_true, if_false]
        refine ⟨g1, fun ys h => ?_⟩
        obtain ⟨k1, k2⟩ := g2 ys h
        constructor
        · intro x
          rw [k1, List.mem_append, hm]
          simp only [List.mem_cons, exists_eq_or_imp]
          exact or_assoc
        · intro e' he'
          rcases List.mem_cons.1 he' with rfl | he'
          · exact ⟨w, (hm w).1 (by simp)⟩
          · exact k2 e' he'

theorem sorted_same {ps qs : Parts} (h : Same ps qs) {s : List Nat} (k : Sorted ps s) : Sorted qs s :=
  ⟨k.1.imp (fun {a b} e => by rw [← h.idLe a b]; exact e), k.2⟩

/-! ### Exports -/

/-- The effect of `add_exports` on one boundary. -/
theorem addExports_spec (g : Glob) {ps : Parts} (w : Wf ps) {b : Nat} {q : Node} (hq : ps[b]? = some q)
    (hb : q.item.isBoundary = true) (es : List String) : addExports g ps b es ≠ .error .panic ∧
    ∀ qs, addExports g ps b es = .ok qs → Wf qs ∧ Same ps qs ∧ Keeps ps qs ∧
      (∀ x, Exported qs b x ↔ Exported ps b x ∨ ∃ e ∈ es, Matched g ps q e x) ∧
      (∀ c, c ≠ b → qs[c]? = ps[c]?) ∧ ∀ e ∈ es, ∃ x, Matched g ps q e x := by
  unfold addExports
  by_cases he : es.isEmpty = true
  · rw [if_pos he]
    rw [List.isEmpty_iff] at he
    subst he
    refine ⟨by simp, fun qs h => ?_⟩
    cases h
    exact ⟨w, Same.refl _, keeps_refl _, by simp, fun _ _ => rfl, by simp⟩
  · rw [if_neg he, hq]
    simp only [hb, if_true]
    obtain ⟨h1, h2⟩ := exportIds_spec g hq hb es q.item.exports
    cases hr : exportIds g ps b es q.item.exports with
    | error y => rw [hr] at h1; exact ⟨by simp only [Except.map]; intro e; cases e; exact h1 rfl, fun ys h => by cases h⟩
    | ok xs =>
      obtain ⟨k1, k2⟩ := h2 xs hr
      simp only [Except.map]
      refine ⟨by simp, fun qs h => ?_⟩
      cases h
      have sm : Same ps (List.modify ps b (setExports (fromVec xs ps))) := (same_modify ps b _ (setExports_skel _)).symm
      have at' : ∀ c : Nat, (List.modify ps b (setExports (fromVec xs ps)))[c]? =
          if b = c then some (setExports (fromVec xs ps) q) else ps[c]? := by
        intro c
        rw [modify_get]
        by_cases h : b = c
        · subst h; rw [if_pos rfl, if_pos rfl, hq]; rfl
        · rw [if_neg h, if_neg h]
      have ex : (setExports (fromVec xs ps) q).item.exports = fromVec xs ps := setExports_exports _ _ hb
      have kp : Keeps ps (List.modify ps b (setExports (fromVec xs ps))) := by
        intro i n hn
        obtain ⟨m, e, a1, a2, a3, a4, a5, _⟩ := sm.node hn
        refine ⟨m, e, a1, a2, a3, a4, ?_, by rw [a5]; exact List.prefix_refl _, ?_⟩
        · rw [at'] at e
          by_cases h : b = i
          · subst h; rw [if_pos rfl] at e; cases e; rw [setExports_imports]; rw [hq] at hn; cases hn; rfl
          · rw [if_neg h, hn] at e; cases e; rfl
        · intro x hx
          rw [at'] at e
          by_cases h : b = i
          · subst h; rw [if_pos rfl] at e; cases e
            rw [hq] at hn; cases hn
            rw [ex, mem_fromVec, k1]; exact .inl hx
          · rw [if_neg h, hn] at e; cases e; exact hx
      refine ⟨?_, sm, kp, ?_, ?_, k2⟩
      · refine ⟨forest_same sm w.forest, ?_, ?_, ?_⟩
        · intro i n p hn hbd hp
          obtain ⟨m, e, a1, a2, a3, _⟩ := sm.symm.node hn
          rw [← a1]; exact w.names i m p e (by rw [a3, hbd]) (by rw [a2, hp])
        · intro c r hr'
          rw [at'] at hr'
          by_cases h : b = c
          · subst h
            rw [if_pos rfl] at hr'; cases hr'
            rw [ex]
            refine ⟨sorted_same sm (fromVec_sorted ps xs), fun x hx => ?_⟩
            have hch : (setExports (fromVec xs ps) q).item.children = q.item.children := by
              have := skel_children (setExports (fromVec xs ps) q)
              rw [setExports_skel, skel_children] at this
              exact this.symm
            rw [mem_fromVec, k1] at hx
            rw [hch, ← is_bnd_same sm]
            rcases hx with hx | ⟨e, _, hm⟩
            · exact (w.exports b q hq).2 x hx
            · exact ⟨hm.1, hm.2.1⟩
          · rw [if_neg h] at hr'
            obtain ⟨e1, e2⟩ := w.exports c r hr'
            exact ⟨sorted_same sm e1, fun x hx => ⟨(e2 x hx).1, by rw [← is_bnd_same sm]; exact (e2 x hx).2⟩⟩
        · intro i n hn
          obtain ⟨m, e, _, _, _, _, _, _⟩ := sm.symm.node hn
          obtain ⟨n', e', _, _, _, _, a5, _⟩ := kp i m e
          rw [hn] at e'; cases e'
          obtain ⟨e1, e2⟩ := w.imports i m e
          rw [a5]
          refine ⟨sorted_same sm e1, fun x hx => ?_⟩
          obtain ⟨y, hy, hor⟩ := e2 x hx
          obtain ⟨y', hy', _, b2, b3, _⟩ := kp x y hy
          refine ⟨y', hy', ?_⟩
          rcases hor with h | ⟨p, hp, hx'⟩
          · exact .inl (by rw [b3, h])
          · exact .inr ⟨p, by rw [b2, hp], keeps_exported kp hx'⟩
      · intro x
        unfold Exported
        rw [at', if_pos rfl, hq]
        simp only [Option.some.injEq, exists_eq_left', ex, mem_fromVec, k1]
      · intro c hc
        rw [at', if_neg (fun h => hc h.symm)]

theorem matched_same {g : Glob} {ps qs : Parts} (h : Same ps qs) {q r : Node} (hc : r.item.children = q.item.children)
    {pat : String} {x : Nat} (k : Matched g ps q pat x) : Matched g qs r pat x :=
  ⟨by rw [hc]; exact k.1, by rw [← is_bnd_same h]; exact k.2.1, match_same h k.2.2⟩

/-- A type or command of boundary `b` that a glob matches. -/
def MatchedIn (g : Glob) (ps : Parts) (b : Nat) (pat : String) (x : Nat) : Prop :=
  ∃ q : Node, ps[b]? = some q ∧ Matched g ps q pat x

theorem matchedIn_same {g : Glob} {ps qs : Parts} (h : Same ps qs) {b : Nat} {pat : String} {x : Nat}
    (k : MatchedIn g ps b pat x) : MatchedIn g qs b pat x := by
  obtain ⟨q, hq, hm⟩ := k
  obtain ⟨r, e, _, _, _, _, a5, _⟩ := h.node hq
  exact ⟨r, e, matched_same h a5 hm⟩

theorem phase2_spec (g : Glob) (l : List (Nat × List String)) : ∀ {ps : Parts}, Wf ps →
    (∀ b es, (b, es) ∈ l → ∃ q : Node, ps[b]? = some q ∧ q.item.isBoundary = true) →
    phase2 g ps l ≠ .error .panic ∧ ∀ qs, phase2 g ps l = .ok qs → Wf qs ∧ Same ps qs ∧ Keeps ps qs ∧
      (∀ b x, Exported qs b x ↔ Exported ps b x ∨ ∃ es e, (b, es) ∈ l ∧ e ∈ es ∧ MatchedIn g ps b e x) ∧
      ∀ b es e, (b, es) ∈ l → e ∈ es → ∃ x, MatchedIn g ps b e x := by
  induction l with
  | nil =>
    intro ps w _
    refine ⟨by simp [phase2], fun qs h => ?_⟩
    simp only [phase2, Except.ok.injEq] at h
    subst h
    exact ⟨w, Same.refl _, keeps_refl _, by simp, by simp⟩
  | cons y l ih =>
    obtain ⟨b, es⟩ := y
    intro ps w hk
    obtain ⟨q, hq, hb⟩ := hk b es (by simp)
    obtain ⟨h1, h2⟩ := addExports_spec g w hq hb es
    simp only [phase2]
    cases hr : addExports g ps b es with
    | error y => rw [hr] at h1; exact ⟨by simp only [Except.bind]; exact h1, fun qs h => by cases h⟩
    | ok ps1 =>
      obtain ⟨w1, s1, k1, x1, o1, m1⟩ := h2 ps1 hr
      have hk1 : ∀ b' es', (b', es') ∈ l → ∃ q : Node, ps1[b']? = some q ∧ q.item.isBoundary = true := by
        intro b' es' hm
        obtain ⟨q', hq', hb'⟩ := hk b' es' (by simp [hm])
        obtain ⟨r, e, _, _, a3, _⟩ := s1.node hq'
        exact ⟨r, e, by rw [a3, hb']⟩
      obtain ⟨g1, g2⟩ := ih w1 hk1
      refine ⟨g1, fun qs h => ?_⟩
      obtain ⟨w2, s2, k2, x2, m2⟩ := g2 qs h
      refine ⟨w2, s1.trans s2, keeps_trans k1 k2, ?_, ?_⟩
      · intro b' x
        rw [x2]
        have e1 : Exported ps1 b' x ↔ Exported ps b' x ∨ (b' = b ∧ ∃ e ∈ es, MatchedIn g ps b e x) := by
          by_cases hbb : b' = b
          · subst hbb
            rw [x1]
            unfold MatchedIn
            simp [hq]
          · unfold Exported
            rw [o1 b' hbb]
            simp [hbb]
        rw [e1]
        constructor
        · rintro ((h | ⟨rfl, e, he, hm⟩) | ⟨es', e, h3, h4, h5⟩)
          · exact .inl h
          · exact .inr ⟨es, e, by simp, he, hm⟩
          · exact .inr ⟨es', e, by simp [h3], h4, matchedIn_same s1.symm h5⟩
        · rintro (h | ⟨es', e, h3, h4, h5⟩)
          · exact .inl (.inl h)
          · rcases List.mem_cons.1 h3 with h3 | h3
            · cases h3; exact .inl (.inr ⟨rfl, e, h4, h5⟩)
            · exact .inr ⟨es', e, h3, h4, matchedIn_same s1 h5⟩
      · intro b' es' e h3 h4
        rcases List.mem_cons.1 h3 with h3 | h3
        · cases h3
          obtain ⟨x, hx⟩ := m1 e h4
          exact ⟨x, q, hq, hx⟩
        · obtain ⟨x, hx⟩ := m2 b' es' e h3 h4
          exact ⟨x, matchedIn_same s1.symm hx⟩

/-! ### The order of the exports does not matter -/

/-- What `add_exports` writes, if it succeeds. -/
def exportSet (g : Glob) (ps : Parts) (b : Nat) (es : List String) : Except Bad (List Nat) :=
  match ps[b]? with
  | some n => if n.item.isBoundary then (exportIds g ps b es n.item.exports).map fun xs => fromVec xs ps else .error .panic
  | none => .error .panic

theorem addExports_eq (g : Glob) (ps : Parts) (b : Nat) (es : List String) (h : es ≠ []) :
    addExports g ps b es = (exportSet g ps b es).map fun xs => List.modify ps b (setExports xs) := by
  unfold addExports exportSet
  have : es.isEmpty = false := by cases es <;> simp_all
  rw [this]
  simp only [Bool.false_eq_true, if_false]
  cases ps[b]? with
  | none => rfl
  | some n =>
    by_cases hb : n.item.isBoundary = true
    · simp only [hb, if_true]
      cases exportIds g ps b es n.item.exports <;> rfl
    · simp only [hb, Bool.false_eq_true, if_false]; rfl

theorem exportSet_modify (g : Glob) (ps : Parts) (b c : Nat) (es : List String) (xs : List Nat) (h : c ≠ b) :
    exportSet g (List.modify ps c (setExports xs)) b es = exportSet g ps b es := by
  have sm : Same (List.modify ps c (setExports xs)) ps := same_modify ps c _ (setExports_skel _)
  unfold exportSet
  rw [modify_get, if_neg h]
  cases ps[b]? with
  | none => rfl
  | some n =>
    have e : (fun ys => fromVec ys (List.modify ps c (setExports xs))) = fun ys => fromVec ys ps :=
      funext fun ys => sm.fromVec ys
    simp only [sm.exportIds, e]

theorem modify_comm (ps : Parts) (b c : Nat) (f k : Node → Node) (h : b ≠ c) :
    List.modify (List.modify ps b f) c k = List.modify (List.modify ps c k) b f := by
  apply List.ext_getElem?
  intro i
  simp only [modify_get]
  by_cases h1 : b = i <;> by_cases h2 : c = i <;> simp [h1, h2]
  omega

/-- The outcome with all errors counted alike. -/
def okOf {α : Type} : Except Bad α → Option α
  | .ok a => some a
  | .error _ => none

theorem okOf_bind {α β : Type} (x : Except Bad α) (f : α → Except Bad β) :
    okOf (x.bind f) = (okOf x).bind fun a => okOf (f a) := by cases x <;> rfl

theorem okOf_map {α β : Type} (x : Except Bad α) (f : α → β) : okOf (x.map f) = (okOf x).map f := by cases x <;> rfl

theorem phase2_swap (g : Glob) (ps : Parts) (b c : Nat) (es fs : List String) (l : List (Nat × List String)) (h : b ≠ c)
    : okOf (phase2 g ps ((b, es) :: (c, fs) :: l)) = okOf (phase2 g ps ((c, fs) :: (b, es) :: l)) := by
  have nilc : ∀ (qs : Parts) (d : Nat), addExports g qs d [] = .ok qs := fun qs d => by simp [addExports]
  by_cases he : es = []
  · subst he
    simp only [phase2, nilc, Except.bind]
  · by_cases hf : fs = []
    · subst hf
      simp only [phase2, nilc, Except.bind]
    · simp only [phase2, okOf_bind, addExports_eq _ _ _ _ he, addExports_eq _ _ _ _ hf, okOf_map]
      cases hx : exportSet g ps b es with
      | error x =>
        cases hy : exportSet g ps c fs with
        | error y => rfl
        | ok ys =>
          simp only [okOf, Option.map, Option.bind]
          rw [exportSet_modify _ _ _ _ _ _ (Ne.symm h), hx]
      | ok xs =>
        cases hy : exportSet g ps c fs with
        | error y =>
          simp only [okOf, Option.map, Option.bind]
          rw [exportSet_modify _ _ _ _ _ _ h, hy]
        | ok ys =>
          simp only [okOf, Option.map, Option.bind]
          rw [exportSet_modify _ _ _ _ _ _ (Ne.symm h), exportSet_modify _ _ _ _ _ _ h, hx, hy]
          simp only
          rw [modify_comm _ _ _ _ _ h]

theorem phase2_perm (g : Glob) {l l' : List (Nat × List String)} (h : l.Perm l') :
    (l.map (·.1)).Nodup → ∀ ps, okOf (phase2 g ps l) = okOf (phase2 g ps l') := by
  induction h with
  | nil => intro _ ps; rfl
  | cons x _ ih =>
    intro hn ps
    simp only [List.map_cons, List.nodup_cons] at hn
    simp only [phase2, okOf_bind, ih hn.2]
  | swap x y l =>
    intro hn ps
    simp only [List.map_cons, List.nodup_cons, List.mem_cons, not_or] at hn
    exact phase2_swap g ps y.1 x.1 y.2 x.2 l hn.1.1
  | trans h1 _ ih1 ih2 =>
    intro hn ps
    rw [ih1 hn, ih2 ((h1.map _).nodup_iff.1 hn)]

end Verif.Part
