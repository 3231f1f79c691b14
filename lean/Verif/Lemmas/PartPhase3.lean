import Verif.Lemmas.PartPhase2
namespace Verif.Part

/-! ### Import paths -/

theorem findBoundary_spec {ps : Parts} (w : Wf ps) (path : List String) : ∀ (a : Nat) (q : Node), ps[a]? = some q →
    q.item.isBoundary = true → findBoundary ps a path ≠ .error .panic ∧
    ∀ b, (findBoundary ps a path = .ok b ↔ BPath ps a path b) ∧
      (BPath ps a path b → ∃ r : Node, ps[b]? = some r ∧ r.item.isBoundary = true) := by
  induction path with
  | nil =>
    intro a q hq hb
    refine ⟨by simp [findBoundary], fun b => ⟨?_, ?_⟩⟩
    · simp only [findBoundary, Except.ok.injEq]
      constructor
      · rintro rfl; exact .nil
      · intro h; cases h; rfl
    · intro h; cases h; exact ⟨q, hq, hb⟩
  | cons x path ih =>
    intro a q hq hb
    unfold findBoundary
    by_cases hx : x = ".."
    · subst hx
      rw [if_pos rfl, hq]
      simp only
      cases hp : q.parent with
      | none =>
        refine ⟨by simp, fun b => ⟨⟨fun h => (by cases h), fun h => ?_⟩, fun h => ?_⟩⟩
        all_goals
          cases h with
          | up hn hp' _ => rw [hq] at hn; cases hn; rw [hp] at hp'; cases hp'
          | down hx => exact absurd rfl hx
      | some p =>
        obtain ⟨r, hr, hbr⟩ := w.forest.parent_bnd hq hp
        obtain ⟨h1, h2⟩ := ih p r hr hbr
        have conv : ∀ b, BPath ps a (".." :: path) b ↔ BPath ps p path b := by
          intro b
          constructor
          · intro h
            cases h with
            | up hn hp' h => rw [hq] at hn; cases hn; rw [hp] at hp'; cases hp'; exact h
            | down hx => exact absurd rfl hx
          · exact fun h => .up hq hp h
        exact ⟨h1, fun b => ⟨by rw [conv]; exact (h2 b).1, by rw [conv]; exact (h2 b).2⟩⟩
    · rw [if_neg hx, children_of hq hb]
      simp only [Except.bind]
      cases hf : q.item.children.find? (is ps (eqBoundary x)) with
      | none =>
        refine ⟨by simp, fun b => ⟨⟨fun h => (by cases h), fun h => ?_⟩, fun h => ?_⟩⟩
        all_goals
          exfalso
          cases h with
          | up => exact hx rfl
          | down _ hn hp hnm hbd _ =>
            have hm := (w.forest.mem_children hq _).2 ⟨_, hn, hp⟩
            have := List.find?_eq_none.1 hf _ hm
            exact this (is_iff.2 ⟨_, hn, by simp [eqBoundary, hbd, hnm]⟩)
      | some c =>
        obtain ⟨n, hn, hp, hnm, hbd⟩ := find_bnd_some w.forest hq hf
        obtain ⟨h1, h2⟩ := ih c n hn hbd
        have conv : ∀ b, BPath ps a (x :: path) b ↔ BPath ps c path b := by
          intro b
          constructor
          · intro h
            cases h with
            | up => exact absurd rfl hx
            | down _ hn' hp' hnm' hbd' h =>
              have := w.forest.boundary _ _ _ _ _ hn' hn hp' hp (by rw [hnm', hnm]) hbd' hbd
              subst this; exact h
          · exact fun h => .down hx hn hp hnm hbd h
        exact ⟨h1, fun b => ⟨by rw [conv]; exact (h2 b).1, by rw [conv]; exact (h2 b).2⟩⟩

theorem resolveImport_spec (g : Glob) {ps : Parts} (w : Wf ps) {this : Nat} {q : Node} (hq : ps[this]? = some q)
    (hb : q.item.isBoundary = true) (i : Import) : resolveImport g ps this i ≠ .error .panic ∧
    ∀ xs, resolveImport g ps this i = .ok xs → ∀ x, x ∈ xs ↔ Imported g ps this i x := by
  obtain ⟨q0, hq0, hb0⟩ : ∃ q0 : Node, ps[startOf this i.pre]? = some q0 ∧ q0.item.isBoundary = true := by
    cases i.pre with
    | none => exact ⟨q, hq, hb⟩
    | root => obtain ⟨n, e, _, h⟩ := w.forest.roots 0 (by decide); exact ⟨n, e, h⟩
    | plugins => obtain ⟨n, e, _, h⟩ := w.forest.roots 2 (by decide); exact ⟨n, e, h⟩
  have hfrom : importFrom this i = startOf this i.pre := by unfold importFrom startOf; cases i.pre <;> rfl
  unfold resolveImport Imported
  rw [hfrom]
  generalize startOf this i.pre = from_ at *
  obtain ⟨h1, h2⟩ := findBoundary_spec w i.path from_ q0 hq0 hb0
  cases hr : findBoundary ps from_ i.path with
  | error y => rw [hr] at h1; exact ⟨by simp only [Except.bind]; intro e; cases e; exact h1 rfl, fun xs h => by cases h⟩
  | ok b =>
    have hbp := (h2 b).1.1 hr
    obtain ⟨r, hr', hbr⟩ := (h2 b).2 hbp
    simp only [Except.bind, hr', hbr, if_true]
    obtain ⟨g1, g2⟩ := globFind_spec g hr' hbr i.glob
    cases hg : globFind g ps b i.glob with
    | error y => rw [hg] at g1; exact ⟨by simp only [Except.map]; exact g1, fun xs h => by cases h⟩
    | ok zs =>
      have hz := g2 zs hg
      simp only [Except.map]
      refine ⟨by simp, fun xs h x => ?_⟩
      cases h
      rw [List.mem_filter, List.mem_filter, hz]
      simp only [bne_iff_ne, Bool.or_eq_true, List.contains_iff_mem]
      constructor
      · rintro ⟨⟨⟨hc, m, n, e1, e2, e3⟩, hne⟩, hv⟩
        obtain ⟨n', en, hp⟩ := w.forest.child b r x hr' hc
        rw [e2] at en; cases en
        refine ⟨b, n, m, hbp, e2, hp, e1, e3, hne, ?_⟩
        rcases hv with hv | hv
        · obtain ⟨n', en, hbd⟩ := is_iff.1 hv
          rw [e2] at en; cases en; exact .inl hbd
        · exact .inr ⟨r, hr', hv⟩
      · rintro ⟨b', n, m, hbp', e2, hp, e1, e3, hne, hv⟩
        have := bpath_unique w.forest hbp' hbp
        subst this
        refine ⟨⟨⟨(w.forest.mem_children hr' x).2 ⟨n, e2, hp⟩, m, n, e1, e2, e3⟩, hne⟩, ?_⟩
        rcases hv with hv | ⟨r', er, hx⟩
        · exact .inl (is_iff.2 ⟨n, e2, hv⟩)
        · rw [hr'] at er; cases er; exact .inr hx

theorem resolveImports_spec (g : Glob) {ps : Parts} (w : Wf ps) {this : Nat} {q : Node} (hq : ps[this]? = some q)
    (hb : q.item.isBoundary = true) (is' : List Import) : ∀ v, resolveImports g ps this is' v ≠ .error .panic ∧
    ∀ xs, resolveImports g ps this is' v = .ok xs →
      (∀ x, x ∈ xs ↔ x ∈ v ∨ ∃ i ∈ is', Imported g ps this i x) ∧ ∀ i ∈ is', ∃ x, Imported g ps this i x := by
  induction is' with
  | nil =>
    intro v
    refine ⟨by simp [resolveImports], fun xs h => ?_⟩
    simp only [resolveImports, Except.ok.injEq] at h
    subst h
    exact ⟨by simp, by simp⟩
  | cons i is' ih =>
    intro v
    obtain ⟨h1, h2⟩ := resolveImport_spec g w hq hb i
    unfold resolveImports
    cases hr : resolveImport g ps this i with
    | error y => rw [hr] at h1; exact ⟨by simp only [Except.bind]; exact h1, fun xs h => by cases h⟩
    | ok zs =>
      have hz := h2 zs hr
      simp only [Except.bind]
      cases zs with
      | nil => exact ⟨by simp, fun xs h => by simp at h⟩
      | cons z zs =>
        obtain ⟨g1, g2⟩ := ih (v ++ z :: zs)
        simp only [List.isEmpty_cons, Bool.false_eq_true, if_false]
        refine ⟨g1, fun xs h => ?_⟩
        obtain ⟨k1, k2⟩ := g2 xs h
        constructor
        · intro x
          rw [k1, List.mem_append, hz]
          simp only [List.mem_cons, exists_eq_or_imp]
          exact or_assoc
        · intro j hj
          rcases List.mem_cons.1 hj with rfl | hj
          · exact ⟨z, (hz z).1 (by simp)⟩
          · exact k2 j hj

/-! ### Setting imports -/

theorem setAll_get (xs : List Nat) (ns : List Nat) : ∀ (ps : Parts) (i : Nat),
    (ns.foldl (fun qs n => List.modify qs n (setImports xs)) ps)[i]? =
      if i ∈ ns then (ps[i]?).map (setImports xs) else ps[i]? := by
  have idem : ∀ n, setImports xs (setImports xs n) = setImports xs n := by
    rintro ⟨a, b, c⟩; cases c <;> rfl
  induction ns with
  | nil => intro ps i; simp
  | cons n ns ih =>
    intro ps i
    rw [List.foldl_cons, ih, modify_get]
    by_cases h1 : i ∈ ns <;> by_cases h2 : n = i <;> simp [h1, h2, eq_comm (a := i), Function.comp_def, idem]

/-- The graphs agree but for imports. -/
structure SameE (ps qs : Parts) : Prop where
  same : Same ps qs
  exps : ∀ b x, Exported qs b x ↔ Exported ps b x

theorem SameE.refl (ps : Parts) : SameE ps ps := ⟨Same.refl _, fun _ _ => Iff.rfl⟩
theorem SameE.symm {ps qs : Parts} (h : SameE ps qs) : SameE qs ps := ⟨h.same.symm, fun b x => (h.exps b x).symm⟩
theorem SameE.trans {ps qs rs : Parts} (h : SameE ps qs) (k : SameE qs rs) : SameE ps rs :=
  ⟨h.same.trans k.same, fun b x => (k.exps b x).trans (h.exps b x)⟩

theorem bpath_same {ps qs : Parts} (h : Same ps qs) {a b : Nat} {path : List String} (k : BPath ps a path b) :
    BPath qs a path b := by
  induction k with
  | nil => exact .nil
  | up hn hp _ ih =>
    obtain ⟨n', e, _, a2, _⟩ := h.node hn
    exact .up e (by rw [a2, hp]) ih
  | down hx hn hp hnm hb _ ih =>
    obtain ⟨n', e, a1, a2, a3, _⟩ := h.node hn
    exact .down hx e (by rw [a2, hp]) (by rw [a1, hnm]) (by rw [a3, hb]) ih

theorem imported_same {g : Glob} {ps qs : Parts} (h : SameE ps qs) {this : Nat} {i : Import} {x : Nat}
    (k : Imported g ps this i x) : Imported g qs this i x := by
  obtain ⟨b, n, m, h1, h2, h3, h4, h5, h6, h7⟩ := k
  obtain ⟨n', e, a1, a2, a3, _⟩ := h.same.node h2
  refine ⟨b, n', m, bpath_same h.same h1, e, by rw [a2, h3], h4, by rw [a1]; exact h5, h6, ?_⟩
  rcases h7 with h7 | h7
  · exact .inl (by rw [a3, h7])
  · exact .inr ((h.exps b x).2 h7)

theorem addImports_spec (g : Glob) {ps : Parts} (w : Wf ps) {this : Nat} {q : Node} (hq : ps[this]? = some q)
    (hb : q.item.isBoundary = true) (is' : List Import) (hne : is' ≠ []) (ns : List Nat)
    (hns : ∀ i ∈ ns, ∃ n : Node, ps[i]? = some n ∧ n.item.isBoundary = false) :
    addImports g ps this is' ns ≠ .error .panic ∧ ∀ qs, addImports g ps this is' ns = .ok qs →
      Wf qs ∧ SameE ps qs ∧ (∀ i : Nat, i ∉ ns → qs[i]? = ps[i]?) ∧
      (∀ i ∈ ns, ∃ n : Node, qs[i]? = some n ∧ ∀ x, x ∈ n.item.imports ↔ ∃ j ∈ is', Imported g qs this j x) ∧
      ∀ j ∈ is', ∃ x, Imported g qs this j x := by
  unfold addImports
  have hie : is'.isEmpty = false := by cases is' <;> simp_all
  rw [hie]
  simp only [Bool.false_eq_true, if_false]
  obtain ⟨h1, h2⟩ := resolveImports_spec g w hq hb is' []
  cases hr : resolveImports g ps this is' [] with
  | error y => rw [hr] at h1; exact ⟨by simp only [Except.map]; intro e; cases e; exact h1 rfl, fun xs h => by cases h⟩
  | ok xs =>
    obtain ⟨k1, k2⟩ := h2 xs hr
    simp only [Except.map]
    refine ⟨by simp, fun qs h => ?_⟩
    simp only [Except.ok.injEq] at h
    have get : ∀ i : Nat, qs[i]? = if i ∈ ns then (ps[i]?).map (setImports (fromVec xs ps)) else ps[i]? := by
      intro i; rw [← h]; exact setAll_get _ _ _ _
    have sm : Same ps qs := by
      unfold Same
      apply List.ext_getElem?
      intro i
      rw [List.getElem?_map, List.getElem?_map, get]
      by_cases hi : i ∈ ns
      · rw [if_pos hi]; cases ps[i]? <;> simp [setImports_skel]
      · rw [if_neg hi]
    have se : SameE ps qs := by
      refine ⟨sm, fun b x => ?_⟩
      unfold Exported
      rw [get]
      by_cases hi : b ∈ ns
      · rw [if_pos hi]
        cases ps[b]? with
        | none => simp
        | some n => simp [setImports_exports]
      · rw [if_neg hi]
    have vis : ∀ j x, Imported g ps this j x → ∃ m : Node, ps[x]? = some m ∧
        (m.item.isBoundary = true ∨ ∃ p, m.parent = some p ∧ Exported ps p x) := by
      rintro j x ⟨b, n, m, _, e2, e3, _, _, _, e7⟩
      refine ⟨n, e2, ?_⟩
      rcases e7 with e7 | e7
      · exact .inl e7
      · exact .inr ⟨b, e3, e7⟩
    refine ⟨?_, se, fun i hi => by rw [get, if_neg hi], ?_, ?_⟩
    · refine ⟨forest_same sm w.forest, ?_, ?_, ?_⟩
      · intro i n p hn hbd hp
        obtain ⟨m, e, a1, a2, a3, _⟩ := sm.symm.node hn
        rw [← a1]; exact w.names i m p e (by rw [a3, hbd]) (by rw [a2, hp])
      · intro c r hr'
        obtain ⟨m, e, _, _, _, _, a5, _⟩ := sm.symm.node hr'
        have hex : r.item.exports = m.item.exports := by
          rw [get, e] at hr'
          by_cases hi : c ∈ ns
          · rw [if_pos hi] at hr'; cases hr'; exact setImports_exports _ _
          · rw [if_neg hi] at hr'; cases hr'; rfl
        obtain ⟨e1, e2⟩ := w.exports c m e
        rw [hex, ← a5]
        exact ⟨sorted_same sm e1, fun x hx => ⟨(e2 x hx).1, by rw [← is_bnd_same sm]; exact (e2 x hx).2⟩⟩
      · intro i n hn
        obtain ⟨m, e, _⟩ := sm.symm.node hn
        have him : Sorted ps n.item.imports ∧ ∀ x ∈ n.item.imports, ∃ m : Node, ps[x]? = some m ∧
            (m.item.isBoundary = true ∨ ∃ p, m.parent = some p ∧ Exported ps p x) := by
          rw [get, e] at hn
          by_cases hi : i ∈ ns
          · rw [if_pos hi] at hn; cases hn
            obtain ⟨m', em, hbf⟩ := hns i hi
            rw [e] at em; cases em
            rw [setImports_imports _ _ hbf]
            refine ⟨fromVec_sorted ps xs, fun x hx => ?_⟩
            rw [mem_fromVec, k1] at hx
            rcases hx with hx | ⟨j, _, hj⟩
            · cases hx
            · exact vis j x hj
          · rw [if_neg hi] at hn; cases hn; exact w.imports i _ e
        refine ⟨sorted_same sm him.1, fun x hx => ?_⟩
        obtain ⟨y, hy, hor⟩ := him.2 x hx
        obtain ⟨y', hy', _, b2, b3, _⟩ := sm.node hy
        refine ⟨y', hy', ?_⟩
        rcases hor with h | ⟨p, hp, hx'⟩
        · exact .inl (by rw [b3, h])
        · exact .inr ⟨p, by rw [b2, hp], (se.exps p x).2 hx'⟩
    · intro i hi
      obtain ⟨n, hn, hbf⟩ := hns i hi
      refine ⟨_, by rw [get, if_pos hi, hn]; rfl, fun x => ?_⟩
      rw [setImports_imports _ _ hbf, mem_fromVec, k1]
      simp only [List.not_mem_nil, false_or]
      exact ⟨fun ⟨j, hj, hx⟩ => ⟨j, hj, imported_same se hx⟩, fun ⟨j, hj, hx⟩ => ⟨j, hj, imported_same se.symm hx⟩⟩
    · intro j hj
      obtain ⟨x, hx⟩ := k2 j hj
      exact ⟨x, imported_same se hx⟩

theorem phase3_spec (g : Glob) (l : List (Nat × List Import × List Nat)) : ∀ {ps : Parts}, Wf ps →
    (∀ b is' ns, (b, is', ns) ∈ l → is' ≠ [] ∧ (∃ q : Node, ps[b]? = some q ∧ q.item.isBoundary = true) ∧
      ∀ i ∈ ns, ∃ n : Node, ps[i]? = some n ∧ n.item.isBoundary = false) →
    (l.Pairwise fun a c => ∀ i ∈ a.2.2, i ∉ c.2.2) →
    phase3 g ps l ≠ .error .panic ∧ ∀ qs, phase3 g ps l = .ok qs → Wf qs ∧ SameE ps qs ∧
      (∀ i : Nat, (∀ e ∈ l, i ∉ e.2.2) → qs[i]? = ps[i]?) ∧
      (∀ b is' ns, (b, is', ns) ∈ l → (∀ i ∈ ns, ∃ n : Node, qs[i]? = some n ∧
        ∀ x, x ∈ n.item.imports ↔ ∃ j ∈ is', Imported g qs b j x) ∧ ∀ j ∈ is', ∃ x, Imported g qs b j x) := by
  induction l with
  | nil =>
    intro ps w _ _
    refine ⟨by simp [phase3], fun qs h => ?_⟩
    simp only [phase3, Except.ok.injEq] at h
    subst h
    exact ⟨w, SameE.refl _, fun _ _ => rfl, by simp⟩
  | cons y l ih =>
    obtain ⟨b, is', ns⟩ := y
    intro ps w hl hd
    obtain ⟨hne, ⟨q, hq, hb⟩, hns⟩ := hl b is' ns (by simp)
    obtain ⟨h1, h2⟩ := addImports_spec g w hq hb is' hne ns hns
    have ⟨d1, d2⟩ := List.pairwise_cons.1 hd
    simp only [phase3]
    cases hr : addImports g ps b is' ns with
    | error y => rw [hr] at h1; exact ⟨by simp only [Except.bind]; exact h1, fun qs h => by cases h⟩
    | ok ps1 =>
      obtain ⟨w1, s1, o1, i1, m1⟩ := h2 ps1 hr
      have hl1 : ∀ b is' ns, (b, is', ns) ∈ l → is' ≠ [] ∧ (∃ q : Node, ps1[b]? = some q ∧ q.item.isBoundary = true) ∧
          ∀ i ∈ ns, ∃ n : Node, ps1[i]? = some n ∧ n.item.isBoundary = false := by
        intro b' is2 ns2 hm
        obtain ⟨a, ⟨q', hq', hb'⟩, c⟩ := hl b' is2 ns2 (by simp [hm])
        obtain ⟨r, e, _, _, a3, _⟩ := s1.same.node hq'
        refine ⟨a, ⟨r, e, by rw [a3, hb']⟩, fun i hi => ?_⟩
        obtain ⟨n, hn, hnb⟩ := c i hi
        obtain ⟨n', e', _, _, c3, _⟩ := s1.same.node hn
        exact ⟨n', e', by rw [c3, hnb]⟩
      obtain ⟨g1, g2⟩ := ih w1 hl1 d2
      refine ⟨g1, fun qs h => ?_⟩
      obtain ⟨w2, s2, o2, i2⟩ := g2 qs h
      refine ⟨w2, s1.trans s2, ?_, ?_⟩
      · intro i hi
        rw [o2 i (fun e he => hi e (by simp [he])), o1 i (hi (b, is', ns) (by simp))]
      · intro b' is2 ns2 hm
        rcases List.mem_cons.1 hm with hm | hm
        · cases hm
          constructor
          · intro i hi
            obtain ⟨n, hn, hx⟩ := i1 i hi
            refine ⟨n, by rw [o2 i (fun e he => d1 e he i hi)]; exact hn, fun x => ?_⟩
            rw [hx]
            exact ⟨fun ⟨j, hj, hx⟩ => ⟨j, hj, imported_same s2 hx⟩, fun ⟨j, hj, hx⟩ => ⟨j, hj, imported_same s2.symm hx⟩⟩
          · intro j hj
            obtain ⟨x, hx⟩ := m1 j hj
            exact ⟨x, imported_same s2 hx⟩
        · exact i2 b' is2 ns2 hm

/-! ### The whole extension -/

/-- What a successful extension of `ps` by the files `m` gives. -/
structure Extended (g : Glob) (ps : Parts) (m : List (List String × List FileDef)) (qs : Parts) : Prop where
  wf : Wf qs
  keeps : Keeps ps qs
  paths : ∀ x ∈ m, ∃ b, BPath qs 0 x.1 b
  items : itemsOf (qs.drop ps.length) = (filesOf m).flatMap fun x => fileItems x.2
  placed : ∀ p f, (p, f) ∈ filesOf m → ∃ b, BPath qs 0 p b ∧ ∀ nm k, (nm, k) ∈ fileItems f →
    ∃ (i : Nat) (n : Node), ps.length ≤ i ∧ qs[i]? = some n ∧ n.name = nm ∧ n.parent = some b ∧
      n.item.isBoundary = false ∧ n.item.isType = k ∧
      (∀ x, x ∈ n.item.imports ↔ ∃ j ∈ f.imports, Imported g qs b j x) ∧ ∀ j ∈ f.imports, ∃ x, Imported g qs b j x
  origin : ∀ (i : Nat) (n : Node), ps.length ≤ i → qs[i]? = some n → n.item.isBoundary = false →
    ∃ p f b, (p, f) ∈ filesOf m ∧ BPath qs 0 p b ∧ n.parent = some b ∧ (n.name, n.item.isType) ∈ fileItems f ∧
      ∀ x, x ∈ n.item.imports ↔ ∃ j ∈ f.imports, Imported g qs b j x
  exported : ∀ b x, Exported qs b x ↔ Exported ps b x ∨
    ∃ p f e, (p, f) ∈ filesOf m ∧ BPath qs 0 p b ∧ e ∈ f.exports ∧ MatchedIn g qs b e x
  matched : ∀ p f e, (p, f) ∈ filesOf m → e ∈ f.exports → ∃ b x, BPath qs 0 p b ∧ MatchedIn g qs b e x

theorem extend_spec (g : Glob) (order : List (Nat × List String) → List (Nat × List String))
    (ho : ∀ l, (order l).Perm l) {ps : Parts} (w : Wf ps) (m : List (List String × List FileDef)) :
    extendRoot g order ps m ≠ .error .panic ∧ ∀ qs, extendRoot g order ps m = .ok qs → Extended g ps m qs := by
  obtain ⟨h1, h2⟩ := inv_phase1 m (inv_init w)
  unfold extendRoot
  cases hr : phase1 ⟨ps, [], []⟩ m with
  | error y => rw [hr] at h1; exact ⟨by simp only [Except.bind]; intro e; cases e; exact h1 rfl, fun qs h => by cases h⟩
  | ok s =>
    obtain ⟨v, kp, pth⟩ := h2 s hr
    rw [List.nil_append] at v
    simp only [Except.bind]
    have hmem : ∀ b es, (b, es) ∈ order s.exports ↔ AMap.get s.exports b = some es := by
      intro b es
      rw [(ho s.exports).mem_iff, AMap.get_iff_mem v.keys]
    obtain ⟨g1, g2⟩ := phase2_spec g (order s.exports) v.wf (fun b es h => v.ekeys b es ((hmem b es).1 h))
    cases hr2 : phase2 g s.ps (order s.exports) with
    | error y => rw [hr2] at g1; exact ⟨by simp only; exact g1, fun qs h => by cases h⟩
    | ok ps2 =>
      obtain ⟨w2, s2, k2, x2, m2⟩ := g2 ps2 hr2
      have hent : ∀ b is' ns, (b, is', ns) ∈ s.imports → is' ≠ [] ∧ (∃ q : Node, ps2[b]? = some q ∧ q.item.isBoundary = true) ∧
          ∀ i ∈ ns, ∃ n : Node, ps2[i]? = some n ∧ n.item.isBoundary = false := by
        intro b is' ns hm
        obtain ⟨a, ⟨q', hq', hb'⟩, c⟩ := v.imps b is' ns hm
        obtain ⟨r, e, _, _, a3, _⟩ := s2.node hq'
        refine ⟨a, ⟨r, e, by rw [a3, hb']⟩, fun i hi => ?_⟩
        obtain ⟨_, n, hn, hnb⟩ := c i hi
        obtain ⟨n', e', _, _, c3, _⟩ := s2.node hn
        exact ⟨n', e', by rw [c3, hnb]⟩
      obtain ⟨i1, i2⟩ := phase3_spec g s.imports w2 hent v.disj
      refine ⟨i1, fun qs h => ?_⟩
      obtain ⟨w3, s3, o3, e3⟩ := i2 qs h
      have sm : Same s.ps qs := s2.trans s3.same
      -- imports of an item by its owner
      have own : ∀ f b (i : Nat) (n : Node), s.ps[i]? = some n → n.item.imports = [] → Owner s.imports f b i → ∃ n' : Node, qs[i]? = some n' ∧
          (∀ x, x ∈ n'.item.imports ↔ ∃ j ∈ f.imports, Imported g qs b j x) ∧ ∀ j ∈ f.imports, ∃ x, Imported g qs b j x := by
        intro f b i n hn him ho
        unfold Owner at ho
        by_cases hf : f.imports = []
        · rw [if_pos hf] at ho
          obtain ⟨n2, e2, _, _, _, _, a5, _⟩ := k2 i n hn
          refine ⟨n2, by rw [o3 i ho]; exact e2, ?_, ?_⟩
          · intro x; rw [a5, him, hf]; simp
          · rw [hf]; simp
        · rw [if_neg hf] at ho
          obtain ⟨ns, hns, hi⟩ := ho
          obtain ⟨j1, j2⟩ := e3 b f.imports ns hns
          obtain ⟨n', en, hx⟩ := j1 i hi
          exact ⟨n', en, hx, j2⟩
      have sameNode : ∀ {i : Nat} {n : Node}, s.ps[i]? = some n → ∀ {n' : Node}, qs[i]? = some n' → n'.name = n.name ∧
          n'.parent = n.parent ∧ n'.item.isBoundary = n.item.isBoundary ∧ n'.item.isType = n.item.isType := by
        intro i n hn n' hn'
        obtain ⟨k, e, a1, a2, a3, a4, _⟩ := sm.node hn
        rw [hn'] at e; cases e; exact ⟨a1, a2, a3, a4⟩
      refine ⟨w3, ?_, ?_, ?_, ?_, ?_, ?_, ?_⟩
      · -- keeps
        intro i n hn
        have hlt : i < ps.length := (List.getElem?_eq_some_iff.1 hn).1
        obtain ⟨n2, en, r⟩ := keeps_trans kp k2 i n hn
        refine ⟨n2, ?_, r⟩
        rw [o3 i (fun e he hi => ?_)]; exact en
        have := ((v.imps e.1 e.2.1 e.2.2 he).2.2 i hi).1
        omega
      · intro x hx
        obtain ⟨b, hb⟩ := pth x hx
        exact ⟨b, bpath_same sm hb⟩
      · rw [← v.items]
        have : ∀ a c : Parts, Same a c → itemsOf (a.drop ps.length) = itemsOf (c.drop ps.length) := by
          intro a c hac
          rw [itemsOf_key, itemsOf_key, List.map_drop, List.map_drop]
          have : a.map key = c.map key := by
            have h := congrArg (List.map key) hac
            rw [List.map_map, List.map_map] at h
            have e : key ∘ skel = key := by
              funext n; simp only [Function.comp, key, skel_bnd, skel_type, skel_name]
            rw [e] at h; exact h
          rw [this]
        exact (this s.ps qs sm).symm
      · intro p f hm
        obtain ⟨b, hb, h⟩ := v.placed p f hm
        refine ⟨b, bpath_same sm hb, fun nm k hk => ?_⟩
        obtain ⟨i, n, a1, a2, a3, a4, a5, a6, a7⟩ := h nm k hk
        obtain ⟨n', en, hx, hj⟩ := own f b i n a2 (v.origin i n a1 a2 a5).1 a7
        obtain ⟨b1, b2, b3, b4⟩ := sameNode a2 en
        exact ⟨i, n', a1, en, by rw [b1, a3], by rw [b2, a4], by rw [b3, a5], by rw [b4, a6], hx, hj⟩
      · intro i n' hi hn' hnb
        obtain ⟨n, hn, _⟩ := sm.symm.node hn'
        obtain ⟨b1, b2, b3, b4⟩ := sameNode hn hn'
        obtain ⟨him, p, f, b, c1, c2, c3, c4, c5⟩ := v.origin i n hi hn (by rw [← b3, hnb])
        obtain ⟨n2, en, hx, _⟩ := own f b i n hn him c5
        rw [hn'] at en; cases en
        exact ⟨p, f, b, c1, bpath_same sm c2, by rw [b2, c3], by rw [b1, b4]; exact c4, hx⟩
      · intro b x
        have old : Exported s.ps b x ↔ Exported ps b x := ⟨v.exOld b x, keeps_exported kp⟩
        rw [s3.exps, x2, old]
        constructor
        · rintro (h | ⟨es, e, h3, h4, h5⟩)
          · exact .inl h
          · obtain ⟨p, f, c1, c2, c3⟩ := (v.exps b e).1 ⟨es, (hmem b es).1 h3, h4⟩
            exact .inr ⟨p, f, e, c1, bpath_same sm c2, c3, matchedIn_same sm h5⟩
        · rintro (h | ⟨p, f, e, c1, c2, c3, c4⟩)
          · exact .inl h
          · obtain ⟨es, h3, h4⟩ := (v.exps b e).2 ⟨p, f, c1, bpath_same sm.symm c2, c3⟩
            exact .inr ⟨es, e, (hmem b es).2 h3, h4, matchedIn_same sm.symm c4⟩
      · intro p f e hm he
        obtain ⟨b, hb, _⟩ := v.placed p f hm
        obtain ⟨es, h3, h4⟩ := (v.exps b e).2 ⟨p, f, hm, hb, he⟩
        obtain ⟨x, hx⟩ := m2 b es e ((hmem b es).2 h3) h4
        exact ⟨b, x, bpath_same sm hb, matchedIn_same sm hx⟩

end Verif.Part
