import Verif.Props.ExpandStep
/-! C38: invariants of the syntax graph while definitions are expanded. -/
namespace Verif.Exp

structure Inv (g : Graph) : Prop where
  up : Up g
  root : ∀ n, n < g.nodes.length → Reach g 0 n
  kind : ∀ e ∈ g.edges, ∀ x, g.nodes[e.dst]? = some x → (e.rel = .normal ↔ x.isCmd = false)
  uniq : ∀ e ∈ g.edges, ∀ e' ∈ g.edges, e.rel = .normal → e'.rel = .normal → e.dst = e'.dst → e = e'
  ids : ∀ d f t, (d, f, t) ∈ g.ids ↔ g.nodes[d]? = some (.defn f (some t))
  once : ∀ d d' f t, g.nodes[d]? = some (.defn f (some t)) → g.nodes[d']? = some (.defn f (some t)) → Reach g d d' → d = d'
  fed : ∀ e ∈ g.edges, ∀ ty, e.rel = .keyed ty →
    g.edges.filter (·.dst = e.dst) = cmdEdges g e.src e.dst ty ∧ ∃ f, g.nodes[e.src]? = some (.op f)

section
variable {g g' : Graph} {op : Nat} {name : String} {im : Impl} {ns : List Node} {es : List Edge}

theorem Added.len (h : Added g g' op name im ns es) : g'.nodes.length = g.nodes.length + 1 + ns.length := by
  rw [h.nodes]; simp; omega

theorem Added.old (h : Added g g' op name im ns es) {n : Nat} (hn : n < g.nodes.length) : g'.nodes[n]? = g.nodes[n]? := by
  rw [h.nodes, List.getElem?_append_left hn]

theorem Added.sub (h : Added g g' op name im ns es) {e : Edge} (he : e ∈ g.edges) : e ∈ g'.edges := by
  rw [h.edges]; exact List.mem_append_left _ he

theorem Added.cmd (h : Added g g' op name im ns es) : g'.nodes[g.nodes.length]? = some (cmdNode name im) := by
  rw [h.nodes, List.getElem?_append_right (Nat.le_refl _)]; simp

theorem mem_termsOf {fl : Bool} {t : Nat} (h : t ∈ termsOf g op fl) : ⟨op, t, .normal⟩ ∈ g.edges := by
  obtain ⟨h1, _⟩ := List.mem_filter.1 h
  obtain ⟨e, he, rfl⟩ := List.mem_map.1 h1
  obtain ⟨h2, h3⟩ := List.mem_filter.1 he
  simp only [decide_eq_true_eq] at h3
  obtain ⟨rfl, h4⟩ := h3
  obtain ⟨a, b, r⟩ := e
  cases h4
  exact h2

theorem mem_cmdEdges {c : Nat} {ty : Option String} {e : Edge} (h : e ∈ cmdEdges g op c ty) :
    e.dst = c ∧ e.rel ≠ .normal ∧ (e.src = op ∨ ⟨op, e.src, .normal⟩ ∈ g.edges) ∧ (∀ ty', e.rel = .keyed ty' → e.src = op) := by
  rcases List.mem_cons.1 h with rfl | h
  · exact ⟨rfl, by simp, Or.inl rfl, fun _ _ => rfl⟩
  · have key : ∀ fl, e ∈ termEdges c (termsOf g op fl) →
        e.dst = c ∧ e.rel ≠ .normal ∧ (e.src = op ∨ ⟨op, e.src, .normal⟩ ∈ g.edges) ∧ (∀ ty', e.rel = .keyed ty' → e.src = op) := by
      intro fl he
      obtain ⟨⟨t, i⟩, hx, rfl⟩ := List.mem_map.1 he
      have : t ∈ termsOf g op fl := by
        have := List.mk_mem_zipIdx_iff_getElem?.1 hx
        exact List.mem_of_getElem? this
      exact ⟨rfl, by simp, Or.inr (mem_termsOf this), fun ty' h => by cases h⟩
    rcases List.mem_append.1 h with h | h
    · exact key true h
    · exact key false h

/-- A new edge. -/
theorem Added.fresh (h : Added g g' op name im ns es) {e : Edge} (he : e ∈ g'.edges) :
    e ∈ g.edges ∨
    (e ∈ es ∧ e.rel = .normal ∧ g.nodes.length ≤ e.src ∧ e.src < e.dst ∧ g.nodes.length < e.dst ∧ e.dst < g'.nodes.length) ∨
    (e ∈ cmdEdges g op g.nodes.length im.ty ∧ e.dst = g.nodes.length ∧ e.rel ≠ .normal) := by
  rw [h.edges] at he
  rcases List.mem_append.1 he with he | he
  · exact Or.inl he
  · rcases List.mem_append.1 he with he | he
    · exact Or.inr (Or.inl ⟨he, h.up e he⟩)
    · have := mem_cmdEdges he
      exact Or.inr (Or.inr ⟨he, this.1, this.2.1⟩)

theorem Added.reach_old (h : Added g g' op name im ns es) (hu : Up g) {a b : Nat} (hb : b < g.nodes.length) :
    Reach g' a b ↔ Reach g a b := by
  constructor
  · intro hr
    induction hr with
    | refl => exact .refl
    | step e _ he hs ih =>
      rcases h.fresh he with he | ⟨_, he⟩ | ⟨_, he⟩
      · exact .step e (ih (by have := hu e he; omega)) he hs
      · omega
      · omega
  · exact Reach.mono fun e he => h.sub he

theorem Added.up' (h : Added g g' op name im ns es) (hu : Up g) (hop : op < g.nodes.length) : Up g' := by
  have hl := h.len
  intro e he
  rcases h.fresh he with he | ⟨_, he⟩ | ⟨he, hd, _⟩
  · have := hu e he; omega
  · omega
  · refine ⟨?_, by omega⟩
    rcases (mem_cmdEdges he).2.2.1 with h1 | h1
    · omega
    · have := (hu _ h1).2
      change e.src < _ at this
      omega

theorem Added.keyed (h : Added g g' op name im ns es) : ⟨op, g.nodes.length, .keyed im.ty⟩ ∈ g'.edges := by
  rw [h.edges]
  exact List.mem_append_right _ (List.mem_append_right _ List.mem_cons_self)

/-- Everything new is below the implementation. -/
theorem Added.reach_new (h : Added g g' op name im ns es) : ∀ k n, n = g.nodes.length + k → n < g'.nodes.length →
    Reach g' g.nodes.length n := by
  intro k
  induction k using Nat.strongRecOn with
  | _ k ih =>
    intro n hn hl
    by_cases h0 : k = 0
    · subst h0; subst hn; exact .refl
    · obtain ⟨e, he, rfl⟩ := h.has n (by omega) hl
      have := h.up e he
      refine .step e (ih (e.src - g.nodes.length) (by omega) e.src (by omega) (by omega)) ?_ rfl
      rw [h.edges]
      exact List.mem_append_right _ (List.mem_append_left _ he)

theorem Added.below (h : Added g g' op name im ns es) {n : Nat} (hn : g.nodes.length ≤ n) (hl : n < g'.nodes.length) :
    Reach g' op n :=
  (Reach.step ⟨op, g.nodes.length, .keyed im.ty⟩ .refl h.keyed rfl).trans
    (h.reach_new (n - g.nodes.length) n (by omega) hl)

theorem Added.ids_old (h : Added g g' op name im ns es) {x : Nat × String × String} (hx : x ∈ g.ids) : x ∈ g'.ids := by
  rw [h.ids]; exact List.mem_append_left _ hx

theorem Added.termsOf (h : Added g g' op name im ns es) (hu : Up g) {o : Nat} (ho : o < g.nodes.length) (fl : Bool) :
    Exp.termsOf g' o fl = Exp.termsOf g o fl := by
  refine termsOf_ext hu ho h.nodes h.edges ?_
  intro e he hr
  rcases List.mem_append.1 he with he | he
  · have := h.up e he; omega
  · exact absurd hr (mem_cmdEdges he).2.1

theorem Added.cmdEdges (h : Added g g' op name im ns es) (hu : Up g) {o : Nat} (ho : o < g.nodes.length) (c : Nat)
    (ty : Option String) : Exp.cmdEdges g' o c ty = Exp.cmdEdges g o c ty := by
  unfold Exp.cmdEdges
  rw [h.termsOf hu ho, h.termsOf hu ho]

theorem getElem?_lt {α : Type} {l : List α} {i : Nat} {x : α} (h : l[i]? = some x) : i < l.length :=
  (List.getElem?_eq_some_iff.1 h).1

/-- A node that was not there before is the implementation or one below it, which is no implementation. -/
theorem Added.cases (h : Added g g' op name im ns es) {n : Nat} {x : Node} (hx : g'.nodes[n]? = some x) :
    (n < g.nodes.length ∧ g.nodes[n]? = some x) ∨ (n = g.nodes.length ∧ x = cmdNode name im) ∨
    (g.nodes.length < n ∧ x ∈ ns ∧ x.isCmd = false) := by
  by_cases hn : n < g.nodes.length
  · rw [h.old hn] at hx; exact Or.inl ⟨hn, hx⟩
  · by_cases hc : n = g.nodes.length
    · subst hc
      rw [h.cmd] at hx
      cases hx
      exact Or.inr (Or.inl ⟨rfl, rfl⟩)
    · refine Or.inr (Or.inr ⟨by omega, ?_⟩)
      rw [h.nodes, List.getElem?_append_right (by omega)] at hx
      obtain ⟨k, hk⟩ : ∃ k, n - g.nodes.length = k + 1 := ⟨n - g.nodes.length - 1, by omega⟩
      rw [hk, List.getElem?_cons_succ] at hx
      have := List.mem_of_getElem? hx
      exact ⟨this, h.kind x this⟩

theorem cmdNode_isCmd (name : String) (im : Impl) : (cmdNode name im).isCmd = true := by
  unfold cmdNode; split <;> rfl

/-- The way to the implementation leads through the operation. -/
theorem Added.reach_cmd (h : Added g g' op name im ns es) (hi : Inv g) (hop : op < g.nodes.length) {d : Nat}
    (hr : Reach g' d g.nodes.length) : d = g.nodes.length ∨ Reach g d op ∨ ⟨op, d, .normal⟩ ∈ g.edges := by
  generalize hb : g.nodes.length = b at hr
  cases hr with
  | refl => exact Or.inl rfl
  | step e hr he hs =>
    have hd : e.dst = g.nodes.length := hb.symm
    rcases h.fresh he with he | ⟨_, he⟩ | ⟨he, _⟩
    · have := hi.up e he; omega
    · omega
    · right
      rcases (mem_cmdEdges he).2.2.1 with h1 | h1
      · left
        rw [← hs, h1] at hr
        exact (h.reach_old hi.up hop).1 hr
      · have h2 := (hi.up _ h1).2
        change e.src < _ at h2
        rw [← hs] at hr
        have hr := (h.reach_old hi.up h2).1 hr
        generalize ht : e.src = t at hr
        cases hr with
        | refl => right; rw [ht] at h1; exact h1
        | step e' hr' he' hs' =>
          left
          rw [ht] at h1
          have hk : e'.rel = .normal := by
            have hlt := (hi.up e' he').2
            have := hi.kind e' he' _ (List.getElem?_eq_getElem hlt)
            have h3 := hi.kind _ h1 _ (List.getElem?_eq_getElem hlt)
            exact this.2 (h3.1 rfl)
          have := hi.uniq e' he' _ h1 hk rfl rfl
          rw [this] at hs'
          change op = _ at hs'
          rw [hs']
          exact hr'

theorem Added.parents (h : Added g g' op name im ns es) (hi : Inv g) (hop : op < g.nodes.length) {n : Nat}
    (hn : n < g.nodes.length) {i : String × String} : i ∈ parentIds g' n ↔ i ∈ parentIds g n := by
  rw [mem_parentIds (h.up' hi.up hop), mem_parentIds hi.up]
  constructor
  · rintro ⟨d, h1, h2, h3⟩
    have h3' := (h.reach_old hi.up hn).1 h3
    have hd : d < g.nodes.length := Nat.lt_of_le_of_lt (h3'.le hi.up) hn
    refine ⟨d, ?_, (h.reach_old hi.up hd).1 h2, h3'⟩
    rw [h.ids] at h1
    rcases List.mem_append.1 h1 with h1 | h1
    · exact h1
    · unfold newIds at h1
      split at h1
      · have := List.mem_singleton.1 h1
        cases this
        omega
      · cases h1
  · rintro ⟨d, h1, h2, h3⟩
    exact ⟨d, h.ids_old h1, h2.mono fun e he => h.sub he, h3.mono fun e he => h.sub he⟩

/-- What is below the implementation is inside everything that the operation is inside of, and inside of it. -/
theorem Added.parents_new (h : Added g g' op name im ns es) (hi : Inv g) (hop : op < g.nodes.length) {n : Nat}
    (hn : g.nodes.length ≤ n) (hl : n < g'.nodes.length) :
    (∀ i ∈ parentIds g op, i ∈ parentIds g' n) ∧
    (∀ b t, im.defn = some b → im.ty = some t → (name, t) ∈ parentIds g' n) := by
  have hu' := h.up' hi.up hop
  constructor
  · intro i hp
    rw [mem_parentIds hi.up] at hp
    rw [mem_parentIds hu']
    obtain ⟨d, h1, h2, h3⟩ := hp
    exact ⟨d, h.ids_old h1, h2.mono fun e he => h.sub he, (h3.mono fun e he => h.sub he).trans (h.below hn hl)⟩
  · intro b t hb ht
    rw [mem_parentIds hu']
    refine ⟨g.nodes.length, ?_, ?_, h.reach_new (n - g.nodes.length) n (by omega) hl⟩
    · rw [h.ids]; apply List.mem_append_right; simp [newIds, hb, ht]
    · exact ((hi.root op hop).mono fun e he => h.sub he).trans (h.below (Nat.le_refl _) (by omega))

theorem filter_none {α : Type} {p : α → Bool} {l : List α} (h : ∀ x ∈ l, p x = false) : l.filter p = [] := by
  rw [List.filter_eq_nil_iff]
  intro x hx
  rw [h x hx]
  simp

theorem filter_all {α : Type} {p : α → Bool} {l : List α} (h : ∀ x ∈ l, p x = true) : l.filter p = l :=
  List.filter_eq_self.2 h

theorem Added.inv (h : Added g g' op name im ns es) (hi : Inv g) (hop : g.nodes[op]? = some (.op name))
    (hnew : ∀ b t, im.defn = some b → im.ty = some t → (name, t) ∉ parentIds g op) : Inv g' := by
  have hlt := getElem?_lt hop
  have hl := h.len
  have hu' := h.up' hi.up hlt
  refine ⟨hu', ?_, ?_, ?_, ?_, ?_, ?_⟩
  · intro n hn
    by_cases ho : n < g.nodes.length
    · exact (hi.root n ho).mono fun e he => h.sub he
    · exact ((hi.root op hlt).mono fun e he => h.sub he).trans (h.below (by omega) hn)
  · intro e he x hx
    rcases h.fresh he with he | ⟨_, hr, hb⟩ | ⟨_, hd, hr⟩
    · rw [h.old (hi.up e he).2] at hx
      exact hi.kind e he x hx
    · rcases h.cases hx with ⟨h1, _⟩ | ⟨h1, _⟩ | ⟨_, _, h1⟩
      · omega
      · omega
      · exact ⟨fun _ => h1, fun _ => hr⟩
    · rw [hd, h.cmd] at hx
      cases hx
      rw [cmdNode_isCmd]
      exact ⟨fun h => absurd h hr, fun h => by cases h⟩
  · intro e he e' he' hr hr' hd
    rcases h.fresh he with he | he | he
    · rcases h.fresh he' with he' | he' | he'
      · exact hi.uniq e he e' he' hr hr' hd
      · have := hi.up e he; have := he'.2.2; omega
      · exact absurd hr' he'.2.2
    · rcases h.fresh he' with he' | he' | he'
      · have := hi.up e' he'; have := he.2.2; omega
      · exact h.uniq e he.1 e' he'.1 hd
      · exact absurd hr' he'.2.2
    · exact absurd hr he.2.2
  · intro d f t
    rw [h.ids, List.mem_append]
    constructor
    · rintro (h1 | h1)
      · have := (hi.ids d f t).1 h1
        rw [h.old (getElem?_lt this)]
        exact this
      · unfold newIds at h1
        split at h1
        · rename_i b t' hb ht
          cases List.mem_singleton.1 h1
          rw [h.cmd]
          simp [cmdNode, hb, ht]
        · cases h1
    · intro h1
      rcases h.cases h1 with ⟨_, h2⟩ | ⟨rfl, h2⟩ | ⟨_, _, h2⟩
      · exact Or.inl ((hi.ids d f t).2 h2)
      · right
        unfold cmdNode at h2
        split at h2
        · cases h2
        · rename_i b hb
          injection h2 with hf ht
          subst hf
          simp [newIds, hb, ← ht]
      · cases h2
  · intro d d' f t h1 h2 hr
    rcases h.cases h2 with ⟨hd', h2'⟩ | ⟨rfl, h2'⟩ | ⟨_, _, h2'⟩
    · have hr' := (h.reach_old hi.up hd').1 hr
      have hd : d < g.nodes.length := Nat.lt_of_le_of_lt (hr'.le hi.up) hd'
      rw [h.old hd] at h1
      exact hi.once d d' f t h1 h2' hr'
    · unfold cmdNode at h2'
      split at h2'
      · cases h2'
      · rename_i b hb
        injection h2' with hf ht
        subst hf
        rcases h.reach_cmd hi hlt hr with rfl | hr' | hr'
        · rfl
        · exfalso
          have hd : d < g.nodes.length := Nat.lt_of_le_of_lt (hr'.le hi.up) hlt
          rw [h.old hd] at h1
          exact hnew b t hb ht.symm ((mem_parentIds hi.up).2 ⟨d, (hi.ids d f t).2 h1, hi.root d hd, hr'⟩)
        · exfalso
          have hd := (hi.up _ hr').2
          change d < _ at hd
          rw [h.old hd] at h1
          have := (hi.kind _ hr' _ h1).1 rfl
          cases this
    · cases h2'
  · intro e he ty hk
    have hf : ∀ c, g'.edges.filter (·.dst = c) =
        g.edges.filter (·.dst = c) ++ (es.filter (·.dst = c) ++ (Exp.cmdEdges g op g.nodes.length im.ty).filter (·.dst = c)) := by
      intro c; rw [h.edges, List.filter_append, List.filter_append]
    rcases h.fresh he with he | ⟨_, hr, _⟩ | ⟨he, hd, _⟩
    · obtain ⟨h1, f, h2⟩ := hi.fed e he ty hk
      have hb := hi.up e he
      refine ⟨?_, f, by rw [h.old (by omega)]; exact h2⟩
      have e1 : es.filter (·.dst = e.dst) = [] := filter_none (by
        intro x hx
        have := h.up x hx
        simp; omega)
      have e2 : (Exp.cmdEdges g op g.nodes.length im.ty).filter (·.dst = e.dst) = [] := filter_none (by
        intro x hx
        have := (mem_cmdEdges hx).1
        simp; omega)
      rw [hf, h.cmdEdges hi.up (by omega), ← h1, e1, e2, List.append_nil, List.append_nil]
    · rw [hk] at hr; cases hr
    · have hs := (mem_cmdEdges he).2.2.2 ty hk
      refine ⟨?_, name, by rw [hs, h.old hlt]; exact hop⟩
      have hty : ty = im.ty := by
        rcases List.mem_cons.1 he with rfl | he
        · cases hk; rfl
        · rcases List.mem_append.1 he with he | he
          · obtain ⟨x, _, rfl⟩ := List.mem_map.1 he; cases hk
          · obtain ⟨x, _, rfl⟩ := List.mem_map.1 he; cases hk
      have e0 : g.edges.filter (·.dst = g.nodes.length) = [] := filter_none (by
        intro x hx
        have := hi.up x hx
        simp; omega)
      have e1 : es.filter (·.dst = g.nodes.length) = [] := filter_none (by
        intro x hx
        have := h.up x hx
        simp; omega)
      have e2 : (Exp.cmdEdges g op g.nodes.length im.ty).filter (·.dst = g.nodes.length) =
          Exp.cmdEdges g op g.nodes.length im.ty := filter_all (by
        intro x hx
        simp [(mem_cmdEdges hx).1])
      rw [hf, hd, hs, hty, h.cmdEdges hi.up hlt, e0, e1, e2, List.nil_append, List.nil_append]

end

/-! ### The start -/

theorem inv_start {D : Defs} {e : Expr} {g : Graph} (h : flatten D e ⟨[], [], []⟩ = .ok g) :
    Inv g ∧ (∀ f, opCount f g.nodes = (opsE e).count f) ∧ g.ids = [] ∧ (∀ e ∈ g.edges, e.rel = .normal) := by
  obtain ⟨ns, es, k, hc⟩ := flatten_kids h
  have kn : g.nodes = .expr :: ns := k.nodes
  have ke : g.edges = es := by simpa [Graph.add] using k.edges
  have ki : g.ids = [] := k.ids
  have ku := k.up
  have kh := k.has
  have hl : (Graph.add ⟨[], [], []⟩ .expr).nodes.length = 1 := rfl
  rw [hl] at ku kh
  have hall : ∀ x ∈ g.nodes, x.isCmd = false := by
    intro x hx
    rw [kn] at hx
    rcases List.mem_cons.1 hx with rfl | hx
    · rfl
    · exact k.kind x hx
  have nod : ∀ (d : Nat) f t, g.nodes[d]? ≠ some (.defn f t) := by
    intro d f t hd
    have := hall _ (List.mem_of_getElem? hd)
    cases this
  refine ⟨⟨?_, ?_, ?_, ?_, ?_, ?_, ?_⟩, ?_, ki, ?_⟩
  · intro e he
    rw [ke] at he
    have := ku e he
    exact ⟨this.2.2.1, this.2.2.2.2⟩
  · intro n
    induction n using Nat.strongRecOn with
    | _ n ih =>
      intro hn
      by_cases h0 : n = 0
      · subst h0; exact .refl
      · obtain ⟨e, he, rfl⟩ := kh n (by omega) hn
        have := ku e he
        exact .step e (ih e.src this.2.2.1 (by omega)) (by rw [ke]; exact he) rfl
  · intro e he x hx
    rw [ke] at he
    exact ⟨fun _ => hall x (List.mem_of_getElem? hx), fun _ => (ku e he).1⟩
  · intro e he e' he' _ _ hd
    rw [ke] at he he'
    exact k.uniq e he e' he' hd
  · intro d f t
    rw [ki]
    exact ⟨fun h => (by cases h), fun h => absurd h (nod _ _ _)⟩
  · intro d d' f t h1
    exact absurd h1 (nod _ _ _)
  · intro e he ty hk
    rw [ke] at he
    rw [(ku e he).1] at hk
    cases hk
  · intro f
    rw [kn, show Node.expr :: ns = [.expr] ++ ns from rfl, opCount_append, hc f]
    simp [opCount]
  · intro e he
    rw [ke] at he
    exact (ku e he).1

end Verif.Exp
