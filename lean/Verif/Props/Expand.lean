import Verif.Spec.Expand
/-! C38: expanding definitions. -/
namespace Verif.Exp

def Node.isCmd : Node → Bool
  | .intrinsic _ _ => true
  | .defn _ _ => true
  | _ => false

/-- The number of operations of a name among some nodes. -/
def opCount (f : String) (ns : List Node) : Nat := ns.countP fun n => n = .op f

theorem opCount_append (f : String) (a b : List Node) : opCount f (a ++ b) = opCount f a + opCount f b := by
  simp [opCount, List.countP_append]

/-! ### Flattening -/

/-- How a graph has grown: new nodes below the node `b`, each with one edge to it. -/
structure Kids (b : Nat) (g g' : Graph) (ns : List Node) (es : List Edge) : Prop where
  nodes : g'.nodes = g.nodes ++ ns
  edges : g'.edges = g.edges ++ es
  ids : g'.ids = g.ids
  up : ∀ e ∈ es, e.rel = .normal ∧ b ≤ e.src ∧ e.src < e.dst ∧ g.nodes.length ≤ e.dst ∧ e.dst < g'.nodes.length
  has : ∀ n, g.nodes.length ≤ n → n < g'.nodes.length → ∃ e ∈ es, e.dst = n
  uniq : ∀ e ∈ es, ∀ e' ∈ es, e.dst = e'.dst → e = e'
  kind : ∀ n ∈ ns, n.isCmd = false

theorem Kids.refl (b : Nat) (g : Graph) : Kids b g g [] [] :=
  ⟨by simp, by simp, rfl, by simp, fun n h1 h2 => by omega, by simp, by simp⟩

theorem Kids.len {b : Nat} {g g' : Graph} {ns : List Node} {es : List Edge} (h : Kids b g g' ns es) :
    g'.nodes.length = g.nodes.length + ns.length := by rw [h.nodes]; simp

theorem Kids.trans {b : Nat} {g1 g2 g3 : Graph} {ns ns' : List Node} {es es' : List Edge} (h : Kids b g1 g2 ns es)
    (h' : Kids b g2 g3 ns' es') : Kids b g1 g3 (ns ++ ns') (es ++ es') := by
  have l := h.len
  have l' := h'.len
  refine ⟨?_, ?_, ?_, ?_, ?_, ?_, ?_⟩
  · rw [h'.nodes, h.nodes, List.append_assoc]
  · rw [h'.edges, h.edges, List.append_assoc]
  · rw [h'.ids, h.ids]
  · intro e he
    rcases List.mem_append.1 he with he | he
    · have := h.up e he
      exact ⟨this.1, this.2.1, this.2.2.1, this.2.2.2.1, by omega⟩
    · have := h'.up e he
      exact ⟨this.1, this.2.1, this.2.2.1, by omega, this.2.2.2.2⟩
  · intro n h1 h2
    by_cases hn : n < g2.nodes.length
    · obtain ⟨e, he, hd⟩ := h.has n h1 hn
      exact ⟨e, List.mem_append_left _ he, hd⟩
    · obtain ⟨e, he, hd⟩ := h'.has n (by omega) h2
      exact ⟨e, List.mem_append_right _ he, hd⟩
  · intro e he e' he' hd
    rcases List.mem_append.1 he with he | he <;> rcases List.mem_append.1 he' with he' | he'
    · exact h.uniq e he e' he' hd
    · have := h.up e he; have := h'.up e' he'; omega
    · have := h'.up e he; have := h.up e' he'; omega
    · exact h'.uniq e he e' he' hd
  · intro n hn
    rcases List.mem_append.1 hn with hn | hn
    · exact h.kind n hn
    · exact h'.kind n hn

/-- A node is added below another. -/
theorem Kids.one {b : Nat} (g : Graph) {p : Nat} {n : Node} (hb : b ≤ p) (hp : p < g.nodes.length) (hk : n.isCmd = false) :
    Kids b g ((g.add n).link p g.nodes.length .normal) [n] [⟨p, g.nodes.length, .normal⟩] := by
  refine ⟨rfl, rfl, rfl, ?_, ?_, ?_, ?_⟩
  · intro e he
    rw [List.mem_singleton.1 he]
    exact ⟨rfl, hb, hp, Nat.le_refl _, by simp [Graph.add, Graph.link]⟩
  · intro m h1 h2
    simp [Graph.add, Graph.link] at h2
    exact ⟨_, List.mem_singleton.2 rfl, by show g.nodes.length = m; omega⟩
  · intro e he e' he' _
    rw [List.mem_singleton.1 he, List.mem_singleton.1 he']
  · intro m hm
    rw [List.mem_singleton.1 hm]; exact hk

/-- The expressions that are queued lie in the graph, below `b`. -/
def QOk (b : Nat) (g : Graph) (q : Queue) : Prop := ∀ x ∈ q, b ≤ x.1 ∧ x.1 < g.nodes.length

theorem QOk.mono {b : Nat} {g g' : Graph} {q : Queue} (h : QOk b g q) (hl : g.nodes.length ≤ g'.nodes.length) : QOk b g' q :=
  fun x hx => ⟨(h x hx).1, Nat.lt_of_lt_of_le (h x hx).2 hl⟩

/-- The operations of the expressions that are queued. -/
def opsQ (q : Queue) : List String := q.flatMap fun x => opsE x.2

def countQ : Queue → Nat
  | [] => 0
  | x :: q => countE x.2 + countQ q

theorem countQ_append (a b : Queue) : countQ (a ++ b) = countQ a + countQ b := by
  induction a with
  | nil => simp [countQ]
  | cons x a ih => simp only [List.cons_append, countQ, ih]; omega

theorem opsE_blks (e : Expr) : opsE e = opsBs e.blks := by cases e; simp [opsE, Expr.blks]

theorem countE_blks (e : Expr) : countE e = 1 + countBs e.blks := by cases e; simp [countE, Expr.blks]

theorem addTerms_kids (D : Defs) (b op : Nat) (hb : b ≤ op) : ∀ (ts : List Term) (g : Graph) (q : Queue) {g' : Graph} {q' : Queue},
    addTerms D op ts g q = .ok (g', q') → op < g.nodes.length → QOk b g q →
    ∃ ns es, Kids b g g' ns es ∧ QOk b g' q' ∧
      (∀ f, opCount f ns + (opsQ q').count f = (opsQ q).count f + (opsTs ts).count f) ∧ countQ q' = countQ q + countTs ts := by
  intro ts
  induction ts with
  | nil =>
    intro g q g' q' h hop hq
    cases h
    exact ⟨[], [], Kids.refl b g, hq, fun f => by simp [opCount, opsTs], by simp [countTs]⟩
  | cons t ts ih =>
    intro g q g' q' h hop hq
    have one : ∀ n : Node, n.isCmd = false → (∀ f, n ≠ .op f) → ∀ q1 : Queue,
        (∀ f, (opsQ q1).count f = (opsQ q).count f + (opsT t).count f) → countQ q1 = countQ q + countT t →
        (QOk b ((g.add n).link op g.nodes.length .normal) q1) →
        addTerms D op ts ((g.add n).link op g.nodes.length .normal) q1 = .ok (g', q') →
        ∃ ns es, Kids b g g' ns es ∧ QOk b g' q' ∧
          (∀ f, opCount f ns + (opsQ q').count f = (opsQ q).count f + (opsTs (t :: ts)).count f) ∧
          countQ q' = countQ q + countTs (t :: ts) := by
      intro n hn hno q1 hc hl hq1 h
      have hk := Kids.one (b := b) g hb hop hn
      obtain ⟨ns, es, k, hq', hcnt, hlen⟩ := ih _ q1 h (by have := hk.len; simp at this; omega) hq1
      refine ⟨_, _, hk.trans k, hq', fun f => ?_, ?_⟩
      · have := hcnt f
        have h2 := hc f
        have h3 : opCount f [n] = 0 := by simp [opCount, hno f]
        simp only [opCount_append, h3, opsTs, List.count_append]
        omega
      · simp only [countTs]; omega
    have grown : ∀ n : Node, QOk b ((g.add n).link op g.nodes.length .normal) q := fun n =>
      hq.mono (by simp [Graph.add, Graph.link])
    cases t with
    | flag f => exact one _ rfl (by simp) q (by simp [opsT]) (by simp [countT]) (grown _) h
    | plain x => exact one _ rfl (by simp) q (by simp [opsT]) (by simp [countT]) (grown _) h
    | pound c =>
      simp only [addTerms] at h
      split at h
      · exact one _ rfl (by simp) q (by simp [opsT]) (by simp [countT]) (grown _) h
      · cases h
    | expr e =>
      simp only [addTerms] at h
      split at h
      · refine one _ rfl (by simp) (q ++ [(g.nodes.length, e)]) ?_ ?_ ?_ h
        · intro f; simp [opsQ, opsT]
        · rw [countQ_append]; simp [countQ, countT]
        · intro x hx
          rcases List.mem_append.1 hx with hx | hx
          · exact grown _ x hx
          · rw [List.mem_singleton.1 hx]
            exact ⟨by show b ≤ g.nodes.length; omega, by simp [Graph.add, Graph.link]⟩
      · cases h

theorem addBlks_kids (D : Defs) (b root : Nat) (hb : b ≤ root) : ∀ (bs : List Blk) (g : Graph) (q : Queue) {g' : Graph} {q' : Queue},
    addBlks D root bs g q = .ok (g', q') → root < g.nodes.length → QOk b g q →
    ∃ ns es, Kids b g g' ns es ∧ QOk b g' q' ∧
      (∀ f, opCount f ns + (opsQ q').count f = (opsQ q).count f + (opsBs bs).count f) ∧ countQ q' = countQ q + countBs bs := by
  intro bs
  induction bs with
  | nil =>
    intro g q g' q' h hr hq
    cases h
    exact ⟨[], [], Kids.refl b g, hq, fun f => by simp [opCount, opsBs], by simp [countBs]⟩
  | cons blk bs ih =>
    intro g q g' q' h hr hq
    obtain ⟨op, inTy, outTy, terms⟩ := blk
    simp only [addBlks] at h
    split at h
    · cases h
    · rename_i op
      split at h
      · cases h
      · split at h
        · cases h
        · split at h
          · cases h
          · rename_i g1 q1 ht
            have hk := Kids.one (b := b) (n := .op op) g hb hr rfl
            have hl := hk.len
            simp at hl
            obtain ⟨ns1, es1, k1, hq1, hc1, hl1⟩ := addTerms_kids D b g.nodes.length (by omega) terms _ q ht (by omega)
              (hq.mono (by omega))
            have hl1' := k1.len
            obtain ⟨ns2, es2, k2, hq2, hc2, hl2⟩ := ih g1 q1 h (by omega) hq1
            refine ⟨_, _, (hk.trans k1).trans k2, hq2, fun f => ?_, ?_⟩
            · have e1 := hc1 f
              have e2 := hc2 f
              have e3 : opCount f [Node.op op] = [op].count f := by
                simp [opCount, List.count, List.countP_cons]
              simp only [opCount_append, opsBs, opsB, Option.toList, List.count_append]
              omega
            · simp only [countBs, countB]; omega

theorem flatLoop_kids (D : Defs) (b : Nat) : ∀ (fuel : Nat) (q : Queue) (g : Graph) {g' : Graph},
    flatLoop D fuel q g = .ok g' → QOk b g q →
    ∃ ns es, Kids b g g' ns es ∧ ∀ f, opCount f ns = (opsQ q).count f := by
  intro fuel
  induction fuel with
  | zero =>
    intro q g g' h hq
    cases q with
    | nil => simp only [flatLoop] at h; cases h; exact ⟨[], [], Kids.refl b g, fun f => by simp [opCount, opsQ]⟩
    | cons x q => simp [flatLoop] at h
  | succ fuel ih =>
    intro q g g' h hq
    cases q with
    | nil => simp only [flatLoop] at h; cases h; exact ⟨[], [], Kids.refl b g, fun f => by simp [opCount, opsQ]⟩
    | cons x q =>
      obtain ⟨root, e⟩ := x
      simp only [flatLoop] at h
      split at h
      · cases h
      · rename_i g1 q1 hb
        have hr := hq (root, e) List.mem_cons_self
        obtain ⟨ns1, es1, k1, hq1, hc1, _⟩ := addBlks_kids D b root hr.1 e.blks g q hb hr.2
          (fun x hx => hq x (List.mem_cons_of_mem _ hx))
        obtain ⟨ns2, es2, k2, hc2⟩ := ih q1 g1 h hq1
        refine ⟨_, _, k1.trans k2, fun f => ?_⟩
        have e1 := hc1 f
        have e2 := hc2 f
        rw [opCount_append]
        simp only [opsQ, List.flatMap_cons, List.count_append, opsE_blks e] at e1 e2 ⊢
        omega

theorem flatten_kids {D : Defs} {e : Expr} {g g' : Graph} (h : flatten D e g = .ok g') :
    ∃ ns es, Kids g.nodes.length (g.add .expr) g' ns es ∧ ∀ f, opCount f ns = (opsE e).count f := by
  unfold flatten at h
  split at h
  · cases h
  · obtain ⟨ns, es, k, hc⟩ := flatLoop_kids D g.nodes.length _ _ _ h (by
      intro x hx
      rw [List.mem_singleton.1 hx]
      exact ⟨Nat.le_refl _, by simp [Graph.add]⟩)
    exact ⟨ns, es, k, fun f => by rw [hc f]; simp [opsQ]⟩

/-! Failures of flattening -/

mutual
/-- There is no operation that is a path of several components. -/
def NoPathE : Expr → Prop
  | .mk _ bs => NoPathBs bs
def NoPathBs : List Blk → Prop
  | [] => True
  | b :: bs => NoPathB b ∧ NoPathBs bs
def NoPathB : Blk → Prop
  | .mk op _ _ ts => op ≠ none ∧ NoPathTs ts
def NoPathTs : List Term → Prop
  | [] => True
  | t :: ts => NoPathT t ∧ NoPathTs ts
def NoPathT : Term → Prop
  | .expr e => NoPathE e
  | _ => True
end

theorem NoPathE_blks {e : Expr} : NoPathE e ↔ NoPathBs e.blks := by cases e; simp [NoPathE, Expr.blks]

/-- An error that the user is told, and not because of a loop. -/
def Err.told : Err → Bool
  | .panic => false
  | .endless => false
  | _ => true

theorem checkTy_told {D : Defs} {t : Option String} {x : Err} (h : checkTy D t = .error x) : x.told = true := by
  unfold checkTy at h
  split at h
  · cases h
  · split at h <;> cases h
    rfl

theorem addTerms_told (D : Defs) (op : Nat) : ∀ (ts : List Term) (g : Graph) (q : Queue), NoPathTs ts →
    (∀ x ∈ q, NoPathE x.2) →
    match addTerms D op ts g q with
    | .error x => x.told = true
    | .ok (_, q') => ∀ x ∈ q', NoPathE x.2 := by
  intro ts
  induction ts with
  | nil => intro g q _ hq; exact hq
  | cons t ts ih =>
    intro g q hp hq
    obtain ⟨hp1, hp2⟩ := hp
    cases t with
    | flag f => exact ih _ q hp2 hq
    | plain x => exact ih _ q hp2 hq
    | pound c =>
      simp only [addTerms]
      by_cases hc : c ∈ ['n', 't', 'f', 'b', 'i']
      · rw [if_pos hc]; exact ih _ q hp2 hq
      · rw [if_neg hc]; rfl
    | expr e =>
      simp only [addTerms]
      cases hc : checkTy D e.out with
      | error x => exact checkTy_told hc
      | ok u =>
        refine ih _ _ hp2 ?_
        intro x hx
        rcases List.mem_append.1 hx with hx | hx
        · exact hq x hx
        · rw [List.mem_singleton.1 hx]; exact hp1

theorem addBlks_told (D : Defs) (root : Nat) : ∀ (bs : List Blk) (g : Graph) (q : Queue), NoPathBs bs →
    (∀ x ∈ q, NoPathE x.2) →
    match addBlks D root bs g q with
    | .error x => x.told = true
    | .ok (_, q') => ∀ x ∈ q', NoPathE x.2 := by
  intro bs
  induction bs with
  | nil => intro g q _ hq; exact hq
  | cons blk bs ih =>
    intro g q hp hq
    obtain ⟨op, inTy, outTy, terms⟩ := blk
    obtain ⟨⟨ho, ht⟩, hp2⟩ := hp
    cases op with
    | none => exact absurd rfl ho
    | some op =>
      simp only [addBlks]
      cases h1 : checkTy D inTy with
      | error x => exact checkTy_told h1
      | ok u =>
        dsimp only
        cases h2 : checkTy D outTy with
        | error x => exact checkTy_told h2
        | ok u =>
          dsimp only
          have := addTerms_told D g.nodes.length terms ((g.add (.op op)).link root g.nodes.length .normal) q ht hq
          generalize addTerms D g.nodes.length terms ((g.add (.op op)).link root g.nodes.length .normal) q = r at this
          match r, this with
          | .error x, h => exact h
          | .ok (g', q'), h => exact ih g' q' hp2 h

theorem flatLoop_told (D : Defs) : ∀ (fuel : Nat) (q : Queue) (g : Graph), countQ q ≤ fuel → (∀ x ∈ q, NoPathE x.2) →
    (∀ x ∈ q, x.1 < g.nodes.length) → ∀ x, flatLoop D fuel q g = .error x → x.told = true := by
  intro fuel
  induction fuel with
  | zero =>
    intro q g hl hp hq x h
    cases q with
    | nil => simp [flatLoop] at h
    | cons y q => simp only [countQ, countE_blks] at hl; omega
  | succ fuel ih =>
    intro q g hl hp hq x h
    cases q with
    | nil => simp [flatLoop] at h
    | cons y q =>
      obtain ⟨root, e⟩ := y
      simp only [flatLoop] at h
      have ht := addBlks_told D root e.blks g q (NoPathE_blks.1 (hp _ List.mem_cons_self))
        (fun x hx => hp x (List.mem_cons_of_mem _ hx))
      split at h
      · rename_i hb
        cases h
        rw [hb] at ht
        exact ht
      · rename_i g1 q1 hb
        rw [hb] at ht
        obtain ⟨ns, es, k, hq1, _, hc⟩ := addBlks_kids D 0 root (Nat.zero_le _) e.blks g q hb (hq _ List.mem_cons_self)
          (fun x hx => ⟨Nat.zero_le _, hq x (List.mem_cons_of_mem _ hx)⟩)
        refine ih q1 g1 ?_ ht (fun x hx => (hq1 x hx).2) x h
        simp only [countQ, countE_blks] at hl
        omega

/-- Flattening fails only with an error that is told, if no operation is a path. -/
theorem flatten_told {D : Defs} {e : Expr} {g : Graph} {x : Err} (hp : NoPathE e) (h : flatten D e g = .error x) :
    x.told = true := by
  unfold flatten at h
  split at h
  · rename_i hc
    cases h
    exact checkTy_told hc
  · refine flatLoop_told D _ _ _ ?_ ?_ ?_ x h
    · simp [countQ]
    · intro y hy; rw [List.mem_singleton.1 hy]; exact hp
    · intro y hy; rw [List.mem_singleton.1 hy]; simp [Graph.add]

end Verif.Exp
