import Verif.Props.ExpandArgs
/-! C77: what is below what in the syntax graph. -/
namespace Verif.Exp

/-- A node of the second kind may be written below one of the first. -/
def ties : Node → Node → Bool
  | .expr, .op _ => true
  | .op _, .flag _ => true
  | .op _, .arg _ => true
  | .op _, .pound c => decide (c ∈ ['n', 't', 'f', 'b', 'i'])
  | .op _, .expr => true
  | .defn _ _, .expr => true
  | _, _ => false

structure Tied (g : Graph) : Prop where
  lt : ∀ e ∈ g.edges, e.dst < g.nodes.length
  ends : ∀ e ∈ g.edges, e.rel = .normal → ∃ x y, g.nodes[e.src]? = some x ∧ g.nodes[e.dst]? = some y ∧ ties x y = true
  once : ((g.edges.filter (·.rel = .normal)).map (·.dst)).Nodup
  terms : ∀ e ∈ g.edges, ∀ i, e.rel = .term i → ∃ op ty, ⟨op, e.dst, .keyed ty⟩ ∈ g.edges

/-- How the graph grows. -/
structure Grows (g g' : Graph) : Prop where
  len : g.nodes.length ≤ g'.nodes.length
  keeps : Keeps g g'
  new : ∀ e ∈ g'.edges, e ∈ g.edges ∨ g.nodes.length ≤ e.dst

theorem Grows.rfl' (g : Graph) : Grows g g := ⟨Nat.le_refl _, fun _ _ h => h, fun _ h => Or.inl h⟩

theorem Grows.trans {a b c : Graph} (h : Grows a b) (k : Grows b c) : Grows a c :=
  ⟨Nat.le_trans h.len k.len, fun n x hx => k.keeps n x (h.keeps n x hx), fun e he => by
    rcases k.new e he with h1 | h1
    · exact h.new e h1
    · have := h.len; exact Or.inr (by omega)⟩

theorem Tied.add {g : Graph} (h : Tied g) (x : Node) : Tied (g.add x) ∧ Grows g (g.add x) := by
  have hk : Keeps g (g.add x) := by
    intro n y hy
    show (g.nodes ++ [x])[n]? = _
    rw [List.getElem?_append_left (getElem?_lt hy)]
    exact hy
  have hl : (g.add x).nodes.length = g.nodes.length + 1 := by simp [Graph.add]
  refine ⟨⟨?_, ?_, h.once, h.terms⟩, ⟨by omega, hk, fun e he => Or.inl he⟩⟩
  · intro e he
    have := h.lt e he
    omega
  · intro e he hr
    obtain ⟨a, b, h1, h2, h3⟩ := h.ends e he hr
    exact ⟨a, b, hk _ _ h1, hk _ _ h2, h3⟩

theorem Tied.link {g : Graph} (h : Tied g) {a b : Nat} {x y : Node} (ha : g.nodes[a]? = some x) (hb : g.nodes[b]? = some y)
    (ht : ties x y = true) (hn : ∀ e ∈ g.edges, e.dst ≠ b) : Tied (g.link a b .normal) := by
  refine ⟨?_, ?_, ?_, ?_⟩
  · intro e he
    rcases List.mem_append.1 he with he | he
    · exact h.lt e he
    · rw [List.mem_singleton.1 he]; exact getElem?_lt hb
  · intro e he hr
    rcases List.mem_append.1 he with he | he
    · exact h.ends e he hr
    · rw [List.mem_singleton.1 he]; exact ⟨x, y, ha, hb, ht⟩
  · show (((g.edges ++ [(⟨a, b, .normal⟩ : Edge)]).filter (·.rel = .normal)).map (·.dst)).Nodup
    rw [List.filter_append, List.map_append, List.nodup_append]
    refine ⟨h.once, by simp, ?_⟩
    intro m hm k hk
    obtain ⟨e, he, rfl⟩ := List.mem_map.1 hm
    simp at hk
    rw [hk]
    exact hn e (List.mem_filter.1 he).1
  · intro e he i hi
    rcases List.mem_append.1 he with he | he
    · obtain ⟨op, ty, h1⟩ := h.terms e he i hi
      exact ⟨op, ty, List.mem_append_left _ h1⟩
    · rw [List.mem_singleton.1 he] at hi; cases hi

theorem Tied.step {g : Graph} (h : Tied g) {a : Nat} {x : Node} (y : Node) (ha : g.nodes[a]? = some x) (ht : ties x y = true) :
    Tied ((g.add y).link a g.nodes.length .normal) ∧ Grows g ((g.add y).link a g.nodes.length .normal) := by
  obtain ⟨h1, h2⟩ := h.add y
  refine ⟨h1.link (h2.keeps _ _ ha) (by simp [Graph.add]) ht ?_, ⟨h2.len, h2.keeps, ?_⟩⟩
  · intro e he
    have := h.lt e he
    omega
  · intro e he
    rcases List.mem_append.1 he with he | he
    · exact Or.inl he
    · rw [List.mem_singleton.1 he]; exact Or.inr (Nat.le_refl _)

def QueueOk (g : Graph) (q : Queue) : Prop := ∀ x ∈ q, g.nodes[x.1]? = some .expr

theorem QueueOk.grow {g g' : Graph} {q : Queue} (h : QueueOk g q) (k : Grows g g') : QueueOk g' q :=
  fun x hx => k.keeps _ _ (h x hx)

theorem addTerms_tied (D : Defs) {op : Nat} {f : String} : ∀ (ts : List Term) (g : Graph) (q : Queue) {g' : Graph} {q' : Queue},
    addTerms D op ts g q = .ok (g', q') → Tied g → g.nodes[op]? = some (.op f) → QueueOk g q →
    Tied g' ∧ Grows g g' ∧ QueueOk g' q' := by
  intro ts
  induction ts with
  | nil =>
    intro g q g' q' h ht _ hq
    cases h
    exact ⟨ht, .rfl' _, hq⟩
  | cons t ts ih =>
    intro g q g' q' h ht hop hq
    have one : ∀ (y : Node) (q1 : Queue), ties (.op f) y = true → (∀ x ∈ q1, x ∈ q ∨ (x.1 = g.nodes.length ∧ y = .expr)) →
        addTerms D op ts ((g.add y).link op g.nodes.length .normal) q1 = .ok (g', q') → Tied g' ∧ Grows g g' ∧ QueueOk g' q' := by
      intro y q1 hy hq1 h
      obtain ⟨h1, h2⟩ := ht.step y hop hy
      obtain ⟨r1, r2, r3⟩ := ih _ _ h h1 (h2.keeps _ _ hop) (by
        intro x hx
        rcases hq1 x hx with h3 | ⟨h3, h4⟩
        · exact hq.grow h2 x h3
        · rw [h3, h4]; exact new_step _ _ _ _ _)
      exact ⟨r1, h2.trans r2, r3⟩
    cases t with
    | flag f => rw [addTerms] at h; exact one _ _ rfl (fun x hx => Or.inl hx) h
    | plain x => rw [addTerms] at h; exact one _ _ rfl (fun x hx => Or.inl hx) h
    | pound c =>
      rw [addTerms] at h
      split at h
      · rename_i hc
        exact one (.pound c) _ (decide_eq_true hc) (fun x hx => Or.inl hx) h
      · cases h
    | expr e =>
      rw [addTerms] at h
      split at h
      · refine one _ _ rfl ?_ h
        intro x hx
        rcases List.mem_append.1 hx with hx | hx
        · exact Or.inl hx
        · rw [List.mem_singleton.1 hx]; exact Or.inr ⟨rfl, rfl⟩
      · cases h

theorem addBlks_tied (D : Defs) {root : Nat} : ∀ (bs : List Blk) (g : Graph) (q : Queue) {g' : Graph} {q' : Queue},
    addBlks D root bs g q = .ok (g', q') → Tied g → g.nodes[root]? = some .expr → QueueOk g q →
    Tied g' ∧ Grows g g' ∧ QueueOk g' q' := by
  intro bs
  induction bs with
  | nil =>
    intro g q g' q' h ht _ hq
    cases h
    exact ⟨ht, .rfl' _, hq⟩
  | cons b bs ih =>
    intro g q g' q' h ht hr hq
    obtain ⟨op, i, o, ts⟩ := b
    cases op with
    | none => cases h
    | some f =>
      rw [addBlks] at h
      split at h
      · cases h
      · split at h
        · cases h
        · split at h
          · cases h
          · rename_i g1 q1 h1
            obtain ⟨t1, k1⟩ := ht.step (.op f) hr rfl
            obtain ⟨t2, k2, o2⟩ := addTerms_tied D ts _ _ h1 t1 (new_step _ _ _ _ _) (hq.grow k1)
            obtain ⟨t3, k3, o3⟩ := ih _ _ h t2 (k2.keeps _ _ (k1.keeps _ _ hr)) o2
            exact ⟨t3, (k1.trans k2).trans k3, o3⟩

theorem flatLoop_tied (D : Defs) : ∀ (fuel : Nat) (q : Queue) (g : Graph) {g' : Graph},
    flatLoop D fuel q g = .ok g' → Tied g → QueueOk g q → Tied g' ∧ Grows g g' := by
  intro fuel
  induction fuel with
  | zero =>
    intro q g g' h ht hq
    cases q with
    | nil => cases h; exact ⟨ht, .rfl' _⟩
    | cons x q => cases h
  | succ fuel ih =>
    intro q g g' h ht hq
    cases q with
    | nil => cases h; exact ⟨ht, .rfl' _⟩
    | cons x q =>
      obtain ⟨root, e⟩ := x
      rw [flatLoop] at h
      split at h
      · cases h
      · rename_i g1 q1 h1
        obtain ⟨t1, k1, o1⟩ := addBlks_tied D _ _ _ h1 ht (hq _ List.mem_cons_self) (fun x hx => hq x (List.mem_cons_of_mem _ hx))
        obtain ⟨t2, k2⟩ := ih _ _ h t1 o1
        exact ⟨t2, k1.trans k2⟩

theorem flatten_tied {D : Defs} {e : Expr} {g g' : Graph} (h : flatten D e g = .ok g') (ht : Tied g) :
    Tied g' ∧ Grows (g.add .expr) g' := by
  unfold flatten at h
  split at h
  · cases h
  · refine flatLoop_tied D _ _ _ h (ht.add _).1 ?_
    intro x hx
    rw [List.mem_singleton.1 hx]
    simp [Graph.add]

theorem Tied.linkCmd {g : Graph} (h : Tied g) {op c : Nat} (ty : Option String) (hc : c < g.nodes.length) : Tied (linkCmd g op c ty) := by
  have hm := fun e (he : e ∈ cmdEdges g op c ty) => mem_cmdEdges he
  rw [linkCmd_eq]
  refine ⟨?_, ?_, ?_, ?_⟩
  · intro e he
    rcases List.mem_append.1 he with he | he
    · exact h.lt e he
    · rw [(hm e he).1]; exact hc
  · intro e he hr
    rcases List.mem_append.1 he with he | he
    · exact h.ends e he hr
    · exact absurd hr (hm e he).2.1
  · have : (cmdEdges g op c ty).filter (·.rel = .normal) = [] :=
      filter_none fun e he => decide_eq_false (hm e he).2.1
    show (((g.edges ++ cmdEdges g op c ty).filter (·.rel = .normal)).map (·.dst)).Nodup
    rw [List.filter_append, this, List.append_nil]
    exact h.once
  · intro e he i hi
    rcases List.mem_append.1 he with he | he
    · obtain ⟨op, ty, h1⟩ := h.terms e he i hi
      exact ⟨op, ty, List.mem_append_left _ h1⟩
    · refine ⟨op, ty, List.mem_append_right _ ?_⟩
      rw [(hm e he).1]
      exact List.mem_cons_self

theorem addImpl_tied {D : Defs} {op : Nat} {name : String} {ps : List (String × String)} {g g' : Graph} {im : Impl} {c : Bool}
    (h : addImpl D op name ps g im = .ok (g', c)) (ht : Tied g) : Tied g' := by
  unfold addImpl at h
  split at h
  · cases h
    exact (ht.add _).1.linkCmd _ (by simp [Graph.add])
  · rename_i params e hd
    split at h
    · cases h; exact ht
    · split at h
      · cases h
      · dsimp only at h
        split at h
        · cases h
        · rename_i g3 hf
          cases h
          obtain ⟨t1, k1⟩ := ht.add (.defn name im.ty)
          obtain ⟨t2, k2⟩ := flatten_tied hf t1
          have hl1 : (g.add (.defn name im.ty)).nodes.length = g.nodes.length + 1 := by simp [Graph.add]
          have hl2 : ((g.add (.defn name im.ty)).add .expr).nodes.length = g.nodes.length + 2 := by simp [Graph.add]
          have hl := k2.len
          have n1 : ((g.add (.defn name im.ty)).add .expr).nodes[g.nodes.length]? = some (.defn name im.ty) := by
            simp [Graph.add]
          have n2 : ((g.add (.defn name im.ty)).add .expr).nodes[g.nodes.length + 1]? = some .expr := by
            simp [Graph.add]
          have t3 : Tied (g3.link g.nodes.length (g.nodes.length + 1) .normal) := by
            refine t2.link (k2.keeps _ _ n1) (k2.keeps _ _ n2) rfl ?_
            intro e he
            rcases k2.new e he with h1 | h1
            · have := ht.lt e h1; omega
            · omega
          have t4 : Tied (noteId (g3.link g.nodes.length (g.nodes.length + 1) .normal) g.nodes.length name im.ty) := by
            cases im.ty <;> exact ⟨t3.lt, t3.ends, t3.once, t3.terms⟩
          refine t4.linkCmd _ ?_
          rw [(noteId_rest _ _ _ _).1]
          show _ < g3.nodes.length
          omega

theorem addImpls_tied {D : Defs} {op : Nat} {name : String} {ps : List (String × String)} : ∀ (ims : List Impl) (g g' : Graph)
    (b b' : Bool), addImpls D op name ps ims g b = .ok (g', b') → Tied g → Tied g' := by
  intro ims
  induction ims with
  | nil => intro g g' b b' h ht; cases h; exact ht
  | cons im ims ih =>
    intro g g' b b' h ht
    rw [addImpls] at h
    split at h
    · cases h
    · rename_i h1
      exact ih _ _ _ _ h (addImpl_tied h1 ht)

theorem expandOps_tied {D : Defs} : ∀ (ops : List Nat) (g g' : Graph) (b b' : Bool), expandOps D ops g b = .ok (g', b') → Tied g → Tied g' := by
  intro ops
  induction ops with
  | nil => intro g g' b b' h ht; cases h; exact ht
  | cons op ops ih =>
    intro g g' b b' h ht
    rw [expandOps] at h
    split at h
    · cases h
    · rename_i g1 c h1
      refine ih _ _ _ _ h ?_
      unfold expandDef at h1
      split at h1
      · cases h1
      · split at h1
        · cases h1
        · exact addImpls_tied _ _ _ _ _ h1 ht

theorem initLoop_tied {D : Defs} : ∀ (left : Nat) (g g' : Graph), initLoop D left g = .ok g' → Tied g → Tied g' := by
  intro left
  induction left with
  | zero =>
    intro g g' h ht
    rw [initLoop] at h
    split at h
    · cases h
    · rename_i h1; cases h; exact expandOps_tied _ _ _ _ _ h1 ht
    · cases h
  | succ left ih =>
    intro g g' h ht
    rw [initLoop] at h
    split at h
    · cases h
    · rename_i h1; cases h; exact expandOps_tied _ _ _ _ _ h1 ht
    · rename_i h1; exact ih _ _ h (expandOps_tied _ _ _ _ _ h1 ht)

theorem init_tied {D : Defs} {e : Expr} {g : Graph} (h : init D e = .ok g) : Tied g := by
  unfold init at h
  split at h
  · cases h
  · rename_i g0 hf
    refine initLoop_tied _ _ _ h (flatten_tied hf ⟨?_, ?_, by simp, ?_⟩).1
    · intro e he; cases he
    · intro e he; cases he
    · intro e he; cases he

end Verif.Exp
