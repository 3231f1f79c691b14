import Verif.Props.ExpandInv
/-! C38: one operation, one round and the whole loop of expansions. -/
namespace Verif.Exp

/-- An implementation that is left out: a typed definition around the operation. -/
def Skipped (ps : List (String × String)) (name : String) (im : Impl) : Prop :=
  (∃ b, im.defn = some b) ∧ ∃ t, im.ty = some t ∧ (name, t) ∈ ps

/-- The node is an implementation. -/
def IsImpl (g : Graph) (c : Nat) (name : String) (im : Impl) : Prop :=
  g.nodes[c]? = some (cmdNode name im) ∧ ∀ ps e, im.defn = some (ps, e) → below g c = [c + 1] ∧ ShowsE g (c + 1) e

/-- An implementation that is linked to the operation. -/
def Placed (g : Graph) (op : Nat) (name : String) (im : Impl) : Prop :=
  ∃ c, ⟨op, c, .keyed im.ty⟩ ∈ g.edges ∧ IsImpl g c name im

/-- How the graph grows while an operation is expanded. -/
structure Ext (op : Nat) (g g' : Graph) : Prop where
  len : g.nodes.length ≤ g'.nodes.length
  old : ∀ (n : Nat), n < g.nodes.length → g'.nodes[n]? = g.nodes[n]?
  sub : ∀ e ∈ g.edges, e ∈ g'.edges
  parents : ∀ n, n < g.nodes.length → ∀ i, i ∈ parentIds g' n ↔ i ∈ parentIds g n
  keyed : ∀ e ∈ g'.edges, ∀ ty, e.rel = .keyed ty → e ∈ g.edges ∨ (e.src = op ∧ g.nodes.length ≤ e.dst)
  same : Same g g'

theorem Ext.rfl' (op : Nat) (g : Graph) : Ext op g g :=
  ⟨Nat.le_refl _, fun _ _ => rfl, fun _ h => h, fun _ _ _ => Iff.rfl, fun _ h _ _ => Or.inl h, fun _ _ h => ⟨h, rfl⟩⟩

theorem Ext.trans' {op : Nat} {a b c : Graph} (h : Ext op a b) (k : Ext op b c) : Ext op a c := by
  have h1 := h.len
  have h2 := k.len
  refine ⟨by omega, ?_, fun e he => k.sub e (h.sub e he), ?_, ?_, ?_⟩
  · intro n hn; rw [k.old n (by omega), h.old n hn]
  · intro n hn i; rw [k.parents n (by omega), h.parents n hn]
  · intro e he ty hk
    rcases k.keyed e he ty hk with h3 | h3
    · rcases h.keyed e h3 ty hk with h4 | h4
      · exact Or.inl h4
      · exact Or.inr h4
    · exact Or.inr ⟨h3.1, by omega⟩
  · exact h.same.trans k.same

theorem Ext.node {op : Nat} {g g' : Graph} (h : Ext op g g') {n : Nat} {x : Node} (hx : g.nodes[n]? = some x) :
    g'.nodes[n]? = some x := by rw [h.old n (getElem?_lt hx)]; exact hx

theorem IsImpl.ext {o c : Nat} {g g' : Graph} {name : String} {im : Impl} (h : IsImpl g c name im) (k : Ext o g g') :
    IsImpl g' c name im := by
  obtain ⟨h2, h3⟩ := h
  refine ⟨k.node h2, fun ps e hb => ?_⟩
  obtain ⟨h4, h5⟩ := h3 ps e hb
  exact ⟨by rw [(k.same _ _ h2).2, h4], h5.same k.same⟩

theorem Placed.ext {o op : Nat} {g g' : Graph} {name : String} {im : Impl} (h : Placed g op name im) (k : Ext o g g') :
    Placed g' op name im := by
  obtain ⟨c, h1, h2⟩ := h
  exact ⟨c, k.sub _ h1, h2.ext k⟩

section
variable {g g' : Graph} {op : Nat} {name : String} {im : Impl} {ns : List Node} {es : List Edge}

theorem Added.ext (h : Added g g' op name im ns es) (hi : Inv g) (hop : op < g.nodes.length) : Ext op g g' := by
  have hl := h.len
  refine ⟨by omega, fun n hn => h.old hn, fun e he => h.sub he, fun n hn i => h.parents hi hop hn, ?_,
    h.same⟩
  intro e he ty hk
  rcases h.fresh he with he | ⟨_, hr, _⟩ | ⟨he, hd, _⟩
  · exact Or.inl he
  · rw [hk] at hr; cases hr
  · exact Or.inr ⟨(mem_cmdEdges he).2.2.2 ty hk, by omega⟩

theorem Added.placed (h : Added g g' op name im ns es) : Placed g' op name im := by
  exact ⟨g.nodes.length, h.keyed, h.cmd, h.body⟩

theorem cmdEdges_keyed {c : Nat} {ty ty' : Option String} {e : Edge} (h : e ∈ cmdEdges g op c ty) (hk : e.rel = .keyed ty') : ty' = ty := by
  rcases List.mem_cons.1 h with rfl | he
  · cases hk; rfl
  · rcases List.mem_append.1 he with he | he
    · obtain ⟨x, _, rfl⟩ := List.mem_map.1 he; cases hk
    · obtain ⟨x, _, rfl⟩ := List.mem_map.1 he; cases hk

end

theorem opCount_mem {f : String} {ns : List Node} : Node.op f ∈ ns ↔ 0 < opCount f ns := by
  unfold opCount
  rw [List.countP_pos_iff]
  constructor
  · intro h; exact ⟨_, h, by simp⟩
  · rintro ⟨x, h1, h2⟩
    simp only [decide_eq_true_eq] at h2
    rw [← h2]; exact h1

/-- What adding all implementations of an operation does. -/
structure Expanded (g g' : Graph) (op : Nat) (name : String) (ims : List Impl) : Prop where
  inv : Inv g'
  ext : Ext op g g'
  all : ∀ im ∈ ims, Skipped (parentIds g op) name im ∨ Placed g' op name im
  only : ∀ e ∈ g'.edges, ∀ ty, e.rel = .keyed ty → e ∈ g.edges ∨ ∃ im ∈ ims, im.ty = ty ∧ IsImpl g' e.dst name im
  inner : ∀ (n : Nat) h, g.nodes.length ≤ n → g'.nodes[n]? = some (.op h) →
    ∃ im ∈ ims, ¬Skipped (parentIds g op) name im ∧ h ∈ implOps im ∧
      (∀ i ∈ parentIds g op, i ∈ parentIds g' n) ∧
      (∀ b t, im.defn = some b → im.ty = some t → (name, t) ∈ parentIds g' n)
  outer : ∀ im ∈ ims, ¬Skipped (parentIds g op) name im → ∀ h ∈ implOps im, ∃ n, g.nodes.length ≤ n ∧ g'.nodes[n]? = some (.op h)

theorem addImpls_expanded {D : Defs} {op : Nat} {name : String} : ∀ (ims : List Impl) (g g' : Graph) (ps : List (String × String))
    (b b' : Bool), Inv g → g.nodes[op]? = some (.op name) → (∀ i, i ∈ ps ↔ i ∈ parentIds g op) →
    addImpls D op name ps ims g b = .ok (g', b') →
    Expanded g g' op name ims ∧ (b' = true ↔ b = true ∨ ∃ im ∈ ims, ¬Skipped ps name im) := by
  intro ims
  induction ims with
  | nil =>
    intro g g' ps b b' hi hop hps h
    cases h
    refine ⟨⟨hi, Ext.rfl' _ _, by simp, fun _ h _ _ => Or.inl h, ?_, by simp⟩, by simp⟩
    intro n h hn hx
    have := getElem?_lt hx
    omega
  | cons im ims ih =>
    intro g g' ps b b' hi hop hps h
    have hlt := getElem?_lt hop
    rw [addImpls] at h
    split at h
    · cases h
    · rename_i g1 c hc
      have sk : ∀ im, Skipped (parentIds g op) name im ↔ Skipped ps name im := by
        intro im
        unfold Skipped
        constructor
        · rintro ⟨h1, t, h2, h3⟩; exact ⟨h1, t, h2, (hps _).2 h3⟩
        · rintro ⟨h1, t, h2, h3⟩; exact ⟨h1, t, h2, (hps _).1 h3⟩
      cases c with
      | false =>
        obtain ⟨rfl, h1, h2⟩ := addImpl_false hc
        obtain ⟨k, kb⟩ := ih g1 g' ps _ b' hi hop hps h
        have hsk : Skipped ps name im := ⟨h1, h2⟩
        refine ⟨⟨k.inv, k.ext, ?_, ?_, ?_, ?_⟩, ?_⟩
        · intro x hx
          rcases List.mem_cons.1 hx with rfl | hx
          · exact Or.inl ((sk x).2 hsk)
          · exact k.all x hx
        · intro e he ty hk
          rcases k.only e he ty hk with h1 | ⟨x, h1, h2⟩
          · exact Or.inl h1
          · exact Or.inr ⟨x, List.mem_cons_of_mem _ h1, h2⟩
        · intro n h hn hx
          obtain ⟨x, h1, h2⟩ := k.inner n h hn hx
          exact ⟨x, List.mem_cons_of_mem _ h1, h2⟩
        · intro x hx hns
          rcases List.mem_cons.1 hx with rfl | hx
          · exact absurd ((sk x).2 hsk) hns
          · exact k.outer x hx hns
        · rw [kb]
          simp [hsk]
      | true =>
        obtain ⟨ns, es, ha⟩ := addImpl_added hi.up hlt hc
        have hnew := addImpl_new hc
        have hns : ¬Skipped ps name im := by
          rintro ⟨⟨b, hb⟩, t, ht, hm⟩
          exact hnew b hb t ht hm
        have hi1 : Inv g1 := ha.inv hi hop fun b t hb ht hm => hnew b hb t ht ((hps _).2 hm)
        have hx1 := ha.ext hi hlt
        have hop1 := hx1.node hop
        have hps1 : ∀ i, i ∈ ps ↔ i ∈ parentIds g1 op := fun i => by rw [hx1.parents op hlt, hps]
        have sk1 : ∀ im, Skipped (parentIds g1 op) name im ↔ Skipped ps name im := by
          intro im
          unfold Skipped
          constructor
          · rintro ⟨h1, t, h2, h3⟩; exact ⟨h1, t, h2, (hps1 _).2 h3⟩
          · rintro ⟨h1, t, h2, h3⟩; exact ⟨h1, t, h2, (hps1 _).1 h3⟩
        obtain ⟨k, kb⟩ := ih g1 g' ps _ b' hi1 hop1 hps1 h
        have hl1 := ha.len
        refine ⟨⟨k.inv, hx1.trans' k.ext, ?_, ?_, ?_, ?_⟩, ?_⟩
        · intro x hx
          rcases List.mem_cons.1 hx with rfl | hx
          · exact Or.inr (ha.placed.ext k.ext)
          · rcases k.all x hx with h1 | h1
            · exact Or.inl ((sk x).2 ((sk1 x).1 h1))
            · exact Or.inr h1
        · intro e he ty hk
          rcases k.only e he ty hk with h1 | ⟨x, h1, h2⟩
          · rcases ha.fresh h1 with h2 | ⟨_, h2, _⟩ | ⟨h2, h3, _⟩
            · exact Or.inl h2
            · rw [hk] at h2; cases h2
            · right
              refine ⟨im, List.mem_cons_self, (cmdEdges_keyed h2 hk).symm, ?_⟩
              rw [h3]
              exact IsImpl.ext ⟨ha.cmd, ha.body⟩ k.ext
          · exact Or.inr ⟨x, List.mem_cons_of_mem _ h1, h2⟩
        · intro n h hn hx
          by_cases hnl : n < g1.nodes.length
          · rw [k.ext.old n hnl] at hx
            rcases ha.cases hx with ⟨h1, _⟩ | ⟨_, h1⟩ | ⟨h0, h1, _⟩
            · omega
            · have := cmdNode_isCmd name im
              rw [← h1] at this
              cases this
            · obtain ⟨p1, p2⟩ := ha.parents_new hi hlt hn hnl
              refine ⟨im, List.mem_cons_self, fun hs => hns ((sk im).1 hs), ?_, ?_, ?_⟩
              · have := opCount_mem.1 h1
                rw [ha.ops h] at this
                exact List.count_pos_iff.1 this
              · intro i hi'; exact (k.ext.parents n hnl i).2 (p1 i hi')
              · intro b t hb ht; exact (k.ext.parents n hnl _).2 (p2 b t hb ht)
          · obtain ⟨x, h1, h2, h3, h4, h5⟩ := k.inner n h (by omega) hx
            exact ⟨x, List.mem_cons_of_mem _ h1, fun hs => h2 ((sk1 x).2 ((sk x).1 hs)), h3,
              fun i hi' => h4 i ((hx1.parents op hlt i).2 hi'), h5⟩
        · intro x hx hxs h hh
          rcases List.mem_cons.1 hx with rfl | hx
          · have : Node.op h ∈ ns := opCount_mem.2 (by rw [ha.ops h]; exact List.count_pos_iff.2 hh)
            obtain ⟨j, hj⟩ := List.getElem?_of_mem this
            refine ⟨g.nodes.length + 1 + j, by omega, ?_⟩
            apply k.ext.node
            rw [ha.nodes, List.getElem?_append_right (by omega)]
            rw [show g.nodes.length + 1 + j - g.nodes.length = j + 1 by omega, List.getElem?_cons_succ]
            exact hj
          · obtain ⟨n, h1, h2⟩ := k.outer x hx (fun hs => hxs ((sk x).2 ((sk1 x).1 hs))) h hh
            exact ⟨n, by omega, h2⟩
        · rw [kb]
          simp [hns]

theorem opName_some {g : Graph} {n : Nat} {name : String} (h : (g.nodes[n]?).bind Node.opName = some name) :
    g.nodes[n]? = some (.op name) := by
  cases hx : g.nodes[n]? with
  | none => rw [hx] at h; cases h
  | some x =>
    rw [hx] at h
    cases x <;> first | cases h | skip
    rfl

theorem expandDef_expanded {D : Defs} {g g' : Graph} {op : Nat} {name : String} {c : Bool} (hi : Inv g)
    (hop : g.nodes[op]? = some (.op name)) (h : expandDef D g op = .ok (g', c)) :
    Expanded g g' op name (D.impls name) ∧ D.impls name ≠ [] ∧
    (c = true ↔ ∃ im ∈ D.impls name, ¬Skipped (parentIds g op) name im) := by
  unfold expandDef at h
  rw [hop] at h
  dsimp only [Option.bind, Node.opName] at h
  split at h
  · cases h
  · rename_i ims hne
    obtain ⟨h1, h2⟩ := addImpls_expanded _ g g' _ false c hi hop (fun _ => Iff.rfl) h
    refine ⟨h1, hne, ?_⟩
    rw [h2]; simp

theorem opExpanded_iff {g : Graph} {op : Nat} : opExpanded g op = true ↔ ∃ c ty, ⟨op, c, .keyed ty⟩ ∈ g.edges := by
  unfold opExpanded
  rw [List.any_eq_true]
  constructor
  · rintro ⟨⟨s, d, r⟩, h1, h2⟩
    simp only [Bool.and_eq_true, beq_iff_eq] at h2
    obtain ⟨rfl, h3⟩ := h2
    cases r with
    | keyed ty => exact ⟨d, ty, h1⟩
    | normal => cases h3
    | term i => cases h3
  · rintro ⟨c, ty, h⟩
    exact ⟨_, h, by simp⟩

theorem mem_openOps {g : Graph} {n : Nat} :
    n ∈ openOps g ↔ ∃ f, g.nodes[n]? = some (.op f) ∧ opExpanded g n = false := by
  unfold openOps
  rw [List.mem_filter, List.mem_range]
  constructor
  · rintro ⟨_, h⟩
    simp only [Bool.and_eq_true, Option.isSome_iff_exists, Bool.not_eq_true'] at h
    obtain ⟨⟨f, h1⟩, h2⟩ := h
    exact ⟨f, opName_some h1, h2⟩
  · rintro ⟨f, h1, h2⟩
    exact ⟨getElem?_lt h1, by simp [h1, Node.opName, h2]⟩

/-- An operation is open after an expansion if it is new or was open and is not the expanded one. -/
theorem Expanded.open_old {g g' : Graph} {op : Nat} {name : String} {ims : List Impl} (h : Expanded g g' op name ims)
    {n : Nat} (hn : n < g.nodes.length) (ho : n ∈ openOps g') : n ∈ openOps g := by
  obtain ⟨f, h1, h2⟩ := mem_openOps.1 ho
  rw [h.ext.old n hn] at h1
  refine mem_openOps.2 ⟨f, h1, ?_⟩
  cases hx : opExpanded g n with
  | false => rfl
  | true =>
    obtain ⟨c, ty, hc⟩ := opExpanded_iff.1 hx
    rw [opExpanded_iff.2 ⟨c, ty, h.ext.sub _ hc⟩] at h2
    cases h2

theorem Expanded.stays_open {g g' : Graph} {op : Nat} {name : String} {ims : List Impl} (h : Expanded g g' op name ims)
    {n : Nat} (hn : n ∈ openOps g) (hne : n ≠ op) : n ∈ openOps g' := by
  obtain ⟨f, h1, h2⟩ := mem_openOps.1 hn
  refine mem_openOps.2 ⟨f, h.ext.node h1, ?_⟩
  cases hx : opExpanded g' n with
  | false => rfl
  | true =>
    obtain ⟨c, ty, hc⟩ := opExpanded_iff.1 hx
    rcases h.ext.keyed _ hc ty rfl with hc | hc
    · rw [opExpanded_iff.2 ⟨c, ty, hc⟩] at h2; cases h2
    · exact absurd hc.1 hne

theorem Expanded.new_open {g g' : Graph} {op : Nat} {name : String} {ims : List Impl} (h : Expanded g g' op name ims)
    (hi : Inv g) (hop : op < g.nodes.length) {n : Nat} {f : String} (hn : g.nodes.length ≤ n) (hx : g'.nodes[n]? = some (.op f)) :
    n ∈ openOps g' := by
  refine mem_openOps.2 ⟨f, hx, ?_⟩
  cases hx : opExpanded g' n with
  | false => rfl
  | true =>
    obtain ⟨c, ty, hc⟩ := opExpanded_iff.1 hx
    rcases h.ext.keyed _ hc ty rfl with hc | hc
    · have := hi.up _ hc
      change n < c ∧ c < _ at this
      omega
    · have := hc.1
      change n = op at this
      omega

theorem Expanded.closed {g g' : Graph} {op : Nat} {name : String} {ims : List Impl} (h : Expanded g g' op name ims)
    (hx : ∃ im ∈ ims, ¬Skipped (parentIds g op) name im) : op ∉ openOps g' := by
  intro ho
  obtain ⟨im, h1, h2⟩ := hx
  obtain ⟨f, _, h3⟩ := mem_openOps.1 ho
  rcases h.all im h1 with h4 | ⟨c, h4, _⟩
  · exact h2 h4
  · rw [opExpanded_iff.2 ⟨c, _, h4⟩] at h3; cases h3

/-! ### Rounds -/

/-- Every implementation is a typed definition that the operation is already inside of. -/
def Stuck (D : Defs) (g : Graph) (n : Nat) (name : String) : Prop :=
  ∀ im ∈ D.impls name, Skipped (parentIds g n) name im

/-- Each definition in the list uses the command after it; the innermost is first. -/
def Linked (D : Defs) : List (String × Option String) → String → Prop
  | [], _ => True
  | (f, ty) :: ks, x => (∃ body, IsDef D f ty body ∧ x ∈ opsE body) ∧ Linked D ks f

/-- The operation is inside of `r` definitions, all different. -/
def Chain (D : Defs) (g : Graph) (n : Nat) (name : String) (r : Nat) : Prop :=
  ∃ ks : List (String × Option String), ks.length = r ∧ ks.Nodup ∧ Linked D ks name ∧
    ∀ f t, (f, some t) ∈ ks → (f, t) ∈ parentIds g n

/-- There are `r` different definitions, each using the next. -/
def Deep (D : Defs) (r : Nat) : Prop :=
  ∃ (ks : List (String × Option String)) (name : String), ks.length = r ∧ ks.Nodup ∧ Linked D ks name

theorem Chain.deep {D : Defs} {g : Graph} {n : Nat} {name : String} {r : Nat} (h : Chain D g n name r) : Deep D r := by
  obtain ⟨ks, h1, h2, h3, _⟩ := h
  exact ⟨ks, name, h1, h2, h3⟩

theorem Linked.uses {D : Defs} : ∀ {ks : List (String × Option String)} {x f : String} {ty : Option String},
    Linked D ks x → (f, ty) ∈ ks → UsesPlus D f x ∧ ∃ body, IsDef D f ty body := by
  intro ks
  induction ks with
  | nil => intro x f ty _ h; cases h
  | cons k ks ih =>
    obtain ⟨f', ty'⟩ := k
    intro x f ty h hm
    obtain ⟨⟨body, h1, h2⟩, h3⟩ := h
    rcases List.mem_cons.1 hm with e | hm
    · cases e
      exact ⟨.one ⟨_, body, h1, h2⟩, body, h1⟩
    · obtain ⟨h4, h5⟩ := ih h3 hm
      exact ⟨.more h4 ⟨ty', body, h1, h2⟩, h5⟩

theorem Stuck.ext {D : Defs} {op : Nat} {g g' : Graph} {n : Nat} {name : String} (h : Stuck D g n name) (k : Ext op g g')
    (hn : n < g.nodes.length) : Stuck D g' n name := by
  intro im hm
  obtain ⟨h1, t, h2, h3⟩ := h im hm
  exact ⟨h1, t, h2, (k.parents n hn _).2 h3⟩

theorem Chain.ext {D : Defs} {op : Nat} {g g' : Graph} {n : Nat} {name : String} {r : Nat} (h : Chain D g n name r) (k : Ext op g g')
    (hn : n < g.nodes.length) : Chain D g' n name r := by
  obtain ⟨ks, h1, h2, h3, h4⟩ := h
  exact ⟨ks, h1, h2, h3, fun f t hm => (k.parents n hn _).2 (h4 f t hm)⟩

/-- No command with a definition for all types uses itself. -/
def NoUntyped (D : Defs) : Prop := ∀ f body, IsDef D f none body → ¬UsesPlus D f f

theorem implOps_def {D : Defs} {name h : String} {im : Impl} (hm : im ∈ D.impls name) (hh : h ∈ implOps im) :
    ∃ ps body, im.defn = some (ps, body) ∧ IsDef D name im.ty body ∧ h ∈ opsE body := by
  unfold implOps at hh
  split at hh
  · cases hh
  · rename_i ps body hd
    exact ⟨ps, body, hd, ⟨im, hm, rfl, ps, hd⟩, hh⟩

/-- What is inside of a chain of `r` definitions leads to a chain of `r + 1`. -/
theorem Chain.grow {D : Defs} (hU : NoUntyped D) {g g' : Graph} {op : Nat} {name : String} {r : Nat}
    (hc : Chain D g op name r) (k : Expanded g g' op name (D.impls name)) {n : Nat} {h : String}
    (hn : g.nodes.length ≤ n) (hx : g'.nodes[n]? = some (.op h)) : Chain D g' n h (r + 1) := by
  obtain ⟨im, h1, h2, h3, h4, h5⟩ := k.inner n h hn hx
  obtain ⟨ps, body, hd, hdef, hb⟩ := implOps_def h1 h3
  obtain ⟨ks, c1, c2, c3, c4⟩ := hc
  refine ⟨(name, im.ty) :: ks, by simp [c1], ?_, ⟨⟨body, hdef, hb⟩, c3⟩, ?_⟩
  · refine List.nodup_cons.2 ⟨?_, c2⟩
    intro hm
    cases ht : im.ty with
    | none =>
      rw [ht] at hm hdef
      exact hU name body hdef (c3.uses hm).1
    | some t =>
      rw [ht] at hm
      exact h2 ⟨⟨_, hd⟩, t, ht, c4 name t hm⟩
  · intro f t hm
    rcases List.mem_cons.1 hm with e | hm
    · injection e with e1 e2
      subst e1
      exact h5 _ t hd e2.symm
    · exact h4 _ (c4 f t hm)

theorem expandOps_round {D : Defs} (hU : NoUntyped D) {r : Nat} : ∀ (ops : List Nat) (g g' : Graph) (b b' : Bool), Inv g →
    (∀ n ∈ ops, ∃ f, g.nodes[n]? = some (.op f) ∧ (Stuck D g n f ∨ Chain D g n f r)) →
    (∀ n ∈ openOps g, n ∈ ops ∨ ∃ f, g.nodes[n]? = some (.op f) ∧ (Stuck D g n f ∨ Chain D g n f (r + 1))) →
    expandOps D ops g b = .ok (g', b') →
    Inv g' ∧ (∀ n ∈ openOps g', ∃ f, g'.nodes[n]? = some (.op f) ∧ (Stuck D g' n f ∨ Chain D g' n f (r + 1))) ∧
    (b' = true → b = true ∨ Deep D r) := by
  intro ops
  induction ops with
  | nil =>
    intro g g' b b' hi _ ho h
    cases h
    refine ⟨hi, ?_, fun h => Or.inl h⟩
    intro n hn
    rcases ho n hn with h1 | h1
    · cases h1
    · exact h1
  | cons op ops ih =>
    intro g g' b b' hi hs ho h
    rw [expandOps] at h
    split at h
    · cases h
    · rename_i g1 c hc
      obtain ⟨name, hop, hst⟩ := hs op List.mem_cons_self
      have hlt := getElem?_lt hop
      obtain ⟨k, _, kc⟩ := expandDef_expanded hi hop hc
      have lift : ∀ (n : Nat) f q, g.nodes[n]? = some (.op f) → (Stuck D g n f ∨ Chain D g n f q) →
          g1.nodes[n]? = some (.op f) ∧ (Stuck D g1 n f ∨ Chain D g1 n f q) := by
        intro n f q h1 h2
        refine ⟨k.ext.node h1, ?_⟩
        rcases h2 with h2 | h2
        · exact Or.inl (h2.ext k.ext (getElem?_lt h1))
        · exact Or.inr (h2.ext k.ext (getElem?_lt h1))
      have hs1 : ∀ n ∈ ops, ∃ f, g1.nodes[n]? = some (.op f) ∧ (Stuck D g1 n f ∨ Chain D g1 n f r) := by
        intro n hn
        obtain ⟨f, h1, h2⟩ := hs n (List.mem_cons_of_mem _ hn)
        exact ⟨f, lift n f r h1 h2⟩
      have hch : (∃ im ∈ D.impls name, ¬Skipped (parentIds g op) name im) → Chain D g op name r := by
        rintro ⟨im, h1, h2⟩
        rcases hst with h3 | h3
        · exact absurd (h3 im h1) h2
        · exact h3
      have ho1 : ∀ n ∈ openOps g1, n ∈ ops ∨ ∃ f, g1.nodes[n]? = some (.op f) ∧ (Stuck D g1 n f ∨ Chain D g1 n f (r + 1)) := by
        intro n hn
        by_cases hnl : n < g.nodes.length
        · rcases ho n (k.open_old hnl hn) with h1 | ⟨f, h1, h2⟩
          · rcases List.mem_cons.1 h1 with rfl | h1
            · right
              by_cases hx : ∃ im ∈ D.impls name, ¬Skipped (parentIds g n) name im
              · exact absurd hn (k.closed hx)
              · refine ⟨name, k.ext.node hop, Or.inl (Stuck.ext (g := g) ?_ k.ext hlt)⟩
                intro im hm
                exact Classical.byContradiction fun hns => hx ⟨im, hm, hns⟩
            · exact Or.inl h1
          · exact Or.inr ⟨f, lift n f _ h1 h2⟩
        · right
          obtain ⟨f, h1, _⟩ := mem_openOps.1 hn
          obtain ⟨im, h2, h3, _⟩ := k.inner n f (by omega) h1
          exact ⟨f, h1, Or.inr ((hch ⟨im, h2, h3⟩).grow hU k (by omega) h1)⟩
      obtain ⟨r1, r2, r3⟩ := ih g1 g' (b || c) b' k.inv hs1 ho1 h
      refine ⟨r1, r2, ?_⟩
      intro hb
      rcases r3 hb with h1 | h1
      · cases b with
        | true => exact Or.inl rfl
        | false =>
          right
          simp at h1
          have hx := hch (kc.1 h1)
          exact hx.deep
      · exact Or.inr h1

/-! ### Errors -/

/-- No operation in a definition is a path of several parts. -/
def NoPathD (D : Defs) : Prop := ∀ f ty body, IsDef D f ty body → NoPathE body

theorem checkParams_told {D : Defs} : ∀ {ps : List Param} {x : Err}, checkParams D ps = .error x → x.told = true := by
  intro ps
  induction ps with
  | nil => intro x h; cases h
  | cons p ps ih =>
    intro x h
    rw [checkParams] at h
    split at h
    · exact ih h
    · split at h
      · rename_i hc
        cases h
        exact checkTy_told hc
      · exact ih h

theorem addImpl_told {D : Defs} (hp : NoPathD D) {op : Nat} {name : String} {ps : List (String × String)} {g : Graph} {im : Impl}
    {x : Err} (hm : im ∈ D.impls name) (h : addImpl D op name ps g im = .error x) : x.told = true := by
  unfold addImpl at h
  split at h
  · cases h
  · rename_i params e hd
    split at h
    · cases h
    · split at h
      · rename_i hc
        cases h
        exact checkParams_told hc
      · dsimp only at h
        split at h
        · rename_i hf
          cases h
          exact flatten_told (hp name im.ty e ⟨im, hm, rfl, params, hd⟩) hf
        · cases h

theorem addImpls_told {D : Defs} (hp : NoPathD D) {op : Nat} {name : String} {ps : List (String × String)} {x : Err} :
    ∀ (ims : List Impl) (g : Graph) (b : Bool), (∀ im ∈ ims, im ∈ D.impls name) →
    addImpls D op name ps ims g b = .error x → x.told = true := by
  intro ims
  induction ims with
  | nil => intro g b _ h; cases h
  | cons im ims ih =>
    intro g b hm h
    rw [addImpls] at h
    split at h
    · rename_i hc
      cases h
      exact addImpl_told hp (hm im List.mem_cons_self) hc
    · exact ih _ _ (fun i hi => hm i (List.mem_cons_of_mem _ hi)) h

theorem expandDef_told {D : Defs} (hp : NoPathD D) {g : Graph} {op : Nat} {name : String} {x : Err}
    (hop : g.nodes[op]? = some (.op name)) (h : expandDef D g op = .error x) : x.told = true := by
  unfold expandDef at h
  rw [hop] at h
  dsimp only [Option.bind, Node.opName] at h
  split at h
  · cases h; rfl
  · exact addImpls_told hp _ _ _ (fun _ h => h) h

theorem expandOps_told {D : Defs} (hp : NoPathD D) {x : Err} : ∀ (ops : List Nat) (g : Graph) (b : Bool), Inv g →
    (∀ n ∈ ops, ∃ f, g.nodes[n]? = some (.op f)) → expandOps D ops g b = .error x → x.told = true := by
  intro ops
  induction ops with
  | nil => intro g b _ _ h; cases h
  | cons op ops ih =>
    intro g b hi hs h
    rw [expandOps] at h
    obtain ⟨name, hop⟩ := hs op List.mem_cons_self
    split at h
    · rename_i hc
      cases h
      exact expandDef_told hp hop hc
    · rename_i g1 c hc
      obtain ⟨k, _⟩ := expandDef_expanded hi hop hc
      refine ih g1 _ k.inv ?_ h
      intro n hn
      obtain ⟨f, hf⟩ := hs n (List.mem_cons_of_mem _ hn)
      exact ⟨f, k.ext.node hf⟩

theorem openOps_op {g : Graph} (n : Nat) (h : n ∈ openOps g) : ∃ f, g.nodes[n]? = some (.op f) := by
  obtain ⟨f, h1, _⟩ := mem_openOps.1 h
  exact ⟨f, h1⟩

theorem initLoop_deep {D : Defs} (hp : NoPathD D) (hU : NoUntyped D) : ∀ (left r : Nat) (g : Graph) (x : Err), Inv g →
    (∀ n ∈ openOps g, ∃ f, g.nodes[n]? = some (.op f) ∧ (Stuck D g n f ∨ Chain D g n f r)) →
    initLoop D left g = .error x → x.told = true ∨ Deep D (r + left) := by
  intro left
  induction left with
  | zero =>
    intro r g x hi ho h
    rw [initLoop] at h
    split at h
    · rename_i hc
      cases h
      exact Or.inl (expandOps_told hp _ _ _ hi openOps_op hc)
    · cases h
    · rename_i g1 hc
      obtain ⟨_, _, h3⟩ := expandOps_round hU (openOps g) g g1 false true hi ho (fun n hn => Or.inl hn) hc
      rcases h3 rfl with h4 | h4
      · cases h4
      · exact Or.inr h4
  | succ left ih =>
    intro r g x hi ho h
    rw [initLoop] at h
    split at h
    · rename_i hc
      cases h
      exact Or.inl (expandOps_told hp _ _ _ hi openOps_op hc)
    · cases h
    · rename_i g1 hc
      obtain ⟨h1, h2, _⟩ := expandOps_round hU (openOps g) g g1 false true hi ho (fun n hn => Or.inl hn) hc
      rcases ih (r + 1) g1 x h1 h2 h with h3 | h3
      · exact Or.inl h3
      · right
        rw [show r + (left + 1) = r + 1 + left by omega]
        exact h3

/-! ### The theorems -/

/-- The definitions are finitely many: each name and input type is in the list. -/
def Finite (D : Defs) (L : List (String × Option String)) : Prop := ∀ f ty body, IsDef D f ty body → (f, ty) ∈ L

theorem Deep.bound {D : Defs} {L : List (String × Option String)} (hL : Finite D L) {r : Nat} (h : Deep D r) : r ≤ L.length := by
  obtain ⟨ks, name, rfl, h2, h3⟩ := h
  refine h2.length_le_of_subset ?_
  rintro ⟨f, ty⟩ hm
  obtain ⟨_, body, h4⟩ := h3.uses hm
  exact hL f ty body h4

/-- **C38**, if there are fewer definitions than rounds and no definition for all types uses itself: expansion ends, and it
ends with a graph or with an error about an unknown operation, type or literal. -/
theorem expansion_ends_partial {D : Defs} {e : Expr} {L : List (String × Option String)} (hL : Finite D L) (hn : L.length < 128)
    (hU : NoUntyped D) (hp : NoPathD D) (he : NoPathE e) :
    (∃ g, init D e = .ok g) ∨ ∃ x, init D e = .error x ∧ x.told = true := by
  cases h : init D e with
  | ok g => exact Or.inl ⟨g, rfl⟩
  | error x =>
    refine Or.inr ⟨x, rfl, ?_⟩
    unfold init at h
    split at h
    · rename_i hf
      cases h
      exact flatten_told he hf
    · rename_i g hf
      obtain ⟨hi, _⟩ := inv_start hf
      have h0 : ∀ n ∈ openOps g, ∃ f, g.nodes[n]? = some (.op f) ∧ (Stuck D g n f ∨ Chain D g n f 0) := by
        intro n ho
        obtain ⟨f, h1⟩ := openOps_op n ho
        exact ⟨f, h1, Or.inr ⟨[], rfl, List.nodup_nil, trivial, by simp⟩⟩
      rcases initLoop_deep hp hU 128 0 g x hi h0 h with h1 | h1
      · exact h1
      · have := h1.bound hL; omega

/-! Soundness of what the loop ends with. -/

/-- Every implementation of the operation is linked to it, or is a definition that it is already inside of. -/
def Done (D : Defs) (g : Graph) (n : Nat) (name : String) : Prop :=
  ∀ im ∈ D.impls name, Skipped (parentIds g n) name im ∨ Placed g n name im

/-- What is linked to an operation is an implementation of it. -/
def OnlyImpls (D : Defs) (g : Graph) : Prop :=
  ∀ e ∈ g.edges, ∀ ty, e.rel = .keyed ty → ∀ f, g.nodes[e.src]? = some (.op f) → ∃ im ∈ D.impls f, im.ty = ty ∧ IsImpl g e.dst f im

theorem OnlyImpls.expand {D : Defs} {g g' : Graph} {op : Nat} {name : String} (hi : Inv g) (hop : g.nodes[op]? = some (.op name))
    (h : OnlyImpls D g) (k : Expanded g g' op name (D.impls name)) : OnlyImpls D g' := by
  intro e he ty hk f hf
  rcases k.only e he ty hk with h1 | ⟨im, h1, h2, h3⟩
  · rw [k.ext.old _ (by have := hi.up e h1; omega)] at hf
    obtain ⟨im, h2, h3, h4⟩ := h e h1 ty hk f hf
    exact ⟨im, h2, h3, h4.ext k.ext⟩
  · rcases k.ext.keyed e he ty hk with h4 | ⟨h4, _⟩
    · rw [k.ext.old _ (by have := hi.up e h4; omega)] at hf
      obtain ⟨im, h2, h3, h4⟩ := h e h4 ty hk f hf
      exact ⟨im, h2, h3, h4.ext k.ext⟩
    · rw [h4, k.ext.node hop] at hf
      cases hf
      exact ⟨im, h1, h2, h3⟩

theorem Done.ext {D : Defs} {op : Nat} {g g' : Graph} {n : Nat} {name : String} (h : Done D g n name) (k : Ext op g g')
    (hn : n < g.nodes.length) : Done D g' n name := by
  intro im hm
  rcases h im hm with ⟨h1, t, h2, h3⟩ | h1
  · exact Or.inl ⟨h1, t, h2, (k.parents n hn _).2 h3⟩
  · exact Or.inr (h1.ext k)

theorem addImpls_false {D : Defs} {op : Nat} {name : String} {ps : List (String × String)} : ∀ (ims : List Impl) (g g' : Graph) (b : Bool),
    addImpls D op name ps ims g b = .ok (g', false) → g' = g ∧ b = false := by
  intro ims
  induction ims with
  | nil => intro g g' b h; cases h; exact ⟨rfl, rfl⟩
  | cons im ims ih =>
    intro g g' b h
    rw [addImpls] at h
    split at h
    · cases h
    · rename_i g1 c hc
      obtain ⟨rfl, h2⟩ := ih _ _ _ h
      simp only [Bool.or_eq_false_iff] at h2
      obtain ⟨rfl, rfl⟩ := h2
      exact ⟨(addImpl_false hc).1, rfl⟩

theorem expandDef_false {D : Defs} {g g' : Graph} {op : Nat} (h : expandDef D g op = .ok (g', false)) : g' = g := by
  unfold expandDef at h
  split at h
  · cases h
  · split at h
    · cases h
    · exact (addImpls_false _ _ _ _ h).1

theorem expandOps_false {D : Defs} : ∀ (ops : List Nat) (g g' : Graph) (b : Bool), Inv g →
    (∀ n ∈ ops, ∃ f, g.nodes[n]? = some (.op f)) → expandOps D ops g b = .ok (g', false) →
    g' = g ∧ b = false ∧ ∀ n ∈ ops, ∀ f, g.nodes[n]? = some (.op f) → Stuck D g n f ∧ D.impls f ≠ [] := by
  intro ops
  induction ops with
  | nil => intro g g' b _ _ h; cases h; exact ⟨rfl, rfl, by simp⟩
  | cons op ops ih =>
    intro g g' b hi hs h
    rw [expandOps] at h
    obtain ⟨name, hop⟩ := hs op List.mem_cons_self
    split at h
    · cases h
    · rename_i g1 c hc
      obtain ⟨k, kn, kc⟩ := expandDef_expanded hi hop hc
      have hs1 : ∀ n ∈ ops, ∃ f, g1.nodes[n]? = some (.op f) := by
        intro n hn
        obtain ⟨f, hf⟩ := hs n (List.mem_cons_of_mem _ hn)
        exact ⟨f, k.ext.node hf⟩
      obtain ⟨h1, h2, h3⟩ := ih g1 g' _ k.inv hs1 h
      simp only [Bool.or_eq_false_iff] at h2
      obtain ⟨rfl, rfl⟩ := h2
      have hg := expandDef_false hc
      subst hg
      refine ⟨h1, rfl, ?_⟩
      intro n hn f hx
      rcases List.mem_cons.1 hn with rfl | hn
      · rw [hop] at hx
        cases hx
        refine ⟨?_, kn⟩
        intro im hm
        exact Classical.byContradiction fun hns => by
          have := kc.2 ⟨im, hm, hns⟩
          cases this
      · exact h3 n hn f hx

theorem expandOps_done {D : Defs} : ∀ (ops : List Nat) (g g' : Graph) (b b' : Bool), Inv g →
    (∀ n ∈ ops, ∃ f, g.nodes[n]? = some (.op f)) →
    (∀ (n : Nat) f, g.nodes[n]? = some (.op f) → n ∈ openOps g ∨ (Done D g n f ∧ D.impls f ≠ [])) → OnlyImpls D g →
    expandOps D ops g b = .ok (g', b') →
    Inv g' ∧ (∀ (n : Nat) f, g'.nodes[n]? = some (.op f) → n ∈ openOps g' ∨ (Done D g' n f ∧ D.impls f ≠ [])) ∧
    Same g g' ∧ OnlyImpls D g' := by
  intro ops
  induction ops with
  | nil =>
    intro g g' b b' hi _ hd hon h
    cases h
    exact ⟨hi, hd, fun _ _ h => ⟨h, rfl⟩, hon⟩
  | cons op ops ih =>
    intro g g' b b' hi hs hd hon h
    rw [expandOps] at h
    obtain ⟨name, hop⟩ := hs op List.mem_cons_self
    have hlt := getElem?_lt hop
    split at h
    · cases h
    · rename_i g1 c hc
      obtain ⟨k, kn, kc⟩ := expandDef_expanded hi hop hc
      have hkd : Done D g1 op name := by
        intro im hm
        rcases k.all im hm with ⟨h1, t, h2, h3⟩ | h1
        · exact Or.inl ⟨h1, t, h2, (k.ext.parents op hlt _).2 h3⟩
        · exact Or.inr h1
      have hs1 : ∀ n ∈ ops, ∃ f, g1.nodes[n]? = some (.op f) := by
        intro n hn
        obtain ⟨f, hf⟩ := hs n (List.mem_cons_of_mem _ hn)
        exact ⟨f, k.ext.node hf⟩
      have hd1 : ∀ (n : Nat) f, g1.nodes[n]? = some (.op f) → n ∈ openOps g1 ∨ (Done D g1 n f ∧ D.impls f ≠ []) := by
        intro n f hn
        by_cases hnl : n < g.nodes.length
        · rw [k.ext.old n hnl] at hn
          by_cases hno : n = op
          · subst hno
            rw [hop] at hn
            cases hn
            exact Or.inr ⟨hkd, kn⟩
          · rcases hd n f hn with h1 | h1
            · exact Or.inl (k.stays_open h1 hno)
            · exact Or.inr ⟨h1.1.ext k.ext hnl, h1.2⟩
        · exact Or.inl (k.new_open hi hlt (by omega) hn)
      obtain ⟨r1, r2, r3, r4⟩ := ih g1 g' (b || c) b' k.inv hs1 hd1 (hon.expand hi hop k) h
      exact ⟨r1, r2, k.ext.same.trans r3, r4⟩

theorem initLoop_done {D : Defs} : ∀ (left : Nat) (g g' : Graph), Inv g →
    (∀ (n : Nat) f, g.nodes[n]? = some (.op f) → n ∈ openOps g ∨ (Done D g n f ∧ D.impls f ≠ [])) → OnlyImpls D g →
    initLoop D left g = .ok g' →
    Inv g' ∧ (∀ (n : Nat) f, g'.nodes[n]? = some (.op f) → Done D g' n f ∧ D.impls f ≠ []) ∧
    Same g g' ∧ OnlyImpls D g' := by
  intro left
  induction left with
  | zero =>
    intro g g' hi hd hon h
    rw [initLoop] at h
    split at h
    · cases h
    · rename_i g1 hc
      cases h
      obtain ⟨rfl, _, h3⟩ := expandOps_false _ _ _ _ hi openOps_op hc
      refine ⟨hi, ?_, fun _ _ h => ⟨h, rfl⟩, hon⟩
      intro n f hx
      rcases hd n f hx with h1 | h1
      · obtain ⟨h4, h5⟩ := h3 n h1 f hx
        exact ⟨fun im hm => Or.inl (h4 im hm), h5⟩
      · exact h1
    · cases h
  | succ left ih =>
    intro g g' hi hd hon h
    rw [initLoop] at h
    split at h
    · cases h
    · rename_i g1 hc
      cases h
      obtain ⟨rfl, _, h3⟩ := expandOps_false _ _ _ _ hi openOps_op hc
      refine ⟨hi, ?_, fun _ _ h => ⟨h, rfl⟩, hon⟩
      intro n f hx
      rcases hd n f hx with h1 | h1
      · obtain ⟨h4, h5⟩ := h3 n h1 f hx
        exact ⟨fun im hm => Or.inl (h4 im hm), h5⟩
      · exact h1
    · rename_i g1 hc
      obtain ⟨r1, r2, r3, r4⟩ := expandOps_done _ _ _ _ _ hi openOps_op hd hon hc
      obtain ⟨q1, q2, q3, q4⟩ := ih g1 g' r1 r2 r4 h
      exact ⟨q1, q2, r3.trans q3, q4⟩

theorem start_open {g : Graph} (hn : ∀ e ∈ g.edges, e.rel = .normal) {n : Nat} {f : String} (hx : g.nodes[n]? = some (.op f)) :
    n ∈ openOps g := by
  refine mem_openOps.2 ⟨f, hx, ?_⟩
  cases hc : opExpanded g n with
  | false => rfl
  | true =>
    obtain ⟨c, ty, hc⟩ := opExpanded_iff.1 hc
    have := hn _ hc
    cases this

theorem start_only {D : Defs} {g : Graph} (hn : ∀ e ∈ g.edges, e.rel = .normal) : OnlyImpls D g := by
  intro e he ty hk
  rw [hn e he] at hk
  cases hk

theorem init_done {D : Defs} {e : Expr} {g : Graph} (h : init D e = .ok g) :
    Inv g ∧ (∀ (n : Nat) f, g.nodes[n]? = some (.op f) → Done D g n f ∧ D.impls f ≠ []) ∧ ShowsE g 0 e ∧
    OnlyImpls D g := by
  unfold init at h
  split at h
  · cases h
  · rename_i g0 hf
    obtain ⟨hi, _, _, hn⟩ := inv_start hf
    obtain ⟨h1, h2, h3, h4⟩ := initLoop_done 128 g0 g hi (fun n f hx => Or.inl (start_open hn hx)) (start_only hn) h
    exact ⟨h1, h2, (flatten_shows hf (by intro x hx; cases hx)).1.same h3, h4⟩

/-- **C61**: the graph starts with exactly the expression that was written. -/
theorem program_shown {D : Defs} {e : Expr} {g : Graph} (h : init D e = .ok g) : ShowsE g 0 e := (init_done h).2.2.1

/-- **C38**, **C61**: when expansion succeeds every operation has all its implementations, a definition with exactly its body,
except for the definitions with an input type that the operation is inside of. -/
theorem all_implementations {D : Defs} {e : Expr} {g : Graph} (h : init D e = .ok g) {n : Nat} {f : String}
    (hn : g.nodes[n]? = some (.op f)) : D.impls f ≠ [] ∧ ∀ im ∈ D.impls f,
      (∃ c, ⟨n, c, .keyed im.ty⟩ ∈ g.edges ∧ g.nodes[c]? = some (cmdNode f im) ∧
        ∀ ps body, im.defn = some (ps, body) → ∃ r, below g c = [r] ∧ ShowsE g r body) ∨
      (∃ t d, im.ty = some t ∧ im.defn ≠ none ∧ g.nodes[d]? = some (.defn f (some t)) ∧ Reach g d n) := by
  obtain ⟨hi, hd, _⟩ := init_done h
  obtain ⟨h1, h2⟩ := hd n f hn
  refine ⟨h2, ?_⟩
  intro im hm
  rcases h1 im hm with ⟨⟨b, hb⟩, t, ht, hp⟩ | ⟨c, h3, h4, h5⟩
  · right
    obtain ⟨d, h3, _, h5⟩ := (mem_parentIds hi.up).1 hp
    exact ⟨t, d, ht, by rw [hb]; simp, (hi.ids d f t).1 h3, h5⟩
  · exact Or.inl ⟨c, h3, h4, fun ps body hb => ⟨c + 1, h5 ps body hb⟩⟩

/-- The operation is inside of the definition of its command for this type. -/
def Inside (g : Graph) (n : Nat) (f t : String) : Prop := ∃ d, g.nodes[d]? = some (.defn f (some t)) ∧ Reach g d n

/-- **C62**: the implementation that is chosen for an input type is the one for this type; one for all types is chosen only
if there is none for this type or the operation is inside of it. -/
theorem impl_chosen {D : Defs} {e : Expr} {g : Graph} (h : init D e = .ok g) {n : Nat} {f : String}
    (hn : g.nodes[n]? = some (.op f)) {t : String} {c : Nat} (hc : getImpl g n t = some c) :
    ∃ im ∈ D.impls f, IsImpl g c f im ∧
      (im.ty = some t ∨ im.ty = none ∧ ∀ im' ∈ D.impls f, im'.ty = some t → Inside g n f t) := by
  obtain ⟨hi, hd, _, ho⟩ := init_done h
  unfold getImpl at hc
  dsimp only at hc
  split at hc
  · rename_i e he
    cases hc
    have h1 := List.find?_some he
    have h2 := List.mem_of_find?_eq_some he
    simp only [decide_eq_true_eq] at h1
    obtain ⟨h3, h4⟩ := List.mem_filter.1 (List.mem_reverse.1 h2)
    simp only [decide_eq_true_eq] at h4
    obtain ⟨im, h5, h6, h7⟩ := ho e h3 _ h1 f (by rw [h4]; exact hn)
    exact ⟨im, h5, h7, Or.inl h6⟩
  · rename_i hnone
    obtain ⟨e, he, rfl⟩ := Option.map_eq_some_iff.1 hc
    obtain ⟨h2, h1⟩ := List.mem_filter.1 (List.mem_of_getLast? he)
    simp only [decide_eq_true_eq] at h1
    obtain ⟨h3, h4⟩ := List.mem_filter.1 (List.mem_reverse.1 h2)
    simp only [decide_eq_true_eq] at h4
    obtain ⟨im, h5, h6, h7⟩ := ho e h3 _ h1 f (by rw [h4]; exact hn)
    refine ⟨im, h5, h7, Or.inr ⟨h6, ?_⟩⟩
    intro im' h8 h9
    rcases (hd n f hn).1 im' h8 with ⟨⟨b, hb⟩, t', ht', hp⟩ | ⟨c', h10, _⟩
    · rw [h9] at ht'
      cases ht'
      obtain ⟨d, h11, _, h12⟩ := (mem_parentIds hi.up).1 hp
      exact ⟨d, (hi.ids d f t).1 h11, h12⟩
    · exfalso
      have := List.find?_eq_none.1 hnone ⟨n, c', .keyed im'.ty⟩
        (List.mem_reverse.2 (List.mem_filter.2 ⟨h10, by simp⟩))
      simp [h9] at this

/-- **C62**: if none is chosen there is none for all types, and none for this one unless the operation is inside of it. -/
theorem impl_missing {D : Defs} {e : Expr} {g : Graph} (h : init D e = .ok g) {n : Nat} {f : String}
    (hn : g.nodes[n]? = some (.op f)) {t : String} (hc : getImpl g n t = none) :
    ∀ im ∈ D.impls f, im.ty ≠ none ∧ (im.ty = some t → Inside g n f t) := by
  obtain ⟨hi, hd, _, ho⟩ := init_done h
  unfold getImpl at hc
  dsimp only at hc
  split at hc
  · cases hc
  · rename_i hnone
    rw [Option.map_eq_none_iff, List.getLast?_eq_none_iff, List.filter_eq_nil_iff] at hc
    intro im hm
    rcases (hd n f hn).1 im hm with ⟨⟨b, hb⟩, t', ht', hp⟩ | ⟨c', h10, _⟩
    · rw [ht']
      refine ⟨by simp, ?_⟩
      intro h1
      cases h1
      obtain ⟨d, h11, _, h12⟩ := (mem_parentIds hi.up).1 hp
      exact ⟨d, (hi.ids d f t).1 h11, h12⟩
    · have hmem : (⟨n, c', .keyed im.ty⟩ : Edge) ∈ (g.edges.filter (·.src = n)).reverse :=
        List.mem_reverse.2 (List.mem_filter.2 ⟨h10, by simp⟩)
      refine ⟨?_, ?_⟩
      · intro h1
        have := hc _ hmem
        simp [h1] at this
      · intro h1
        have := List.find?_eq_none.1 hnone _ hmem
        simp [h1] at this

/-- **C38**: a definition with an input type is never expanded inside of itself. -/
theorem never_inside_itself {D : Defs} {e : Expr} {g : Graph} (h : init D e = .ok g) {d d' : Nat} {f t : String}
    (h1 : g.nodes[d]? = some (.defn f (some t))) (h2 : g.nodes[d']? = some (.defn f (some t))) (hr : Reach g d d') : d = d' :=
  (init_done h).1.once d d' f t h1 h2 hr

/-! ### Definitions for all types that use themselves -/

theorem expandOps_loops {D : Defs} {S T : String → Prop} (hS : ∀ f, S f → ∃ body, IsDef D f none body ∧ ∃ h ∈ opsE body, T h) :
    ∀ (ops : List Nat) (g g' : Graph) (b b' : Bool), Inv g → (∀ n ∈ ops, ∃ f, g.nodes[n]? = some (.op f)) →
    (∃ n f, n ∈ openOps g ∧ g.nodes[n]? = some (.op f) ∧ (S f ∧ n ∈ ops ∨ T f ∧ n ∉ ops ∧ b = true)) →
    ops.Nodup → expandOps D ops g b = .ok (g', b') →
    Inv g' ∧ b' = true ∧ ∃ n f, n ∈ openOps g' ∧ g'.nodes[n]? = some (.op f) ∧ T f := by
  intro ops
  induction ops with
  | nil =>
    intro g g' b b' hi _ ho _ h
    cases h
    obtain ⟨n, f, h1, h2, h3⟩ := ho
    rcases h3 with ⟨_, h4⟩ | ⟨h3, _, h4⟩
    · cases h4
    · exact ⟨hi, h4, n, f, h1, h2, h3⟩
  | cons op ops ih =>
    intro g g' b b' hi hs ho hnd h
    rw [expandOps] at h
    obtain ⟨name, hop⟩ := hs op List.mem_cons_self
    have hlt := getElem?_lt hop
    split at h
    · cases h
    · rename_i g1 c hc
      obtain ⟨k, kn, kc⟩ := expandDef_expanded hi hop hc
      have hs1 : ∀ n ∈ ops, ∃ f, g1.nodes[n]? = some (.op f) := by
        intro n hn
        obtain ⟨f, hf⟩ := hs n (List.mem_cons_of_mem _ hn)
        exact ⟨f, k.ext.node hf⟩
      refine ih g1 g' _ b' k.inv hs1 ?_ (List.nodup_cons.1 hnd).2 h
      obtain ⟨n, f, h1, h2, h3⟩ := ho
      by_cases hne : n = op
      · subst hne
        rw [hop] at h2
        cases h2
        rcases h3 with ⟨h3, _⟩ | ⟨_, h3, _⟩
        · obtain ⟨body, ⟨im, hm, ht, ps, hd⟩, x, hx, hSx⟩ := hS _ h3
          have hns : ¬Skipped (parentIds g n) name im := by
            rintro ⟨_, t, h5, _⟩
            rw [ht] at h5
            cases h5
          obtain ⟨m, h5, h6⟩ := k.outer im hm hns x (by simp only [implOps, hd]; exact hx)
          refine ⟨m, x, k.new_open hi hlt h5 h6, h6, Or.inr ⟨hSx, ?_, by rw [kc.2 ⟨im, hm, hns⟩]; simp⟩⟩
          intro hm'
          obtain ⟨f', hf'⟩ := hs m (List.mem_cons_of_mem _ hm')
          have := getElem?_lt hf'
          omega
        · exact absurd List.mem_cons_self h3
      · refine ⟨n, f, k.stays_open h1 hne, k.ext.node h2, ?_⟩
        rcases h3 with ⟨h3, h4⟩ | ⟨h3, h4, h5⟩
        · rcases List.mem_cons.1 h4 with h5 | h5
          · exact absurd h5 hne
          · exact Or.inl ⟨h3, h5⟩
        · exact Or.inr ⟨h3, fun h6 => h4 (List.mem_cons_of_mem _ h6), by rw [h5]; rfl⟩

theorem openOps_nodup (g : Graph) : (openOps g).Nodup := List.Pairwise.filter _ List.nodup_range

theorem initLoop_loops {D : Defs} {S : Nat → String → Prop}
    (hS : ∀ k f, S (k + 1) f → ∃ body, IsDef D f none body ∧ ∃ h ∈ opsE body, S k h) :
    ∀ (left : Nat) (g g' : Graph), Inv g → (∃ n f, n ∈ openOps g ∧ g.nodes[n]? = some (.op f) ∧ S (left + 1) f) →
    initLoop D left g ≠ .ok g' := by
  intro left
  induction left with
  | zero =>
    intro g g' hi ⟨n, f, h1, h2, h3⟩ h
    rw [initLoop] at h
    split at h
    · cases h
    · rename_i g1 hc
      obtain ⟨_, h4, _⟩ := expandOps_loops (hS 0) _ _ _ _ _ hi openOps_op ⟨n, f, h1, h2, Or.inl ⟨h3, h1⟩⟩ (openOps_nodup g) hc
      cases h4
    · cases h
  | succ left ih =>
    intro g g' hi ⟨n, f, h1, h2, h3⟩ h
    rw [initLoop] at h
    split at h
    · cases h
    · rename_i g1 hc
      obtain ⟨_, h4, _⟩ := expandOps_loops (hS _) _ _ _ _ _ hi openOps_op ⟨n, f, h1, h2, Or.inl ⟨h3, h1⟩⟩ (openOps_nodup g) hc
      cases h4
    · rename_i g1 hc
      obtain ⟨h4, _, h5⟩ := expandOps_loops (hS _) _ _ _ _ _ hi openOps_op ⟨n, f, h1, h2, Or.inl ⟨h3, h1⟩⟩ (openOps_nodup g) hc
      exact ih g1 g' h4 h5 h

/-- An expression with definitions for all types nested in each other as deep as the number of rounds does not compile. -/
theorem deep_fails {D : Defs} {S : Nat → String → Prop}
    (hS : ∀ k f, S (k + 1) f → ∃ body, IsDef D f none body ∧ ∃ h ∈ opsE body, S k h)
    {e : Expr} (he : ∃ f ∈ opsE e, S 129 f) : ∃ x, init D e = .error x := by
  cases h : init D e with
  | error x => exact ⟨x, rfl⟩
  | ok g' =>
    exfalso
    unfold init at h
    split at h
    · cases h
    · rename_i g0 hf
      obtain ⟨hi, hc, _, hn⟩ := inv_start hf
      obtain ⟨f, hm, hSf⟩ := he
      have : Node.op f ∈ g0.nodes := opCount_mem.2 (by rw [hc f]; exact List.count_pos_iff.2 hm)
      obtain ⟨n, hx⟩ := List.getElem?_of_mem this
      exact initLoop_loops hS 128 g0 g' hi ⟨n, f, start_open hn hx, hx, hSf⟩ h

/-- **C38**: an expression that uses commands which use each other in a circle, through definitions for all types, does not
compile. -/
theorem untyped_circle_fails {D : Defs} {S : String → Prop} (hS : ∀ f, S f → ∃ body, IsDef D f none body ∧ ∃ h ∈ opsE body, S h)
    {e : Expr} (he : ∃ f ∈ opsE e, S f) : ∃ x, init D e = .error x :=
  deep_fails (S := fun _ => S) (fun _ => hS) he

theorem init_error {D : Defs} (hp : NoPathD D) {e : Expr} (he : NoPathE e) {x : Err} (h : init D e = .error x) :
    x.told = true ∨ x = .endless := by
  unfold init at h
  split at h
  · rename_i hf
    cases h
    exact Or.inl (flatten_told he hf)
  · rename_i g hf
    obtain ⟨hi, hc0, hc1, hn⟩ := inv_start hf
    have hd : ∀ (n : Nat) f, g.nodes[n]? = some (.op f) → n ∈ openOps g ∨ (Done D g n f ∧ D.impls f ≠ []) :=
      fun n f hx => Or.inl (start_open hn hx)
    have hon : OnlyImpls D g := start_only hn
    generalize 128 = left at h
    clear hf hn hc0 hc1
    induction left generalizing g with
    | zero =>
      rw [initLoop] at h
      split at h
      · rename_i hc
        cases h
        exact Or.inl (expandOps_told hp _ _ _ hi openOps_op hc)
      · cases h
      · cases h; exact Or.inr rfl
    | succ left ih =>
      rw [initLoop] at h
      split at h
      · rename_i hc
        cases h
        exact Or.inl (expandOps_told hp _ _ _ hi openOps_op hc)
      · cases h
      · rename_i g1 hc
        obtain ⟨r1, r2, _, r4⟩ := expandOps_done _ _ _ _ _ hi openOps_op hd hon hc
        exact ih g1 r1 r2 r4 h

/-- **C38**, for expressions and definitions in which no operation is a path: expansion does not panic. -/
theorem no_panic_partial {D : Defs} (hp : NoPathD D) {e : Expr} (he : NoPathE e) : init D e ≠ .error .panic := by
  intro h
  rcases init_error hp he h with h1 | h1 <;> cases h1

/-! ### Instances -/

/-- An expression that is one command with these arguments. -/
def one (f : String) (ts : List Term) : Expr := .mk none [.mk (some f) none none ts]

/-- `len` is intrinsic; `outer` is defined with `inner` and `len` as argument, `inner` for strings with itself and `len`. -/
def someDefs : Defs where
  impls f :=
    if f = "len" then [⟨none, none⟩]
    else if f = "outer" then [⟨none, some ([⟨"x", none⟩], one "inner" [.expr (one "len" [])])⟩]
    else if f = "inner" then [⟨some "Str", some ([], .mk none [.mk (some "inner") none none [], .mk (some "len") none none []])⟩]
    else []
  isTy t := t = "Str"

example : (init someDefs (one "outer" [.plain (.ident "a")])).toOption.map (fun g => (g.nodes.length, g.edges.length)) = some (14, 15) := by
  decide +kernel

theorem someDefs_cases {f : String} {ty : Option String} {body : Expr} (h : IsDef someDefs f ty body) :
    (f = "outer" ∧ ty = none ∧ body = one "inner" [.expr (one "len" [])]) ∨
    (f = "inner" ∧ ty = some "Str" ∧ body = .mk none [.mk (some "inner") none none [], .mk (some "len") none none []]) := by
  obtain ⟨im, hm, ht, ps, hd⟩ := h
  simp only [someDefs] at hm
  split at hm
  · simp only [List.mem_singleton] at hm; subst hm; cases hd
  · split at hm
    · simp only [List.mem_singleton] at hm; subst hm; cases hd; exact Or.inl ⟨by assumption, ht.symm, rfl⟩
    · split at hm
      · simp only [List.mem_singleton] at hm; subst hm; cases hd; exact Or.inr ⟨by assumption, ht.symm, rfl⟩
      · cases hm

theorem someDefs_uses {f h : String} (hu : UsesPlus someDefs f h) : h = "inner" ∨ h = "len" := by
  have key : ∀ f h, Uses someDefs f h → h = "inner" ∨ h = "len" := by
    rintro f h ⟨ty, body, hd, hm⟩
    rcases someDefs_cases hd with ⟨_, _, rfl⟩ | ⟨_, _, rfl⟩ <;>
      simpa [one, opsE, opsBs, opsB, opsTs, opsT] using hm
  cases hu with
  | one h => exact key _ _ h
  | more _ h => exact key _ _ h

/-- The hypotheses of `expansion_ends_partial` and `no_panic_partial` are met with a typed definition that uses itself. -/
example : Finite someDefs [("outer", none), ("inner", some "Str")] ∧ NoUntyped someDefs ∧ NoPathD someDefs ∧
    NoPathE (one "outer" [.plain (.ident "a")]) := by
  refine ⟨?_, ?_, ?_, ?_⟩
  · intro f ty body h
    rcases someDefs_cases h with ⟨rfl, rfl, _⟩ | ⟨rfl, rfl, _⟩ <;> simp
  · intro f body h hu
    rcases someDefs_cases h with ⟨rfl, _, _⟩ | ⟨_, h, _⟩
    · rcases someDefs_uses hu with h | h <;> simp at h
    · cases h
  · intro f ty body h
    rcases someDefs_cases h with ⟨_, _, rfl⟩ | ⟨_, _, rfl⟩ <;>
      simp [one, NoPathE, NoPathBs, NoPathB, NoPathTs, NoPathT]
  · simp [one, NoPathE, NoPathBs, NoPathB, NoPathTs, NoPathT]

/-- `def f () { f }`, after there was a definition of `f` already. -/
def selfDefs : Defs where
  impls f := if f = "f" then [⟨none, some ([], one "f" [])⟩] else []
  isTy _ := true

example : ∃ x, init selfDefs (one "f" []) = .error x :=
  untyped_circle_fails (S := (· = "f"))
    (fun f hf => ⟨one "f" [], ⟨⟨none, some ([], one "f" [])⟩, by simp [selfDefs, hf], rfl, [], rfl⟩, "f",
      by simp [one, opsE, opsBs, opsB, opsTs], rfl⟩)
    ⟨"f", by simp [one, opsE, opsBs, opsB, opsTs], rfl⟩

/-- **C38 does not hold as stated**: an operation that is a path of several parts panics, in the expression ... -/
theorem path_panics : init someDefs (.mk none [.mk none none none []]) = .error .panic := by decide +kernel

/-- Definitions that use one another, the last one an intrinsic, `n` deep; none uses itself. -/
def deepDefs : Defs where
  impls f :=
    match f.length with
    | 0 => [⟨none, none⟩]
    | n + 1 => [⟨none, some ([], one (String.ofList (List.replicate n 'f')) [])⟩]
  isTy _ := true

/-- ... and definitions without any recursion are taken for an endless loop if they are nested too deep. -/
theorem deep_rejected : (∃ x, init deepDefs (one (String.ofList (List.replicate 129 'f')) []) = .error x) ∧
    ∀ f, ¬UsesPlus deepDefs f f := by
  have uses : ∀ f h, Uses deepDefs f h → h.length < f.length := by
    rintro f h ⟨ty, body, ⟨im, hm, _, ps, hd⟩, hb⟩
    simp only [deepDefs] at hm
    split at hm
    · simp only [List.mem_singleton] at hm; subst hm; cases hd
    · rename_i n hn
      simp only [List.mem_singleton] at hm; subst hm; cases hd
      simp only [one, opsE, opsBs, opsB, opsTs, Option.toList, List.append_nil, List.mem_singleton] at hb
      subst hb
      simp [hn]
  have plus : ∀ f h, UsesPlus deepDefs f h → h.length < f.length := by
    intro f h hu
    induction hu with
    | one h => exact uses _ _ h
    | more _ h ih => have := uses _ _ h; omega
  refine ⟨?_, fun f hf => by have := plus f f hf; omega⟩
  refine deep_fails (D := deepDefs) (S := fun k f => f.length = k) ?_ ⟨String.ofList (List.replicate 129 'f'), ?_, ?_⟩
  · intro k f hf
    refine ⟨one (String.ofList (List.replicate k 'f')) [],
      ⟨⟨none, some ([], one (String.ofList (List.replicate k 'f')) [])⟩, ?_, rfl, [], rfl⟩, String.ofList (List.replicate k 'f'), ?_, by simp⟩
    · simp [deepDefs, hf]
    · simp [one, opsE, opsBs, opsB, opsTs]
  · exact List.mem_cons_self
  · rw [String.length_ofList, List.length_replicate]

end Verif.Exp
