import Verif.Lemmas.ProgTied
import Verif.Model.Prog
/-! C77: what the compiler reads of a syntax graph. -/
namespace Verif.Exp

theorem fill_any (ts : List Nat) (v : List (Option Nat)) :
    fill (ts.zipIdx.map fun x => (x.2, x.1)).reverse v = ts.map some ++ v.drop ts.length := by
  by_cases hl : ts.length ≤ v.length
  · exact fill_rev ts v hl
  · revert hl
    refine snoc_ind (P := fun ts => ¬ts.length ≤ v.length → fill (ts.zipIdx.map fun x => (x.2, x.1)).reverse v = ts.map some ++ v.drop ts.length) ?_ ?_ ts
    · intro h; simp at h
    · intro a x _ hv
      simp only [List.length_append, List.length_singleton] at hv
      rw [List.zipIdx_append, List.map_append, List.reverse_append]
      simp only [List.zipIdx_singleton, List.map_cons, List.map_nil, List.reverse_singleton, List.singleton_append, Nat.zero_add, fill]
      rw [if_pos (by omega), fill_rev _ _ (by simp; omega)]
      rw [List.map_append, List.append_assoc]
      congr 1
      have hl : (v ++ List.replicate (a.length + 1 - v.length) none).length = a.length + 1 := by simp; omega
      have hd := List.drop_eq_getElem_cons (l := v ++ List.replicate (a.length + 1 - v.length) none) (i := a.length) (by omega)
      rw [List.drop_set, if_neg (by omega), Nat.sub_self, hd, List.drop_eq_nil_of_le (by omega)]
      rw [List.drop_eq_nil_of_le (by simp; omega)]
      rfl

theorem fill_append : ∀ (a b : List (Nat × Nat)) (v : List (Option Nat)), fill (a ++ b) v = fill b (fill a v) := by
  intro a
  induction a with
  | nil => intro b v; rfl
  | cons x a ih => intro b v; simp only [List.cons_append, fill]; exact ih b _

/-- **C61**: of the arguments of an operation, or of its flags, an implementation gets the first 256. -/
theorem terms_received {g : Graph} (hi : Inv g) {op c : Nat} {ty : Option String} (hk : ⟨op, c, .keyed ty⟩ ∈ g.edges) (fl : Bool) :
    getTerms g c fl = some ((termsOf g op fl).take 256) := by
  unfold getTerms
  rw [List.filterMap_reverse, linked_terms hi hk fl]
  generalize termsOf g op fl = ts
  have h1 : (ts.zipIdx.map fun x => (x.2 % 256, x.1)) = ((ts.take 256).zipIdx.map fun x => (x.2, x.1)) ++
      (((ts.drop 256).zipIdx (ts.take 256).length).map fun x => (x.2 % 256, x.1)) := by
    conv => lhs; rw [← List.take_append_drop 256 ts]
    rw [List.zipIdx_append, List.map_append, Nat.zero_add]
    congr 1
    apply List.map_congr_left
    rintro ⟨t, i⟩ ht
    have := List.mk_mem_zipIdx_iff_getElem?.1 ht
    have := (List.getElem?_eq_some_iff.1 this).1
    simp only [List.length_take] at this
    dsimp only
    rw [Nat.mod_eq_of_lt (by omega)]
  rw [h1, List.reverse_append, fill_append, fill_any]
  have h2 := fill_bound (((ts.drop 256).zipIdx (ts.take 256).length).map fun x => (x.2 % 256, x.1)).reverse [] (by
    intro x hx
    obtain ⟨y, _, rfl⟩ := List.mem_map.1 (List.mem_reverse.1 hx)
    exact Nat.mod_lt _ (by omega)) (by simp)
  by_cases hl : ts.length ≤ 256
  · rw [List.drop_eq_nil_of_le hl]
    simp only [List.zipIdx_nil, List.map_nil, List.reverse_nil, fill, List.drop_nil, List.append_nil, mapM_some]
  · generalize hL : (List.take 256 ts).length = L at h2 ⊢
    rw [List.length_take] at hL
    rw [List.drop_eq_nil_of_le (by omega), List.append_nil, mapM_some]

end Verif.Exp

namespace Verif.Prog
open Verif Verif.Exp

/-- What is known of a syntax graph. -/
structure Net (D : Defs) (g : Graph) : Prop where
  inv : Inv g
  tied : Tied g
  only : OnlyImpls D g
  root : g.nodes[0]? = some .expr

theorem net {D : Defs} {e : Expr} {g : Graph} (h : init D e = .ok g) : Net D g := by
  obtain ⟨h1, _, h2, h3⟩ := init_done h
  refine ⟨h1, init_tied h, h3, ?_⟩
  cases e
  exact h2.1

variable {D : Defs} {g : Graph}

theorem mem_inEdges {n : Nat} {e : Edge} : e ∈ inEdges g n ↔ e ∈ g.edges ∧ e.dst = n := by
  simp [inEdges]

theorem mem_outEdges {n : Nat} {e : Edge} : e ∈ outEdges g n ↔ e ∈ g.edges ∧ e.src = n := by
  simp [outEdges]

theorem mem_impls {n : Nat} {e : Edge} : e ∈ impls g n ↔ e ∈ g.edges ∧ e.src = n ∧ ∃ t, e.rel = .keyed t := by
  unfold impls
  rw [List.mem_filter, mem_outEdges]
  have : isKey e.rel = true ↔ ∃ t, e.rel = .keyed t := by
    cases e.rel <;> simp [isKey]
  rw [this, and_assoc]

theorem mem_numbered {p : Exp.Node → Bool} {n : Nat} : n ∈ numbered g p ↔ ∃ x, g.nodes[n]? = some x ∧ p x = true := by
  unfold numbered
  rw [List.mem_filter, List.mem_range]
  unfold at'
  constructor
  · rintro ⟨h1, h2⟩
    rw [List.getElem?_eq_getElem h1] at h2 ⊢
    exact ⟨_, rfl, h2⟩
  · rintro ⟨x, h1, h2⟩
    rw [h1]
    exact ⟨getElem?_lt h1, h2⟩

theorem at'_iff {p : Exp.Node → Bool} {n : Nat} : at' g p n = true ↔ ∃ x, g.nodes[n]? = some x ∧ p x = true := by
  unfold at'
  cases g.nodes[n]? <;> simp

theorem isOp_iff {x : Exp.Node} : isOp x = true ↔ ∃ f, x = .op f := by cases x <;> simp [isOp]

theorem isExpr_iff {x : Exp.Node} : isExpr x = true ↔ x = .expr := by cases x <;> simp [isExpr]

theorem isDef_iff {x : Exp.Node} : isDef x = true ↔ ∃ f t, x = .defn f t := by cases x <;> simp [isDef]

theorem head_all {α : Type} {l : List α} {a : α} (h : a ∈ l) (ha : ∀ x ∈ l, x = a) : l.head? = some a := by
  cases l with
  | nil => cases h
  | cons b l => rw [ha b List.mem_cons_self]; rfl

theorem srcOf_all {l : List Edge} {e : Edge} (h : e ∈ l) (ha : ∀ x ∈ l, x.src = e.src) : srcOf l = e.src := by
  cases l with
  | nil => cases h
  | cons b l => exact ha b List.mem_cons_self

namespace Net

/-- Edges lead to new nodes. -/
theorem lt (N : Net D g) {e : Edge} (h : e ∈ g.edges) : e.src < e.dst ∧ e.dst < g.nodes.length := N.inv.up e h

theorem node (_ : Net D g) {n : Nat} (h : n < g.nodes.length) : ∃ x, g.nodes[n]? = some x := ⟨_, List.getElem?_eq_getElem h⟩

theorem pos (N : Net D g) : 0 < g.nodes.length := getElem?_lt N.root

/-- The ends of an edge that is not from a term. -/
theorem key_ends (N : Net D g) {e : Edge} (h : e ∈ g.edges) {ty : Option String} (hk : e.rel = .keyed ty) :
    ∃ f im, im ∈ D.impls f ∧ im.ty = ty ∧ g.nodes[e.src]? = some (.op f) ∧ g.nodes[e.dst]? = some (cmdNode f im) ∧
      IsImpl g e.dst f im := by
  obtain ⟨_, f, hf⟩ := N.inv.fed e h ty hk
  obtain ⟨im, h1, h2, h3⟩ := N.only e h ty hk f hf
  exact ⟨f, im, h1, h2, hf, h3.1, h3⟩

/-- Every node but the first is written below one, or is an implementation of an operation. -/
theorem incoming (N : Net D g) {n : Nat} (hn : n < g.nodes.length) (h0 : n ≠ 0) : ∃ e ∈ g.edges, e.dst = n ∧ isTerm e.rel = false := by
  have hr := N.inv.root n hn
  cases hr with
  | refl => exact absurd rfl h0
  | step e _ he _ =>
    cases hx : e.rel with
    | normal => exact ⟨e, he, rfl, by rw [hx]; rfl⟩
    | keyed t => exact ⟨e, he, rfl, by rw [hx]; rfl⟩
    | term i =>
      obtain ⟨op, ty, h1⟩ := N.tied.terms e he i hx
      exact ⟨_, h1, rfl, rfl⟩

/-- There is only one such edge. -/
theorem one (N : Net D g) {e e' : Edge} (h : e ∈ g.edges) (h' : e' ∈ g.edges) (hd : e'.dst = e.dst) (ht : isTerm e.rel = false)
    (ht' : isTerm e'.rel = false) : e' = e := by
  obtain ⟨x, hx⟩ := N.node (N.lt h).2
  have k1 := N.inv.kind e h x hx
  have k2 := N.inv.kind e' h' x (by rw [hd]; exact hx)
  cases hr : e.rel with
  | term i => rw [hr] at ht; cases ht
  | normal => exact N.inv.uniq e' h' e h (k2.2 (k1.1 hr)) hr hd
  | keyed ty =>
    have h1 := (N.inv.fed e h ty hr).1
    have h2 : e' ∈ g.edges.filter (·.dst = e.dst) := List.mem_filter.2 ⟨h', by simp [hd]⟩
    rw [h1] at h2
    have h3 := mem_cmdEdges h2
    cases hr' : e'.rel with
    | term i => rw [hr'] at ht'; cases ht'
    | normal => exact absurd hr' h3.2.1
    | keyed ty' =>
      have h4 := h3.2.2.2 ty' hr'
      have h5 := cmdEdges_keyed h2 hr'
      obtain ⟨a, b, r⟩ := e
      obtain ⟨a', b', r'⟩ := e'
      dsimp only at *
      subst hr hr' h4 h5 hd
      rfl

theorem above_eq (N : Net D g) {e : Edge} (h : e ∈ g.edges) (ht : isTerm e.rel = false) : above g e.dst = some e := by
  unfold above
  refine head_all (List.mem_filter.2 ⟨mem_inEdges.2 ⟨h, rfl⟩, by simp [ht]⟩) ?_
  intro x hx
  obtain ⟨h1, h2⟩ := List.mem_filter.1 hx
  obtain ⟨h3, h4⟩ := mem_inEdges.1 h1
  exact N.one h h3 h4 ht (by simpa using h2)

theorem normal_ends (N : Net D g) {a b : Nat} (h : ⟨a, b, .normal⟩ ∈ g.edges) :
    ∃ x y, g.nodes[a]? = some x ∧ g.nodes[b]? = some y ∧ ties x y = true := N.tied.ends _ h rfl

theorem opOf_eq (N : Net D g) {op a : Nat} (h : ⟨op, a, .normal⟩ ∈ g.edges) : opOf g a = op := by
  unfold opOf
  refine srcOf_all (e := ⟨op, a, .normal⟩) (List.mem_filter.2 ⟨mem_inEdges.2 ⟨h, rfl⟩, by simp⟩) ?_
  intro x hx
  obtain ⟨h1, h2⟩ := List.mem_filter.1 hx
  obtain ⟨h3, h4⟩ := mem_inEdges.1 h1
  rw [N.one h h3 h4 rfl (by rw [of_decide_eq_true h2]; rfl)]

theorem parent_eq (N : Net D g) {e op : Nat} (h : ⟨e, op, .normal⟩ ∈ g.edges) (he : g.nodes[e]? = some .expr) : parent g op = e := by
  unfold parent
  refine srcOf_all (e := ⟨e, op, .normal⟩) (List.mem_filter.2 ⟨mem_inEdges.2 ⟨h, rfl⟩, ?_⟩) ?_
  · simp only [decide_eq_true_eq, true_and]; exact at'_iff.2 ⟨_, he, rfl⟩
  · intro x hx
    obtain ⟨h1, h2⟩ := List.mem_filter.1 hx
    obtain ⟨h3, h4⟩ := mem_inEdges.1 h1
    rw [N.one h h3 h4 rfl (by rw [(of_decide_eq_true h2).1]; rfl)]

theorem owner_eq (N : Net D g) {op d : Nat} {ty : Option String} (h : ⟨op, d, .keyed ty⟩ ∈ g.edges) : owner g d = op := by
  unfold owner
  refine srcOf_all (e := ⟨op, d, .keyed ty⟩) (List.mem_filter.2 ⟨mem_inEdges.2 ⟨h, rfl⟩, rfl⟩) ?_
  intro x hx
  obtain ⟨h1, h2⟩ := List.mem_filter.1 hx
  obtain ⟨h3, h4⟩ := mem_inEdges.1 h1
  rw [N.one h h3 h4 rfl (by cases hr : x.rel <;> rw [hr] at h2 <;> first | rfl | cases h2)]

/-- The operations are written in expressions. -/
theorem op_above (N : Net D g) {n : Nat} {f : String} (h : g.nodes[n]? = some (.op f)) :
    ∃ e, ⟨e, n, .normal⟩ ∈ g.edges ∧ g.nodes[e]? = some .expr := by
  have h0 : n ≠ 0 := by rintro rfl; rw [N.root] at h; cases h
  obtain ⟨e, he, rfl, _⟩ := N.incoming (getElem?_lt h) h0
  have hr := (N.inv.kind e he _ h).2 rfl
  obtain ⟨x, y, h1, h2, h3⟩ := N.tied.ends e he hr
  rw [h] at h2
  cases h2
  obtain ⟨a, b, r⟩ := e
  cases hr
  cases x <;> first | cases h3 | skip
  exact ⟨a, he, h1⟩

/-- Implementations belong to operations. -/
theorem cmd_above (N : Net D g) {n : Nat} {x : Exp.Node} (h : g.nodes[n]? = some x) (hx : x.isCmd = true) :
    ∃ op f im, ⟨op, n, .keyed im.ty⟩ ∈ g.edges ∧ im ∈ D.impls f ∧ g.nodes[op]? = some (.op f) ∧ x = cmdNode f im ∧ IsImpl g n f im := by
  have h0 : n ≠ 0 := by rintro rfl; rw [N.root] at h; cases h; cases hx
  obtain ⟨e, he, rfl, ht⟩ := N.incoming (getElem?_lt h) h0
  cases hr : e.rel with
  | term i => rw [hr] at ht; cases ht
  | normal => rw [(N.inv.kind e he _ h).1 hr] at hx; cases hx
  | keyed ty =>
    obtain ⟨f, im, h1, h2, h3, h4, h5⟩ := N.key_ends he hr
    rw [h] at h4
    cases h4
    refine ⟨e.src, f, im, ?_, h1, h3, rfl, h5⟩
    obtain ⟨a, b, r⟩ := e
    dsimp only at hr h2
    subst hr h2
    exact he

theorem below_def (N : Net D g) {d : Nat} {f : String} {t : Option String} (h : g.nodes[d]? = some (.defn f t)) :
    below g d = [d + 1] ∧ g.nodes[d + 1]? = some .expr := by
  obtain ⟨op, f', im, _, _, _, h1, h2⟩ := N.cmd_above h rfl
  unfold cmdNode at h1
  split at h1
  · cases h1
  · rename_i b hb
    obtain ⟨h3, h4⟩ := h2.2 b.1 b.2 hb
    refine ⟨h3, ?_⟩
    obtain ⟨ps, e⟩ := b
    cases e
    exact h4.1

/-- Nothing but a body leaves a definition. -/
theorem out_def (N : Net D g) {d : Nat} {f : String} {t : Option String} (h : g.nodes[d]? = some (.defn f t)) {e : Edge}
    (he : e ∈ g.edges) (hs : e.src = d) : e = ⟨d, d + 1, .normal⟩ := by
  cases hr : e.rel with
  | normal =>
    have hb := (N.below_def h).1
    have : e.dst ∈ below g d := mem_below.2 (by rw [← hs, ← hr]; exact he)
    rw [hb] at this
    obtain ⟨a, b, r⟩ := e
    dsimp only at hs hr this
    rw [hs, hr, List.mem_singleton.1 this]
  | keyed ty =>
    obtain ⟨_, _, _, _, h1, _⟩ := N.key_ends he hr
    rw [hs, h] at h1; cases h1
  | term i =>
    obtain ⟨op, ty, h1⟩ := N.tied.terms e he i hr
    have h2 := (N.inv.fed _ h1 ty rfl).1
    dsimp only at h2
    have h3 : e ∈ g.edges.filter (·.dst = e.dst) := List.mem_filter.2 ⟨he, by simp⟩
    rw [h2] at h3
    rcases (mem_cmdEdges h3).2.2.1 with h4 | h4
    · obtain ⟨_, _, _, _, h5, _⟩ := N.key_ends h1 rfl
      dsimp only at h5
      rw [← h4, hs, h] at h5; cases h5
    · have := (N.inv.kind _ h4 _ (by dsimp only; rw [hs]; exact h)).1 rfl
      cases this

theorem body_eq (N : Net D g) {d : Nat} {f : String} {t : Option String} (h : g.nodes[d]? = some (.defn f t)) : body g d = d + 1 := by
  have hm : (⟨d, d + 1, .normal⟩ : Edge) ∈ g.edges := mem_below.1 (by rw [(N.below_def h).1]; exact List.mem_singleton.2 rfl)
  unfold body
  rw [head_all (mem_outEdges.2 ⟨hm, rfl⟩) (fun x hx => N.out_def h (mem_outEdges.1 hx).1 (mem_outEdges.1 hx).2)]
  rfl

theorem below_nodup (N : Net D g) (n : Nat) : (below g n).Nodup := by
  unfold below
  have h : (g.edges.filter fun e => e.src = n ∧ e.rel = .normal) = (g.edges.filter (·.rel = .normal)).filter (·.src = n) := by
    rw [List.filter_filter]
    apply List.filter_congr
    intro e _
    simp
  rw [h]
  exact N.tied.once.sublist (List.filter_sublist.map _)

/-- The blocks of an expression are what is written below it. -/
theorem blocks_eq (N : Net D g) {e : Nat} (he : g.nodes[e]? = some .expr) : blocks g e = below g e := by
  unfold blocks below outEdges
  rw [← List.filter_reverse, ← List.map_reverse, List.reverse_reverse, List.filter_map, List.filter_filter]
  congr 1
  apply List.filter_congr
  rintro ⟨a, b, r⟩ hm
  dsimp only [Function.comp]
  by_cases ha : a = e
  · subst ha
    rw [Bool.eq_iff_iff]
    simp only [decide_true, Bool.and_true, true_and, decide_eq_true_eq]
    obtain ⟨x, hx⟩ := N.node (N.lt hm).2
    rw [at'_iff]
    constructor
    · rintro ⟨y, hy, ho⟩
      refine (N.inv.kind _ hm y hy).2 ?_
      obtain ⟨f, rfl⟩ := isOp_iff.1 ho
      rfl
    · intro hr
      obtain ⟨x, y, h1, h2, h3⟩ := N.tied.ends _ hm hr
      refine ⟨y, h2, ?_⟩
      dsimp only at h1
      rw [he] at h1
      cases h1
      cases y <;> first | rfl | cases h3
  · simp [ha]

theorem mem_blocks (_ : Net D g) {e op : Nat} : op ∈ blocks g e → ∃ f, g.nodes[op]? = some (.op f) := by
  intro h
  unfold blocks at h
  obtain ⟨_, h1⟩ := List.mem_filter.1 (List.mem_reverse.1 h)
  obtain ⟨x, h2, h3⟩ := at'_iff.1 h1
  obtain ⟨f, rfl⟩ := isOp_iff.1 h3
  exact ⟨f, h2⟩

/-- The arguments, or flags, of a block. -/
theorem terms_eq (N : Net D g) (op : Nat) (fl : Bool) :
    terms g op fl = [] ∨ (terms g op fl = (termsOf g op fl).take 256 ∧ impls g op ≠ []) := by
  unfold terms
  cases hc : impls g op with
  | nil => exact Or.inl rfl
  | cons e es =>
    right
    obtain ⟨h1, h2, ty, h3⟩ := mem_impls.1 (by rw [hc]; exact List.mem_cons_self : e ∈ impls g op)
    have : (⟨op, e.dst, .keyed ty⟩ : Edge) ∈ g.edges := by rw [← h2, ← h3]; exact h1
    refine ⟨?_, by simp⟩
    simp only [List.head?_cons, Option.bind_some, Verif.Exp.terms_received N.inv this fl, Option.getD_some]

theorem mem_terms (N : Net D g) {op a : Nat} {fl : Bool} (h : a ∈ terms g op fl) : a ∈ termsOf g op fl ∧ impls g op ≠ [] := by
  rcases N.terms_eq op fl with h1 | ⟨h1, h2⟩
  · rw [h1] at h; cases h
  · rw [h1] at h
    exact ⟨List.mem_of_mem_take h, h2⟩

theorem arg_edge (N : Net D g) {op a : Nat} {fl : Bool} (h : a ∈ terms g op fl) :
    ⟨op, a, .normal⟩ ∈ g.edges ∧ (∃ f, g.nodes[op]? = some (.op f)) ∧ ∃ x, g.nodes[a]? = some x ∧ x.isFlag = fl := by
  obtain ⟨h1, h2⟩ := N.mem_terms h
  refine ⟨mem_termsOf h1, ?_, termsOf_node N.inv.up h1⟩
  cases hc : impls g op with
  | nil => exact absurd hc h2
  | cons e es =>
    obtain ⟨h3, h4, ty, h5⟩ := mem_impls.1 (by rw [hc]; exact List.mem_cons_self : e ∈ impls g op)
    obtain ⟨f, _, _, _, h6, _⟩ := N.key_ends h3 h5
    rw [h4] at h6
    exact ⟨f, h6⟩

/-- An argument is a literal, a variable, `#i` or an expression. -/
theorem arg_node (N : Net D g) {op a : Nat} (h : a ∈ terms g op false) : ∃ x, g.nodes[a]? = some x ∧ isArg x = true := by
  obtain ⟨h1, ⟨f, h2⟩, x, h3, h4⟩ := N.arg_edge h
  refine ⟨x, h3, ?_⟩
  obtain ⟨y, z, h5, h6, h7⟩ := N.normal_ends h1
  rw [h2] at h5
  rw [h3] at h6
  cases h5
  cases h6
  cases x <;> first | rfl | (cases h4; done) | (cases h7; done)

theorem terms_nodup (N : Net D g) (op : Nat) (fl : Bool) : (terms g op fl).Nodup := by
  rcases N.terms_eq op fl with h1 | ⟨h1, _⟩
  · rw [h1]; exact List.nodup_nil
  · rw [h1]
    exact (N.below_nodup op).sublist ((List.take_sublist _ _).trans List.filter_sublist)

end Net

end Verif.Prog
