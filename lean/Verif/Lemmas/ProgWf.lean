import Verif.Lemmas.ProgGraph
import Verif.Spec.Prog
/-! C77: the syntax graph of a program is as the compiler needs it. -/
namespace Verif.Prog
open Verif Verif.Exp Verif.Comp
variable {D : Defs} {g : Graph}

theorem ShowsBs_mem : ∀ {bs : List Exp.Blk} {ms : List Nat}, ShowsBs g ms bs → ∀ m ∈ ms, ∃ b ∈ bs, ShowsB g m b
  | [], _, h, m, hm => by rw [show _ = [] from h] at hm; cases hm
  | b :: bs, _, ⟨m', ms', h1, h2, h3⟩, m, hm => by
    rw [h1] at hm
    rcases List.mem_cons.1 hm with e | hm
    · rw [e]; exact ⟨b, List.mem_cons_self, h2⟩
    · obtain ⟨b', h4, h5⟩ := ShowsBs_mem h3 m hm
      exact ⟨b', List.mem_cons_of_mem _ h4, h5⟩

theorem ShowsTs_mem : ∀ {ts : List Term} {ks : List Nat}, ShowsTs g ks ts → ∀ k ∈ ks, ∃ t ∈ ts, ShowsT g k t
  | [], _, h, m, hm => by rw [show _ = [] from h] at hm; cases hm
  | b :: bs, _, ⟨m', ms', h1, h2, h3⟩, m, hm => by
    rw [h1] at hm
    rcases List.mem_cons.1 hm with e | hm
    · rw [e]; exact ⟨b, List.mem_cons_self, h2⟩
    · obtain ⟨b', h4, h5⟩ := ShowsTs_mem h3 m hm
      exact ⟨b', List.mem_cons_of_mem _ h4, h5⟩

/-- Every expression in the graph is one that is written in the program or in a definition. -/
theorem Net.shown (N : Net D g) {e : Expr} (h0 : ShowsE g 0 e) : ∀ n, g.nodes[n]? = some .expr → ∃ x, Written D e x ∧ ShowsE g n x := by
  intro n
  induction n using Nat.strongRecOn with
  | _ n ih =>
    intro hn
    by_cases hz : n = 0
    · subst hz; exact ⟨e, .top, h0⟩
    · obtain ⟨ed, he, hd, _⟩ := N.incoming (getElem?_lt hn) hz
      have hr := (N.inv.kind ed he _ (by rw [hd]; exact hn)).2 rfl
      obtain ⟨a, b, r⟩ := ed
      dsimp only at hr hd
      subst hr hd
      have hlt := (N.lt he).1
      dsimp only at hlt
      obtain ⟨x, y, h1, h2, h3⟩ := N.normal_ends he
      rw [hn] at h2
      cases h2
      cases x with
      | op f =>
        obtain ⟨c, h4, h5⟩ := N.op_above h1
        have := (N.lt h4).1
        dsimp only at this
        obtain ⟨z, hz, hs⟩ := ih c (by omega) h5
        obtain ⟨o, bs⟩ := z
        obtain ⟨b', hb, hs2⟩ := ShowsBs_mem hs.2 a (mem_below.2 h4)
        obtain ⟨op, i, o', ts⟩ := b'
        obtain ⟨t, ht, hs3⟩ := ShowsTs_mem hs2.2 b (mem_below.2 he)
        cases t with
        | expr y => exact ⟨y, .arg hz hb ht, hs3⟩
        | flag f => rw [show g.nodes[b]? = _ from hs3] at hn; cases hn
        | plain f => rw [show g.nodes[b]? = _ from hs3] at hn; cases hn
        | pound f => rw [show g.nodes[b]? = _ from hs3] at hn; cases hn
      | defn f t =>
        obtain ⟨op, f', im, h4, h5, h6, h7, h8⟩ := N.cmd_above h1 rfl
        unfold cmdNode at h7
        split at h7
        · cases h7
        · rename_i bd hbd
          obtain ⟨h9, h10⟩ := h8.2 bd.1 bd.2 hbd
          have : b ∈ below g a := mem_below.2 he
          rw [h9] at this
          rw [List.mem_singleton.1 this]
          obtain ⟨c, k1, k2⟩ := N.op_above h6
          have l1 := (N.lt k1).1
          have l2 := (N.lt h4).1
          dsimp only at l1 l2
          obtain ⟨⟨o, bs⟩, hw, hs⟩ := ih c (by omega) k2
          obtain ⟨⟨op', i, o', ts⟩, hb, hs2⟩ := ShowsBs_mem hs.2 op (mem_below.2 k1)
          obtain ⟨f'', k3, k4⟩ := hs2.1
          rw [h6] at k4
          cases k4
          subst k3
          exact ⟨bd.2, .body hw hb ⟨im, h5, rfl, bd.1, hbd⟩, h10⟩
      | _ => cases h3

theorem Net.blocks_ne (N : Net D g) {e : Expr} (h0 : ShowsE g 0 e) (hf : Filled D e) {n : Nat} (hn : g.nodes[n]? = some .expr) :
    blocks g n ≠ [] := by
  rw [N.blocks_eq hn]
  obtain ⟨x, hx, hs⟩ := N.shown h0 n hn
  have := hf x hx
  obtain ⟨o, bs⟩ := x
  cases bs with
  | nil => exact absurd rfl this
  | cons b bs =>
    obtain ⟨m, ms, h1, _⟩ := hs.2
    rw [h1]; simp

/-! ### Places -/

theorem Net.place_fuel (N : Net D g) : ∀ (n k : Nat), n < k → placeOf g k n = placeOf g (n + 1) n := by
  intro n
  induction n using Nat.strongRecOn with
  | _ n ih =>
    intro k hk
    cases k with
    | zero => omega
    | succ k =>
      rw [placeOf, placeOf]
      split
      · rfl
      · rename_i h0
        cases ha : above g n with
        | none => rfl
        | some e =>
          dsimp only
          congr 1
          unfold above at ha
          have hm := List.mem_of_mem_head? (by rw [ha]; rfl : e ∈ List.head? _)
          obtain ⟨h1, h2⟩ := mem_inEdges.1 (List.mem_filter.1 hm).1
          have := N.lt h1
          rw [ih e.src (by omega) k (by omega), ih e.src (by omega) n (by omega)]

/-- Where a node is. -/
abbrev spot (g : Graph) (n : Nat) : Loc.Node := placeOf g (n + 1) n

theorem Net.spot_step (N : Net D g) {e : Edge} (h : e ∈ g.edges) (ht : isTerm e.rel = false) : spot g e.dst = mark g e :: spot g e.src := by
  have := N.lt h
  unfold spot
  rw [placeOf, if_neg (by omega), N.above_eq h ht]
  dsimp only
  rw [N.place_fuel e.src e.dst (by omega)]

theorem spot_zero : spot g 0 = [] := by
  unfold spot; rw [placeOf, if_pos rfl]

theorem Net.mark_blk (_ : Net D g) {e : Edge} (h : g.nodes[e.src]? = some .expr) : mark g e = .blk ((blocks g e.src).idxOf e.dst) := by
  unfold mark
  rw [if_pos (at'_iff.2 ⟨_, h, rfl⟩)]

theorem Net.mark_other (_ : Net D g) {e : Edge} {x : Exp.Node} (h : g.nodes[e.src]? = some x) (hx : isExpr x = false) :
    (mark g e = .arg e.dst ∧ (∃ f, x = .op f)) ∨ mark g e = .body e.dst := by
  unfold mark
  rw [if_neg (by rw [at'_iff]; rintro ⟨y, h1, h2⟩; rw [h] at h1; cases h1; rw [hx] at h2; cases h2)]
  split
  · rename_i h1
    simp only [Bool.and_eq_true] at h1
    obtain ⟨y, h2, h3⟩ := at'_iff.1 h1.1
    rw [h] at h2
    cases h2
    exact Or.inl ⟨rfl, isOp_iff.1 h3⟩
  · exact Or.inr rfl

/-- What is written below an expression are its blocks. -/
theorem Net.expr_block (N : Net D g) {e : Edge} (h : e ∈ g.edges) (ht : isTerm e.rel = false) (hs : g.nodes[e.src]? = some .expr) :
    e.dst ∈ blocks g e.src := by
  rw [N.blocks_eq hs, mem_below]
  cases hr : e.rel with
  | term i => rw [hr] at ht; cases ht
  | normal => rw [← hr]; exact h
  | keyed t =>
    obtain ⟨_, _, _, _, h1, _⟩ := N.key_ends h hr
    rw [hs] at h1; cases h1

theorem Net.spot_inj (N : Net D g) : ∀ n m, n < g.nodes.length → m < g.nodes.length → spot g n = spot g m → n = m := by
  intro n
  induction n using Nat.strongRecOn with
  | _ n ih =>
    intro m hn hm he
    by_cases hn0 : n = 0
    · by_cases hm0 : m = 0
      · rw [hn0, hm0]
      · obtain ⟨e, h1, rfl, h3⟩ := N.incoming hm hm0
        rw [hn0, spot_zero, N.spot_step h1 h3] at he
        cases he
    · obtain ⟨e, h1, rfl, h3⟩ := N.incoming hn hn0
      by_cases hm0 : m = 0
      · rw [hm0, spot_zero, N.spot_step h1 h3] at he
        cases he
      · obtain ⟨e', h1', rfl, h3'⟩ := N.incoming hm hm0
        rw [N.spot_step h1 h3, N.spot_step h1' h3'] at he
        injection he with hk hp
        have l1 := N.lt h1
        have l2 := N.lt h1'
        have hs := ih e.src l1.1 e'.src (by omega) (by omega) hp
        obtain ⟨x, hx⟩ := N.node (show e.src < g.nodes.length by omega)
        by_cases hxe : x = .expr
        · subst hxe
          rw [N.mark_blk hx, N.mark_blk (by rw [← hs]; exact hx)] at hk
          injection hk with hk
          have b1 := N.expr_block h1 h3 hx
          have b2 := N.expr_block h1' h3' (by rw [← hs]; exact hx)
          rw [← hs] at hk b2
          have g1 := List.getElem_idxOf (List.idxOf_lt_length_of_mem b1)
          have g2 := List.getElem_idxOf (List.idxOf_lt_length_of_mem b2)
          rw [← g1, ← g2]
          simp only [hk]
        · have hxf : isExpr x = false := by
            cases hb : isExpr x with
            | false => rfl
            | true => exact absurd (isExpr_iff.1 hb) hxe
          rcases N.mark_other hx hxf with ⟨k1, _⟩ | k1 <;>
            rcases N.mark_other (e := e') (by rw [← hs]; exact hx) hxf with ⟨k2, _⟩ | k2 <;>
            rw [k1, k2] at hk <;> injection hk

variable {T : Type} [DecidableEq T] {Y : Types T} {fn : String → Option String → Nat}

theorem places_len : (ast D Y fn g).places.length = g.nodes.length := by simp [ast]

theorem count_eq : (ast D Y fn g).count = g.nodes.length := places_len

theorem place_eq {n : Nat} (h : n < g.nodes.length) : (ast D Y fn g).place n = spot g n := by
  simp [Ast.place, ast, h, spot]

theorem mem_places {p : Loc.Node} : p ∈ (ast D Y fn g).places ↔ ∃ n, n < g.nodes.length ∧ spot g n = p := by
  simp [ast, spot]

theorem Net.places_nodup (N : Net D g) : (ast D Y fn g).places.Nodup := by
  show ((List.range g.nodes.length).map fun n => placeOf g (n + 1) n).Nodup
  unfold List.Nodup
  rw [List.pairwise_map]
  refine List.Pairwise.imp_of_mem ?_ (List.nodup_range (n := g.nodes.length))
  intro a b ha hb hab he
  exact hab (N.spot_inj a b (List.mem_range.1 ha) (List.mem_range.1 hb) he)

/-! ### Commands -/

theorem cmdAt_some {e : Edge} {k : Option T} {c : Cmd} (h : cmdAt Y fn g e = some (k, c)) :
    ∃ t, e.rel = .keyed t ∧ k = t.map Y.get ∧ ((∃ f ty, g.nodes[e.dst]? = some (.intrinsic f ty) ∧ c = .intrinsic (fn f ty)) ∨
      ∃ f ty, g.nodes[e.dst]? = some (.defn f ty) ∧ c = .defn e.dst) := by
  unfold cmdAt at h
  split at h
  · rename_i h1 h2; cases h; exact ⟨_, h1, rfl, Or.inl ⟨_, _, h2, rfl⟩⟩
  · rename_i h1 h2; cases h; exact ⟨_, h1, rfl, Or.inr ⟨_, _, h2, rfl⟩⟩
  · cases h

theorem mem_cmds {op : Nat} {k : Option T} {c : Cmd} (h : (k, c) ∈ (ast D Y fn g).cmds op) :
    ∃ t n, ⟨op, n, .keyed t⟩ ∈ g.edges ∧ k = t.map Y.get ∧ ((∃ f ty, g.nodes[n]? = some (.intrinsic f ty) ∧ c = .intrinsic (fn f ty)) ∨
      ∃ f ty, g.nodes[n]? = some (.defn f ty) ∧ c = .defn n) := by
  obtain ⟨e, h1, h2⟩ := List.mem_filterMap.1 h
  obtain ⟨h3, h4, _⟩ := mem_impls.1 h1
  obtain ⟨t, h5, h6, h7⟩ := cmdAt_some h2
  refine ⟨t, e.dst, ?_, h6, h7⟩
  rw [← h4, ← h5]; exact h3

theorem mem_defs {d : Nat} (h : d ∈ (ast D Y fn g).defs) : ∃ op t f ty, ⟨op, d, .keyed t⟩ ∈ g.edges ∧ g.nodes[d]? = some (.defn f ty) := by
  obtain ⟨⟨k, c⟩, h1, h2⟩ := List.mem_filterMap.1 h
  obtain ⟨op, _, h3⟩ := List.mem_flatMap.1 h1
  obtain ⟨t, n, h4, _, h5⟩ := mem_cmds h3
  rcases h5 with ⟨f, ty, h6, rfl⟩ | ⟨f, ty, h6, rfl⟩
  · cases h2
  · cases h2; exact ⟨op, t, f, ty, h4, h6⟩

theorem Net.mem_bodies (N : Net D g) {b : Nat} (h : b ∈ (ast D Y fn g).bodies) :
    ∃ d f ty, b = d + 1 ∧ g.nodes[d]? = some (.defn f ty) ∧ ⟨d, d + 1, .normal⟩ ∈ g.edges ∧ g.nodes[d + 1]? = some .expr := by
  obtain ⟨d, h1, rfl⟩ := List.mem_map.1 h
  obtain ⟨_, _, f, ty, _, h2⟩ := mem_defs h1
  obtain ⟨h3, h4⟩ := N.below_def h2
  exact ⟨d, f, ty, N.body_eq h2, h2, mem_below.1 (by rw [h3]; exact List.mem_singleton.2 rfl), h4⟩

theorem var_eq {n : Nat} {v : String} (h : (ast D Y fn g).var n = some v) : g.nodes[n]? = some (.arg (.var v)) := by
  show g.nodes[n]? = _
  have h' : (match g.nodes[n]? with
    | some (.arg (.var x)) => some x
    | _ => none) = some v := h
  split at h'
  · rename_i hx; cases h'; exact hx
  · cases h'

/-- The names of the variables and parameters of a program. -/
def graphNames (D : Defs) (g : Graph) : List String :=
  g.nodes.flatMap fun x => match x with
    | .arg (.var v) => [v]
    | .defn f ty => (paramsOf D f ty).map (·.name)
    | _ => []

theorem Net.wf (N : Net D g) {e : Expr} (h0 : ShowsE g 0 e) (hf : Filled D e) {names : List String} (hn : ∀ x ∈ graphNames D g, x ∈ names) :
    Ast.Wf (ast D Y fn g) names where
  places := N.places_nodup
  ops_lt op h := by
    rw [count_eq]
    obtain ⟨x, h1, _⟩ := mem_numbered.1 h
    exact getElem?_lt h1
  ops_nodup := List.Pairwise.filter _ List.nodup_range
  exprs_lt e h := by
    rw [count_eq]
    obtain ⟨x, h1, _⟩ := mem_numbered.1 h
    exact getElem?_lt h1
  arg_lt op a h := by
    rw [count_eq]
    exact (N.lt (N.arg_edge h).1).2
  arg_op op a h := N.opOf_eq (N.arg_edge h).1
  arg_not_op op a h ho := by
    obtain ⟨x, h1, h2⟩ := N.arg_node h
    obtain ⟨y, h3, h4⟩ := mem_numbered.1 ho
    rw [h1] at h3
    cases h3
    obtain ⟨f, rfl⟩ := isOp_iff.1 h4
    cases h2
  arg_not_body op a h hb := by
    obtain ⟨d, f, ty, rfl, h1, h2, h3⟩ := N.mem_bodies hb
    obtain ⟨h4, ⟨f', h5⟩, _⟩ := N.arg_edge h
    have := N.one h2 h4 rfl rfl rfl
    injection this with h6
    rw [h6, h1] at h5
    cases h5
  body_lt b h := by
    rw [count_eq]
    obtain ⟨d, f, ty, rfl, h1, h2, h3⟩ := N.mem_bodies h
    exact getElem?_lt h3
  owner op _ c hc d hd := by
    obtain ⟨k, c⟩ := c
    dsimp only at hd
    obtain ⟨t, n, h1, _, h2⟩ := mem_cmds hc
    rcases h2 with ⟨f, ty, _, h3⟩ | ⟨f, ty, _, h3⟩
    · rw [hd] at h3; cases h3
    · rw [hd] at h3; cases h3; exact N.owner_eq h1
  block_op e op h := by
    obtain ⟨f, h1⟩ := N.mem_blocks h
    exact mem_numbered.2 ⟨_, h1, rfl⟩
  parent op h := by
    obtain ⟨x, h1, h2⟩ := mem_numbered.1 h
    obtain ⟨f, rfl⟩ := isOp_iff.1 h2
    obtain ⟨e, h3, h4⟩ := N.op_above h1
    show parent g op ∈ _
    rw [N.parent_eq h3 h4]
    exact mem_numbered.2 ⟨_, h4, rfl⟩
  blocks e h := by
    obtain ⟨x, h1, h2⟩ := mem_numbered.1 h
    rw [isExpr_iff.1 h2] at h1
    exact N.blocks_ne h0 hf h1
  lit_expr n h he := by
    obtain ⟨x, h1, h2⟩ := mem_numbered.1 h
    obtain ⟨y, h3, h4⟩ := mem_numbered.1 he
    rw [h1] at h3
    cases h3
    rw [isExpr_iff.1 h4] at h2
    cases h2
  lit_op n h he := by
    obtain ⟨x, h1, h2⟩ := mem_numbered.1 h
    obtain ⟨y, h3, h4⟩ := mem_numbered.1 he
    rw [h1] at h3
    cases h3
    obtain ⟨f, rfl⟩ := isOp_iff.1 h4
    cases h2
  lit_def d hd h := by
    obtain ⟨x, h1, h2⟩ := mem_numbered.1 h
    obtain ⟨_, _, f, ty, _, h3⟩ := mem_defs hd
    rw [h1] at h3
    cases h3
    cases h2
  var_lit n v h := mem_numbered.2 ⟨_, var_eq h, rfl⟩
  var_name n v h := by
    refine hn _ (List.mem_flatMap.2 ⟨_, List.mem_of_getElem? (var_eq h), ?_⟩)
    exact List.mem_singleton.2 rfl
  param_name d p h := by
    have h' : p ∈ paramsAt D Y g d := h
    unfold paramsAt at h'
    split at h'
    · rename_i f ty hx
      obtain ⟨q, h1, rfl⟩ := List.mem_map.1 h'
      exact hn _ (List.mem_flatMap.2 ⟨_, List.mem_of_getElem? hx, List.mem_map.2 ⟨q, h1, rfl⟩⟩)
    · cases h'
  op_not_body op h hb := by
    obtain ⟨d, f, ty, rfl, h1, h2, h3⟩ := N.mem_bodies hb
    obtain ⟨x, h4, h5⟩ := mem_numbered.1 h
    rw [h3] at h4
    cases h4
    cases h5
  body_inj d hd d' hd' he := by
    obtain ⟨_, _, f, ty, _, h1⟩ := mem_defs hd
    obtain ⟨_, _, f', ty', _, h2⟩ := mem_defs hd'
    have h3 : body g d = body g d' := he
    rw [N.body_eq h1, N.body_eq h2] at h3
    omega
  arg_place op a h := by
    obtain ⟨h1, ⟨f, h2⟩, _⟩ := N.arg_edge h
    obtain ⟨x, h3, h4⟩ := N.arg_node h
    have hl := N.lt h1
    dsimp only at hl
    refine ⟨a, ?_⟩
    rw [place_eq hl.2, place_eq (by omega), show spot g a = _ from N.spot_step h1 rfl]
    congr 1
    unfold mark
    rw [if_neg (by rw [at'_iff]; rintro ⟨y, h5, h6⟩; dsimp only at h5; rw [h2] at h5; cases h5; cases h6), if_pos]
    rw [Bool.and_eq_true, at'_iff, at'_iff]
    exact ⟨⟨_, h2, rfl⟩, _, h3, h4⟩

end Verif.Prog
