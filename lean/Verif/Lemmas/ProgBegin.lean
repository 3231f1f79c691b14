import Verif.Lemmas.ProgStart
import Verif.Lemmas.EvalLib
/-! C77: what evaluation needs. -/
namespace Verif.Prog
open Verif Verif.Exp Verif.Comp
variable {D : Defs} {g : Graph} {T V : Type} [DecidableEq T] {Y : Types T} {fn : String → Option String → Nat}

/-- The blocks of an expression are where they should be. -/
theorem Net.spot_block (N : Net D g) {e j op : Nat} (he : g.nodes[e]? = some .expr) (hj : (blocks g e)[j]? = some op) :
    spot g op = .blk j :: spot g e ∧ op < g.nodes.length := by
  have hm : op ∈ blocks g e := List.mem_of_getElem? hj
  have hn : (blocks g e).Nodup := by rw [N.blocks_eq he]; exact N.below_nodup e
  rw [N.blocks_eq he] at hm
  have hed := mem_below.1 hm
  refine ⟨?_, (N.lt hed).2⟩
  rw [show spot g op = _ from N.spot_step hed rfl, N.mark_blk (e := ⟨e, op, .normal⟩) he]
  congr 2
  obtain ⟨hlt, h1⟩ := List.getElem?_eq_some_iff.1 hj
  show (blocks g e).idxOf op = j
  rw [← h1]
  exact hn.idxOf_getElem j hlt

/-- A node whose place ends with an argument is below a block. -/
theorem Net.place_cases (N : Net D g) {n : Nat} (hn : n < g.nodes.length) : n = 0 ∨
    (∃ e j, g.nodes[e]? = some .expr ∧ (blocks g e)[j]? = some n ∧ spot g n = .blk j :: spot g e) ∨
    (∃ op f, g.nodes[op]? = some (.op f) ∧ spot g n = .arg n :: spot g op) ∨ ∃ p, spot g n = .body n :: p := by
  by_cases h0 : n = 0
  · exact Or.inl h0
  · right
    obtain ⟨e, he, rfl, ht⟩ := N.incoming hn h0
    have hs := N.spot_step he ht
    obtain ⟨x, hx⟩ := N.node (show e.src < g.nodes.length by have := N.lt he; omega)
    by_cases hxe : x = .expr
    · subst hxe
      left
      have hb := N.expr_block he ht hx
      have hlt := List.idxOf_lt_length_of_mem hb
      refine ⟨e.src, (blocks g e.src).idxOf e.dst, hx, ?_, ?_⟩
      · rw [List.getElem?_eq_getElem hlt, List.getElem_idxOf hlt]
      · rw [hs, N.mark_blk hx]
    · have hxf : isExpr x = false := by
        cases hb : isExpr x with
        | false => rfl
        | true => exact absurd (isExpr_iff.1 hb) hxe
      rcases N.mark_other hx hxf with ⟨h1, f, rfl⟩ | h1
      · right; left
        exact ⟨e.src, f, hx, by rw [hs, h1]⟩
      · right; right
        exact ⟨_, by rw [hs, h1]⟩

/-- What `op` is written as. -/
theorem Net.op_shown (N : Net D g) {e : Expr} (h0 : ShowsE g 0 e) {op : Nat} {f : String} (ho : g.nodes[op]? = some (.op f)) :
    ∃ x i o ts, Written D e x ∧ .mk (some f) i o ts ∈ x.blks ∧ ShowsTs g (below g op) ts := by
  obtain ⟨c, h1, h2⟩ := N.op_above ho
  obtain ⟨⟨o, bs⟩, hw, hs⟩ := N.shown h0 c h2
  obtain ⟨⟨op', i, o', ts⟩, hb, hs2⟩ := ShowsBs_mem hs.2 op (mem_below.2 h1)
  obtain ⟨f', h3, h4⟩ := hs2.1
  rw [ho] at h4
  cases h4
  subst h3
  exact ⟨_, i, o', ts, hw, hb, hs2.2⟩

theorem Net.params_plain (N : Net D g) {e : Expr} (h0 : ShowsE g 0 e) (hD : Simple D e) {d : Nat} (h : d ∈ (ast D Y fn g).defs) :
    (∀ p ∈ (ast D Y fn g).params d, p.2 ≠ .expr) ∧ (((ast D Y fn g).params d).map (·.1)).Nodup ∧ ((ast D Y fn g).params d).length ≤ 256 := by
  obtain ⟨_, _, f, ty, _, h1⟩ := mem_defs h
  have hc : Calls D e f := by
    obtain ⟨op, f', im, _, _, h4, h7, _⟩ := N.cmd_above h1 rfl
    obtain ⟨x, i, o, ts, k1, k2, _⟩ := N.op_shown h0 h4
    have : f' = f := by
      unfold cmdNode at h7
      split at h7 <;> cases h7
      rfl
    subst this
    exact ⟨x, i, o, ts, k1, k2⟩
  have he : (ast D Y fn g).params d = (paramsOf D f ty).map fun p => (p.name, paramTy Y p.ty) := by
    show paramsAt D Y g d = _
    unfold paramsAt
    rw [h1]
  have hp : (∀ p ∈ paramsOf D f ty, p.ty ≠ some "Expr") ∧ ((paramsOf D f ty).map (·.name)).Nodup ∧ (paramsOf D f ty).length ≤ 256 := by
    unfold paramsOf
    split
    · rename_i ty' ps b hf
      have hm := List.mem_of_find?_eq_some hf
      exact hD f hc _ hm ps b rfl
    · exact ⟨by simp, by simp, by simp⟩
  obtain ⟨p1, p2, p3⟩ := hp
  rw [he]
  refine ⟨?_, ?_, by simpa using p3⟩
  · intro p hp
    obtain ⟨q, h2, rfl⟩ := List.mem_map.1 hp
    have := p1 q h2
    unfold paramTy
    cases hq : q.ty with
    | none => simp
    | some t =>
      rw [hq] at this
      have ht : t ≠ "Expr" := fun h => this (by rw [h])
      simp [ht]
  · rw [List.map_map]
    exact p2

/-- Where the nodes are. -/
theorem Net.placed (N : Net D g) {e : Expr} (h0 : ShowsE g 0 e) (hD : Simple D e) : (ast D Y fn g).Placed where
  closed n hn p hp := by
    obtain ⟨m, hm, rfl⟩ := mem_places.1 hn
    rcases N.place_cases hm with rfl | ⟨e, j, he, hj, hs⟩ | ⟨op, f, ho, hs⟩ | ⟨q, hs⟩
    · rw [spot_zero] at hp; cases hp
    · rw [hs] at hp
      cases j with
      | zero =>
        cases hp
        exact mem_places.2 ⟨e, getElem?_lt he, rfl⟩
      | succ j =>
        cases hp
        obtain ⟨hlt, _⟩ := List.getElem?_eq_some_iff.1 hj
        have hj' : (blocks g e)[j]? = some (blocks g e)[j] := List.getElem?_eq_getElem (by omega)
        obtain ⟨h1, h2⟩ := N.spot_block he hj'
        exact mem_places.2 ⟨_, h2, h1⟩
    · rw [hs] at hp
      cases hp
      exact mem_places.2 ⟨op, getElem?_lt ho, rfl⟩
    · rw [hs] at hp; cases hp
  args i q hq := by
    obtain ⟨m, hm, hs'⟩ := mem_places.1 hq
    rcases N.place_cases hm with rfl | ⟨e, j, he, hj, hs⟩ | ⟨op, f, ho, hs⟩ | ⟨p, hs⟩
    · rw [spot_zero] at hs'; cases hs'
    · rw [hs] at hs'; cases hs'
    · rw [hs] at hs'
      injection hs' with _ h2
      obtain ⟨e, h3, h4⟩ := N.op_above ho
      rw [← h2, show spot g op = _ from N.spot_step h3 rfl, N.mark_blk (e := ⟨e, op, .normal⟩) h4]
      exact ⟨_, _, rfl⟩
    · rw [hs] at hs'; cases hs'
  blk e he j op hj := by
    obtain ⟨x, h1, h2⟩ := mem_numbered.1 he
    rw [isExpr_iff.1 h2] at h1
    obtain ⟨h3, h4⟩ := N.spot_block h1 hj
    rw [place_eq h4, place_eq (getElem?_lt h1), h3]
  parent op ho := by
    obtain ⟨x, h1, h2⟩ := mem_numbered.1 ho
    obtain ⟨f, rfl⟩ := isOp_iff.1 h2
    obtain ⟨e, h3, h4⟩ := N.op_above h1
    show op ∈ blocks g (parent g op)
    rw [N.parent_eq h3 h4, N.blocks_eq h4]
    exact mem_below.2 h3
  body d hd := by
    obtain ⟨_, _, f, ty, _, h1⟩ := mem_defs hd
    obtain ⟨h2, h3⟩ := N.below_def h1
    have he : (⟨d, d + 1, .normal⟩ : Edge) ∈ g.edges := mem_below.1 (by rw [h2]; exact List.mem_singleton.2 rfl)
    refine ⟨d + 1, spot g d, ?_⟩
    show (ast D Y fn g).place (body g d) = _
    rw [N.body_eq h1, place_eq (getElem?_lt h3), show spot g (d + 1) = _ from N.spot_step he rfl]
    rcases N.mark_other (e := ⟨d, d + 1, .normal⟩) h1 rfl with ⟨_, f', h4⟩ | h4
    · cases h4
    · rw [h4]
  values d hd := (N.params_plain h0 hD hd).1
  names d hd := (N.params_plain h0 hD hd).2.1
  few d hd := (N.params_plain h0 hD hd).2.2

/-- What is written as an argument. -/
theorem Net.pound_known (N : Net D g) {n : Nat} {c : Char} (h : g.nodes[n]? = some (.pound c)) : c ∈ ['n', 't', 'f', 'b', 'i'] := by
  have h0 : n ≠ 0 := by rintro rfl; rw [N.root] at h; cases h
  obtain ⟨e, he, rfl, _⟩ := N.incoming (getElem?_lt h) h0
  have hr := (N.inv.kind e he _ h).2 rfl
  obtain ⟨x, y, h1, h2, h3⟩ := N.tied.ends e he hr
  rw [h] at h2
  cases h2
  cases x <;> first | (cases h3; done) | exact of_decide_eq_true h3

/-- The types of literals are known. -/
theorem Net.leaf_known (N : Net D g) {n : Nat} (h : n ∈ (ast D Y fn g).lits) (hv : (ast D Y fn g).var n = none) :
    ∃ x t, g.nodes[n]? = some x ∧ leafTy Y x = some t := by
  obtain ⟨x, h1, h2⟩ := mem_numbered.1 h
  have hv' : (match g.nodes[n]? with
    | some (.arg (.var x)) => some x
    | _ => none) = none := hv
  rw [h1] at hv'
  refine ⟨x, ?_⟩
  cases x with
  | arg w =>
    cases w with
    | ident x => exact ⟨_, h1, rfl⟩
    | num x => exact ⟨_, h1, rfl⟩
    | var x => cases hv'
  | pound c =>
    have hc := N.pound_known h1
    have hi : c ≠ 'i' := of_decide_eq_true h2
    simp only [List.mem_cons, List.not_mem_nil, or_false] at hc
    rcases hc with rfl | rfl | rfl | rfl | rfl
    · exact ⟨_, h1, rfl⟩
    · exact ⟨_, h1, rfl⟩
    · exact ⟨_, h1, rfl⟩
    · exact ⟨_, h1, rfl⟩
    · exact absurd rfl hi
  | _ => cases h2

/-- What evaluation needs of the beginning. -/
theorem Net.begun (N : Net D g) {E : Exec T V} {root : T} {seeds : List (String × T)} {notes : List (Note T)} {s : S T}
    (h : begins (ast D Y fn g) Y g root seeds notes = .ok s) (hE : ∀ n x t, g.nodes[n]? = some x → leafTy Y x = some t → E.ty (E.lit n) = t) :
    Begun (ast D Y fn g) E (seeds.map (·.1)) s := by
  obtain ⟨hn, hs⟩ := begins_noted h
  have ha := typeGraph_add (g := g) (Y := Y) (ast D Y fn g) root
  refine ⟨by rw [hs]; rfl, by rw [hs]; simp [start], by rw [hs]; rfl, by rw [hs]; rfl, ?_, ?_⟩
  · intro op _ a harg hl he
    obtain ⟨x, h1, h2⟩ := N.arg_node harg
    have hx : x = .pound 'i' := by
      cases x with
      | expr => exact absurd (mem_numbered.2 ⟨_, h1, rfl⟩) he
      | arg w => exact absurd (mem_numbered.2 ⟨_, h1, rfl⟩) hl
      | pound c =>
        by_cases hc : c = 'i'
        · rw [hc]
        · exact absurd (mem_numbered.2 ⟨_, h1, by simp [isLit, hc]⟩) hl
      | _ => cases h2
    subst hx
    obtain ⟨k1, k2⟩ := flow_input h1
    rw [N.opOf_eq (N.arg_edge harg).1] at k1 k2
    rw [hn.edges]
    exact ⟨ha.mono _ k1, ha.mono _ k2⟩
  · intro n hl hv
    obtain ⟨x, t, h1, h2⟩ := N.leaf_known hl hv
    rw [hE n x t h1 h2]
    refine hn.settled _ _ _ ?_
    rw [ha.kn]
    exact Or.inl (known_leaf (root := root) h1 h2)

/-! ### `let` -/

/-- The nodes are these terms. -/
inductive Listed (g : Graph) : List Nat → List Term → Prop
  | nil : Listed g [] []
  | cons {k : Nat} {ks : List Nat} {t : Term} {ts : List Term} : ShowsT g k t → Listed g ks ts → Listed g (k :: ks) (t :: ts)

theorem listed : ∀ {ts : List Term} {ks : List Nat}, ShowsTs g ks ts → Listed g ks ts
  | [], _, h => by rw [show _ = [] from h]; exact .nil
  | _ :: _, _, ⟨_, _, h1, h2, h3⟩ => by rw [h1]; exact .cons h2 (listed h3)

theorem shown_flag {k : Nat} {t : Term} (h : ShowsT g k t) : (match g.nodes[k]? with
      | some x => x.isFlag
      | none => false) = isFlag t := by
  cases t with
  | expr e => obtain ⟨o, bs⟩ := e; rw [show g.nodes[k]? = _ from h.1]; rfl
  | _ => rw [show g.nodes[k]? = _ from h]; rfl

theorem Listed.plain {ks : List Nat} {ts : List Term} (h : Listed g ks ts) :
    Listed g (ks.filter fun n => (match g.nodes[n]? with
      | some x => x.isFlag
      | none => false) == false) (ts.filter fun t => !isFlag t) := by
  induction h with
  | nil => exact .nil
  | @cons k ks t ts h1 h2 ih =>
    have := shown_flag h1
    simp only [List.filter_cons]
    rw [this]
    cases isFlag t with
    | true => exact ih
    | false => exact .cons h1 ih

theorem Listed.take {ks : List Nat} {ts : List Term} (h : Listed g ks ts) : ∀ n, Listed g (ks.take n) (ts.take n) := by
  induction h with
  | nil => intro n; simpa using Listed.nil
  | cons h1 h2 ih =>
    intro n
    cases n with
    | zero => exact .nil
    | succ n => exact .cons h1 (ih n)

theorem letNames_take : ∀ (n : Nat) (ts : List Term), (letNames (ts.take (2 * n))).Sublist (letNames ts) := by
  intro n
  induction n with
  | zero => intro ts; simpa [letNames] using List.nil_sublist _
  | succ n ih =>
    intro ts
    match ts with
    | [] => simp
    | [b] => simp [show 2 * (n + 1) = 2 * n + 1 + 1 by omega]
    | a :: b :: ts =>
      rw [show 2 * (n + 1) = 2 * n + 1 + 1 by omega, List.take_succ_cons, List.take_succ_cons, letNames, letNames]
      exact (List.Sublist.refl _).append (ih ts)

theorem shown_var {k : Nat} {t : Term} {v : String} (h : ShowsT g k t) (hv : (ast D Y fn g).var k = some v) : varName t = [v] := by
  have h1 := var_eq hv
  cases t with
  | expr e => obtain ⟨o, bs⟩ := e; rw [show g.nodes[k]? = _ from h.1] at h1; cases h1
  | plain w => rw [show g.nodes[k]? = _ from h] at h1; cases h1; rfl
  | _ => rw [show g.nodes[k]? = _ from h] at h1; cases h1

theorem binders_mem_names {v : String} : ∀ {ks : List Nat} {ts : List Term}, Listed g ks ts → ∀ b ∈ binders ks, (ast D Y fn g).var b = some v →
    v ∈ letNames ts
  | _, _, .nil, b, hb, _ => by cases hb
  | _, _, .cons h1 .nil, b, hb, hv => by
    rw [binders, List.mem_singleton] at hb
    subst hb
    rw [letNames, shown_var h1 hv]; exact List.mem_singleton.2 rfl
  | _, _, .cons _ (.cons h1 h2), b, hb, hv => by
    rw [binders] at hb
    rw [letNames, List.mem_append]
    rcases List.mem_cons.1 hb with rfl | hb
    · left; rw [shown_var h1 hv]; exact List.mem_singleton.2 rfl
    · right; exact binders_mem_names h2 b hb hv

theorem binders_differ {v : String} : ∀ {ks : List Nat} {ts : List Term}, Listed g ks ts → (letNames ts).Nodup → ∀ b ∈ binders ks, ∀ b' ∈ binders ks,
    (ast D Y fn g).var b = some v → (ast D Y fn g).var b' = some v → b = b'
  | _, _, .nil, _, b, hb, _, _, _, _ => by cases hb
  | _, _, .cons h1 .nil, _, b, hb, b', hb', _, _ => by
    rw [binders, List.mem_singleton] at hb hb'
    rw [hb, hb']
  | _, _, .cons _ (.cons h1 h2), hn, b, hb, b', hb', hv, hv' => by
    rw [binders] at hb hb'
    rw [letNames] at hn
    obtain ⟨_, n2, n3⟩ := List.nodup_append.1 hn
    rcases List.mem_cons.1 hb with rfl | hc
    · rcases List.mem_cons.1 hb' with rfl | hb'
      · rfl
      · exact absurd rfl (n3 v (by rw [shown_var h1 hv]; exact List.mem_singleton.2 rfl) v (binders_mem_names h2 b' hb' hv'))
    · rcases List.mem_cons.1 hb' with rfl | hb'
      · exact absurd rfl (n3 v (by rw [shown_var h1 hv']; exact List.mem_singleton.2 rfl) v (binders_mem_names h2 b hc hv))
      · exact binders_differ h2 n2 b hc b' hb' hv hv'

/-- The command of an implementation. -/
theorem Net.impl_op (N : Net D g) {op i : Nat} {t : T} (h : (ast D Y fn g).getImpl op t = some (.intrinsic i)) :
    ∃ f ty, g.nodes[op]? = some (.op f) ∧ fn f ty = i ∧ ∀ n, ty = some n → t = Y.get n := by
  obtain ⟨⟨k, c⟩, hc, e, hk⟩ : ∃ c ∈ (ast D Y fn g).cmds op, c.2 = .intrinsic i ∧ (c.1 = some t ∨ c.1 = none) := by
    unfold Ast.getImpl at h
    split at h
    · rename_i c hc; exact ⟨c, List.mem_of_find?_eq_some hc, by simpa using h, .inl (by simpa using List.find?_some hc)⟩
    · obtain ⟨c, hc, e⟩ := Option.map_eq_some_iff.1 h
      exact ⟨c, List.mem_of_find?_eq_some hc, e, .inr (by simpa using List.find?_some hc)⟩
  dsimp only at e hk
  obtain ⟨t', n, h1, hkt, h2⟩ := mem_cmds hc
  obtain ⟨f, im, _, hty, h3, h4, _⟩ := N.key_ends h1 rfl
  dsimp only at h3 h4
  rcases h2 with ⟨f', ty', h5, h6⟩ | ⟨f', ty', h5, h6⟩
  · rw [h6] at e
    injection e with e
    rw [h5] at h4
    unfold cmdNode at h4
    split at h4
    · cases h4
      refine ⟨f, _, h3, e, fun m hm => ?_⟩
      rw [hty] at hm
      rw [hkt, hm] at hk
      rcases hk with hk | hk
      · injection hk with hk; exact hk.symm
      · cases hk
    · cases h4
  · rw [h6] at e; cases e

theorem Net.tidy {Y : Types Tp} (N : Net D g) {e : Expr} (h0 : ShowsE g 0 e) (hfn : ∀ f ty, fn f ty = 5 → f = "let") (hl : LetsDiffer D e "let") :
    (ast D Y fn g).Tidy where
  args op := N.terms_nodup op false
  lets op _ t hg b hb b' hb' v hv hv' := by
    obtain ⟨f, ty, h1, h2, _⟩ := N.impl_op hg
    rw [hfn f ty h2] at h1
    obtain ⟨x, i, o, ts, h3, h4, h5⟩ := N.op_shown h0 h1
    have hn := hl x h3 i o ts h4
    have hL : Listed g (termsOf g op false) (ts.filter fun t => !isFlag t) := (listed h5).plain
    have hb1 : b ∈ binders (terms g op false) := hb
    have hb1' : b' ∈ binders (terms g op false) := hb'
    rcases N.terms_eq op false with h6 | ⟨h6, _⟩
    · rw [h6] at hb1; cases hb1
    · rw [h6] at hb1 hb1'
      exact binders_differ (hL.take 256) (hn.sublist (letNames_take 128 _)) b hb1 b' hb1' hv hv'

end Verif.Prog
