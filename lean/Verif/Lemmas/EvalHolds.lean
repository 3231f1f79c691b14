import Verif.Lemmas.EvalVars
/-! What a block holds when it is compiled. -/
namespace Verif.Comp
open Verif
set_option linter.unusedSectionVars false
variable {T V : Type} [DecidableEq T]

section
variable {A : Ast T} {s : S T} {D : List Scope.DefAt}

/-! ### Variables -/

theorem varThere_mem {name : String} {t : T} {n : Nat} {x : Variable T} (h : x ∈ varThere A s name t n) :
    ∃ slot, x.site = some (n, slot) ∧ variableAt A s name n = some (slot, x.ty) ∧ x.want = t := by
  unfold varThere at h
  cases hv : variableAt A s name n with
  | none => rw [hv] at h; cases h
  | some y =>
    rw [hv] at h
    simp only [Option.map_some, Option.toList_some, List.mem_singleton] at h
    subst h
    exact ⟨y.1, rfl, rfl, rfl⟩

theorem newVar_there (hl : Locs A s D) {name : String} {t : T} {n : Nat} (h : newVar A s name t n = .ok none) :
    ∃ slot u, variableAt A s name n = some (slot, u) := by
  unfold newVar at h
  split at h
  · cases h
  · rename_i slot hv
    obtain ⟨u, hu⟩ := hl.present hv
    exact ⟨slot, u, hu⟩
  · cases h

/-- A variable that a command gets is one it asks for. -/
def Asked (A : Ast T) (s : S T) (op : Nat) (L : List (Nat × String × T)) (x : Variable T) : Prop :=
  (x.site = none ∧ x.ty = x.want) ∨
  ∃ n name slot, x.site = some (n, slot) ∧ variableAt A s name n = some (slot, x.ty) ∧ (n, name, x.want) ∈ L ∧ Near A op n

def Got (A : Ast T) (s : S T) (L : List (Variable T)) (y : Nat × String × T) : Prop :=
  ∃ slot u, variableAt A s y.2.1 y.1 = some (slot, u) ∧ ∃ x ∈ L, x.site = some (y.1, slot)

theorem need_ok {r r' : Run T} {x : Except Err (Option (Chg T))} (h : r.need x = (r', none)) : x = .ok none := by
  unfold Run.need at h
  split at h <;> first | rfl | cases h

theorem varThere_got {name : String} {t : T} {n slot : Nat} {u : T} (h : variableAt A s name n = some (slot, u)) :
    Got A s (varThere A s name t n) (n, name, t) :=
  ⟨slot, u, h, ⟨some (n, slot), u, t⟩, by simp [varThere, h], rfl⟩

theorem madeVar_spec {names : List String} (hw : A.Wf names) (hl : Locs A s D) {op : Nat} {r r' : Run T} {n : Option Nat} (hwh : Where A op r n)
    {q : Req T} (h : request A s op r q = (r', none)) :
    (∀ x ∈ madeVar A s r q, Asked A s op (introduces1 A op r.args n q) x) ∧
    ∀ y ∈ introduces1 A op r.args n q, Got A s (madeVar A s r q) y := by
  cases q with
  | createVar t =>
    simp only [request] at h
    split at h
    · cases h
    · rename_i a ha
      have hn : n = some a.node := by
        have := hwh.cur
        unfold AtNode at this
        rw [← this, ha]; rfl
      have hop : A.opOf a.node = op := hw.arg_op op _ (hwh.node _ hn)
      split at h
      · cases h
      · rename_i v hv
        rw [hop] at h
        have e : madeVar A s r (.createVar t) = match A.next op with
            | none => [⟨none, t, t⟩]
            | some n => varThere A s v t n := by
          simp only [madeVar, ha, hv, hop]
          cases A.next op <;> rfl
        rw [e]
        simp only [introduces1, hn, Option.bind_some, hv]
        split at h
        · rename_i hnx
          rw [hnx]
          refine ⟨fun x hx => ?_, fun y hy => (by cases hy)⟩
          rw [List.mem_singleton.1 hx]
          exact .inl ⟨rfl, rfl⟩
        · rename_i m hm
          rw [hm]
          refine ⟨fun x hx => ?_, fun y hy => ?_⟩
          · obtain ⟨slot, h1, h2, h3⟩ := varThere_mem hx
            exact .inr ⟨m, v, slot, h1, h2, by rw [h3]; simp, .inr hm⟩
          · rw [List.mem_singleton.1 hy]
            obtain ⟨slot, u, hu⟩ := newVar_there hl (need_ok h)
            exact varThere_got hu
  | inject name t =>
    simp only [request] at h
    split at h
    · cases h
    · rename_i a as ha
      simp only [introduces1, madeVar, ha]
      refine ⟨fun x hx => ?_, fun y hy => ?_⟩
      · obtain ⟨slot, h1, h2, h3⟩ := varThere_mem hx
        exact .inr ⟨a, name, slot, h1, h2, by rw [h3]; simp, .inl (hwh.args a (by rw [ha]; simp))⟩
      · rw [List.mem_singleton.1 hy]
        obtain ⟨slot, u, hu⟩ := newVar_there hl (need_ok h)
        exact varThere_got hu
  | _ => exact ⟨fun _ h => (by cases h), fun _ h => (by cases h)⟩

theorem Asked.mono {op : Nat} {L L' : List (Nat × String × T)} (hs : ∀ y ∈ L, y ∈ L') {x : Variable T} (h : Asked A s op L x) : Asked A s op L' x := by
  rcases h with h | ⟨n, name, slot, h1, h2, h3, h4⟩
  · exact .inl h
  · exact .inr ⟨n, name, slot, h1, h2, hs _ h3, h4⟩

theorem Got.mono {L L' : List (Variable T)} (hs : ∀ y ∈ L, y ∈ L') {y : Nat × String × T} (h : Got A s L y) : Got A s L' y := by
  obtain ⟨slot, u, h1, x, h2, h3⟩ := h
  exact ⟨slot, u, h1, x, hs x h2, h3⟩

theorem madeVars_spec {names : List String} (hw : A.Wf names) (hl : Locs A s D) {op : Nat} : ∀ {qs : List (Req T)} {r r' : Run T} {n : Option Nat},
    Where A op r n → requests A s op r qs = (r', none) →
    (∀ x ∈ madeVars A s op r qs, Asked A s op (introduces A op r.args n qs) x) ∧
    ∀ y ∈ introduces A op r.args n qs, Got A s (madeVars A s op r qs) y
  | [], _, _, _, _, _ => ⟨fun _ h => (by cases h), fun _ h => (by cases h)⟩
  | q :: qs, r, r', n, hwh, h => by
    unfold requests at h
    cases h1 : request A s op r q with
    | mk r1 e1 =>
      rw [h1] at h
      cases e1 with
      | some e => cases h
      | none =>
        dsimp only at h
        obtain ⟨h2, h3⟩ := madeVar_spec hw hl hwh h1
        have key : ∃ m, Where A op r1 m ∧ introduces A op r.args n (q :: qs) = introduces1 A op r.args n q ++ introduces A op r1.args m qs := by
          cases hq : isNext q with
          | false =>
            obtain ⟨h4, h5⟩ := request_where hwh hq h1
            refine ⟨n, h4, ?_⟩
            rw [introduces, hq, h5]; rfl
          | true =>
            obtain rfl : q = .next := by cases q <;> first | rfl | cases hq
            simp only [request] at h1
            split at h1
            · cases h1
            · rename_i a as ha
              cases h1
              refine ⟨some a, next_where hl.noPtr hwh ha, ?_⟩
              rw [introduces, hq, ha]; rfl
        obtain ⟨m, h4, h5⟩ := key
        obtain ⟨h6, h7⟩ := madeVars_spec hw hl h4 h
        rw [h5]
        unfold madeVars
        rw [h1]
        refine ⟨fun x hx => ?_, fun y hy => ?_⟩
        · rcases List.mem_append.1 hx with hx | hx
          · exact (h2 x hx).mono fun y hy => List.mem_append_left _ hy
          · exact (h6 x hx).mono fun y hy => List.mem_append_right _ hy
        · rcases List.mem_append.1 hy with hy | hy
          · exact (h3 y hy).mono fun y hy => List.mem_append_left _ hy
          · exact (h7 y hy).mono fun y hy => List.mem_append_right _ hy

/-! ### Arguments -/

/-- An argument that a command gets is one of its block. -/
structure Given (A : Ast T) (s : S T) (op : Nat) (b : Arg T) (a : Argument T) : Prop where
  node : b.node ∈ A.args op
  cur : Cur A s b.node b
  ready : Ready A s b.node
  made : argument A s b = some a

theorem madeArgs_spec (hany : ∀ n, s.tg.kn n .inp = .any → n ∈ A.lits) (hf : Fresh s) (hp : ∀ p, Loc.Local.ptr p ∉ s.lg.locals) {op : Nat} :
    ∀ {qs : List (Req T)} {r r' : Run T} {n : Option Nat}, Where A op r n → CurIs A s r.cur n → requests A s op r qs = (r', none) →
    ∀ a ∈ madeArgs A s op r qs, ∃ b, Given A s op b a
  | [], _, _, _, _, _, _, _, h => by cases h
  | q :: qs, r, r', n, hwh, hc, h, a, ha => by
    unfold requests at h
    cases h1 : request A s op r q with
    | mk r1 e1 =>
      rw [h1] at h
      cases e1 with
      | some e => cases h
      | none =>
        dsimp only at h
        unfold madeArgs at ha
        rw [h1] at ha
        rcases List.mem_append.1 ha with ha | ha
        · cases q with
          | concrete =>
            simp only [request] at h1
            simp only [madeArg] at ha
            split at h1
            · cases h1
            · rename_i b hb
              rw [hb] at ha hc
              cases n with
              | none => cases hc
              | some n =>
                have hn : b.node = n := by
                  have := hwh.cur
                  unfold AtNode at this
                  rw [hb] at this
                  injection this
                injection h1 with _ h1
                simp only [Option.bind_some, Option.mem_toList] at ha
                subst hn
                exact ⟨b, hwh.node _ rfl, hc, concrete_met hf hc h1, ha⟩
          | _ => cases ha
        · cases hq : isNext q with
          | false =>
            exact madeArgs_spec hany hf hp (request_where hwh hq h1).1 (request_met hany hf hq h1 hc).2.1 h a ha
          | true =>
            obtain rfl : q = .next := by cases q <;> first | rfl | cases hq
            simp only [request] at h1
            split at h1
            · cases h1
            · rename_i x as hx
              cases h1
              exact madeArgs_spec hany hf hp (next_where hp hwh hx) (newArg_cur A s x) h a ha

/-! ### What arguments hold -/

theorem argument_some {b : Arg T} {a : Argument T} (h : argument A s b = some a) :
    a.node = b.node ∧ b.inp.ty = some a.inp ∧ b.out.ty = some a.out ∧ holdOf A s b.node = some a.hold := by
  unfold argument at h
  split at h
  · rename_i h1 h2 h3
    cases h
    exact ⟨rfl, h1, h2, h3⟩
  · cases h

theorem Cur.settled_out (hf : Fresh s) {n : Nat} {b : Arg T} (h : Cur A s n b) {u : T} (hu : b.out.ty = some u) : Ty.Settled (s.tg.kn n .out) u := by
  refine settled_of_ty hf ?_
  rw [← view_ty, ← h.out]; exact hu

theorem Cur.inp_eq {n : Nat} {b : Arg T} (h : Cur A s n b) {t u : T} (ht : Ty.Settled (s.tg.kn n .inp) t) (hu : b.inp.ty = some u) : u = t := by
  rcases h.inp with e | e
  · rw [e, view_ty, ty_of_settled ht] at hu
    injection hu with hu
    exact hu.symm
  · rw [e] at ht
    rcases ht with ht | ht <;> cases ht

theorem callInv_edges (h : CallInv A s) : Loc.EdgesOk s.lg := by
  intro n m hm hne
  exact Classical.byContradiction fun hn => by
    obtain ⟨i, e⟩ := h.seals n m hm hn
    exact hne i e

/-- A variable that is found can be seen. -/
theorem get_seen {names : List String} (hw : A.Wf names) (hpl : A.Placed) (hi : Inv A s) (hl : Locs A s D) {n slot : Nat} {v : String}
    (hn : n < A.count) (h : Loc.get s.lg (A.place n) v = some (some (.var slot))) : Seen A D (s.callsite.map (·.1)) slot (A.place n) := by
  have hc := hpl.ok hw
  unfold Loc.get at h
  split at h
  · rename_i hs
    injection h with h
    obtain ⟨l, h1, h2⟩ := Option.bind_eq_some_iff.1 h
    have e := hl.local_at h2
    injection e with e
    obtain ⟨h3, h4⟩ := hl.lex.defined hc _ _ (Nat.le_refl _) (Ast.place_mem hn) _ _ h1
    rw [← e] at h4
    refine ⟨l.defined, v, h4, h3, fun d hd he => ?_⟩
    have h5 := Loc.sealed_no_defs hc hpl.args (callInv_edges hi.call) _ _ (Nat.le_refl _) (Ast.place_mem hn) hs _ h3
    refine hi.call.bodies d hd ?_
    rw [← he]
    obtain ⟨k, p, hb⟩ := hpl.body d hd
    rw [he, hb] at h5 ⊢
    cases hx : s.lg.isSealed (.body k :: p) with
    | true => rfl
    | false => exact absurd hx h5
  · cases h

theorem Pipe.ops {steps : List (Nat × T × T)} {ops : List Nat} {t u : T} (h : Pipe steps ops t u) : ∀ op ∈ ops, op ∈ steps.map (·.1) := by
  induction h with
  | nil => intro op h; cases h
  | cons h1 _ ih =>
    intro op h
    rcases List.mem_cons.1 h with e | h
    · rw [e]; exact List.mem_map.2 ⟨_, h1, rfl⟩
    · exact ih op h

/-- An argument is what it should be. -/
theorem Given.held {E : Exec T V} {names : List String} (hw : A.Wf names) (hpl : A.Placed) (hi : Inv A s) (hf : Fresh s) (hl : Locs A s D)
    (hinp : ∀ op ∈ A.ops, ∀ a ∈ A.args op, a ∉ A.lits → a ∉ A.exprs → ⟨op, a, .ii⟩ ∈ s.tg.edges ∧ ⟨op, a, .io⟩ ∈ s.tg.edges)
    (hlit : ∀ n ∈ A.lits, A.var n = none → Ty.Settled (s.tg.kn n .out) (E.ty (E.lit n))) {op : Nat} {t : T} (ho : op ∈ A.ops)
    (ht : Ty.Settled (s.tg.kn op .inp) t) {b : Arg T} {a : Argument T} (h : Given A s op b a) :
    HeldOk A E s D (s.callsite.map (·.1)) s.ops op a := by
  obtain ⟨h1, h2, h3, h4⟩ := argument_some h.made
  have hout := h.cur.settled_out hf h3
  have hnp := hl.noPtr
  have hlt := hw.arg_lt op _ h.node
  obtain ⟨m, u, hp, hu, hh⟩ := h.ready
  have e := points_self hnp hp
  subst e
  obtain rfl : u = a.out := settled_eq hu hout
  unfold holdOf at h4
  cases hv : A.var b.node with
  | some v =>
    rw [hv] at h4
    dsimp only at h4
    rcases hh with ⟨v', slot, e1, e2, e3⟩ | ⟨e1, _⟩
    · rw [hv] at e1
      injection e1 with e1
      subst e1
      rw [e2] at h4
      dsimp only at h4
      rw [e3] at h4
      injection h4 with h4
      refine ⟨by rw [h1]; exact h.node, ?_, fun slot' t' he => ?_⟩
      · rw [← h4]
        refine ⟨rfl, ?_⟩
        rw [h1]
        exact get_seen hw hpl hi hl hlt e2
      · rw [← h4] at he
        injection he with e4 e5
        rw [← e4, ← e5]; exact e3
    · rw [hv] at e1; cases e1
  | none =>
    rw [hv] at h4
    injection h4 with h4
    refine ⟨by rw [h1]; exact h.node, ?_, fun slot' t' he => ?_⟩
    · rw [← h4]
      by_cases hx : b.node ∈ A.exprs
      · rw [if_pos hx]
        refine ⟨h1.symm, ?_⟩
        rcases hh with ⟨v', slot, e1, _⟩ | ⟨_, e1, _⟩
        · rw [hv] at e1; cases e1
        · obtain ⟨h5, i, o, h6, h7, h8⟩ := hi.exprs _ (e1 hx)
          rw [h.cur.inp_eq h6 h2, settled_eq hout h7]
          exact ⟨h5, h6, h7, h8, fun op ho => Pipe.ops h8 op ho⟩
      · rw [if_neg hx]
        by_cases hy : b.node ∈ A.lits
        · rw [if_pos hy]
          exact settled_eq (hlit _ hy hv) hout
        · rw [if_neg hy]
          obtain ⟨h5, h6⟩ := hinp op ho _ h.node hy hx
          have hol : op ∉ A.lits := fun hl => hw.lit_op _ hl ho
          have h7 : Ty.Settled (s.tg.kn b.node .inp) t := fresh_edge hi hf h5 hol ht
          have h8 : Ty.Settled (s.tg.kn b.node .out) t := fresh_edge hi hf h6 hol ht
          show a.inp = a.out
          rw [h.cur.inp_eq h7 h2, settled_eq hout h8]
    · rw [← h4] at he
      split at he
      · cases he
      · split at he <;> cases he

end

end Verif.Comp
