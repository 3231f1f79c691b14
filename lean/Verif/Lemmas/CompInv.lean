import Verif.Lemmas.CompReq
/-! What holds throughout compiling. -/
namespace Verif.Comp
open Verif
set_option linter.unusedSectionVars false
variable {T : Type} [DecidableEq T]

/-! ### The type graph -/

structure TgInv (A : Ast T) (g : Ty.State T) : Prop where
  sets : Sets g
  ty : Ty.Inv g
  any : ∀ n, g.kn n .inp = .any → n ∈ A.lits
  via : ∀ i ∈ g.viaAny, ∃ e : Ty.Edge, g.edges[i]? = some e ∧ e.src ∈ A.lits
  ii : ∀ x ∈ g.edges, x.flow = .ii → x.src ∈ A.lits → x.dst ∈ A.lits

/-- Edges stay, with their numbers. -/
def EdgesKeep (g g' : Ty.State T) : Prop := ∀ (i : Nat) (e : Ty.Edge), g.edges[i]? = some e → g'.edges[i]? = some e

theorem EdgesKeep.mem {g g' : Ty.State T} (h : EdgesKeep g g') {e : Ty.Edge} (he : e ∈ g.edges) : e ∈ g'.edges := by
  obtain ⟨i, hi⟩ := List.getElem?_of_mem he
  exact List.mem_of_getElem? (h i e hi)

theorem edgesKeep_eq {g g' : Ty.State T} (h : g'.edges = g.edges) : EdgesKeep g g' := fun i e he => by rw [h]; exact he

theorem EdgesKeep.trans {a b c : Ty.State T} (h : EdgesKeep a b) (h' : EdgesKeep b c) : EdgesKeep a c := fun i e he => h' i e (h i e he)

theorem tgInv_kn {A : Ast T} {g g' : Ty.State T} (h : TgInv A g) (hk : Ty.Keeps g g') (he : g'.edges = g.edges) (hd : g'.done = g.done)
    (hv : g'.viaAny = g.viaAny) (hs : Sets g') (ha : ∀ n, g'.kn n .inp = .any → n ∈ A.lits) : TgInv A g' :=
  ⟨hs, h.ty.mono hk hd hv fun i e h => by rw [he]; exact h, ha, by rw [hv, he]; exact h.via, by rw [he]; exact h.ii⟩

theorem tgInv_set {A : Ast T} {g : Ty.State T} (h : TgInv A g) {n : Nat} {sd : Ty.Side} {k : Ty.Kn T}
    (hk : Ty.Keeps g (g.set n sd k)) (hs : ∀ ts, k = .inferred ts → ts.Nodup) (ha : k = .any → sd = .inp → n ∈ A.lits) :
    TgInv A (g.set n sd k) := by
  refine tgInv_kn h hk rfl rfl rfl (sets_set h.sets hs) fun m hm => ?_
  rw [Ty.set_kn] at hm
  split at hm
  · rename_i e
    rw [e.1]
    exact ha hm e.2.symm
  · exact h.any m hm

theorem tgInv_edge {A : Ast T} {g : Ty.State T} (h : TgInv A g) {e : Ty.Edge}
    (he : e.flow = .ii → e.src ∈ A.lits → e.dst ∈ A.lits) :
    TgInv A { g with edges := g.edges ++ [e] } ∧ EdgesKeep g { g with edges := g.edges ++ [e] } := by
  have hk : EdgesKeep g { g with edges := g.edges ++ [e] } := fun i x hx => by
    show (g.edges ++ [e])[i]? = some x
    rw [List.getElem?_append_left (List.getElem?_eq_some_iff.1 hx).1]
    exact hx
  refine ⟨⟨h.sets, h.ty.mono (Ty.Keeps.refl g) rfl rfl hk, h.any, fun i hi => ?_, fun x hx => ?_⟩, hk⟩
  · obtain ⟨x, h1, h2⟩ := h.via i hi
    exact ⟨x, hk i x h1, h2⟩
  · rcases List.mem_append.1 hx with hx | hx
    · exact h.ii x hx
    · rw [List.mem_singleton.1 hx]; exact he

/-- What a change must satisfy for the graphs to stay in order. -/
def Sound (A : Ast T) (s0 : S T) : Chg T → Prop
  | .ty (.anyInput n) => n ∈ A.lits
  | .ty (.addEdge e) => e.flow = .ii → e.src ∈ A.lits → e.dst ∈ A.lits
  | .lzy _ to _ => ∃ op ∈ A.ops, to ∈ A.args op ∧ Fixed A s0 op
  | .sealOp n => ∀ d ∈ A.defs, A.place (A.body d) ≠ A.place n
  | .breakEdge op a => ∃ i, A.place a = .arg i :: A.place op
  | _ => True

theorem Valid.sound {A : Ast T} {names : List String} {s0 : S T} {c : Chg T} (h : Valid A names s0 c) : Sound A s0 c := by
  cases h with
  | any hn hl => exact hl
  | edge h1 h2 hl => exact fun _ _ => hl
  | lzy hn hk hd ho ha hf => exact ⟨_, ho, ha, hf⟩
  | sealOp hn hb => exact hb
  | breakEdge hn hp => exact hp
  | _ => trivial

theorem setKn_any {A : Ast T} {g g' : Ty.State T} (h : TgInv A g) {n : Nat} {sd : Ty.Side} {k : Ty.Kn T}
    (hs : ∀ ts, k = .inferred ts → ts.Nodup) (ha : k = .any → sd = .inp → n ∈ A.lits) (e : Ty.setKn g n sd k = .ok g') :
    TgInv A g' ∧ Ty.Keeps g g' ∧ EdgesKeep g g' := by
  obtain ⟨h1, h2, _, _⟩ := Ty.keeps_setKn e
  refine ⟨?_, h1, edgesKeep_eq h2⟩
  unfold Ty.setKn at e
  split at e
  · cases e; exact h
  · split at e
    · cases e; exact tgInv_set h h1 hs ha
    · cases e

theorem applyChg_inv {A : Ast T} {s0 : S T} {g g' : Ty.State T} (h : TgInv A g) {c : Ty.Chg T} (hc : Sound A s0 (.ty c))
    (e : Ty.applyChg g c = .ok g') : TgInv A g' ∧ Ty.Keeps g g' ∧ EdgesKeep g g' := by
  have hk : Ty.Keeps g g' := (Ty.step_keeps (o := .chg c) e).1
  cases c with
  | known n sd t => exact setKn_any h (fun _ e => by cases e) (fun e => by cases e) e
  | oblige n sd t => exact setKn_any h (fun _ e => by cases e) (fun e => by cases e) e
  | remove n sd t =>
    cases e
    refine ⟨tgInv_set h hk ?_ ?_, hk, edgesKeep_eq rfl⟩
    · intro ts e
      cases hkn : g.kn n sd with
      | inferred us => rw [hkn] at e; cases e; exact List.Pairwise.filter _ (h.sets n sd us hkn)
      | any => rw [hkn] at e; cases e
      | known => rw [hkn] at e; cases e
      | obliged => rw [hkn] at e; cases e
    · intro e hsd
      subst hsd
      cases hkn : g.kn n .inp with
      | any => exact h.any n hkn
      | inferred us => rw [hkn] at e; cases e
      | known => rw [hkn] at e; cases e
      | obliged => rw [hkn] at e; cases e
  | anyInput n =>
    simp only [Ty.applyChg] at e
    split at e
    · exact setKn_any h (fun _ e => by cases e) (fun _ _ => hc) e
    · cases e; exact ⟨h, hk, edgesKeep_eq rfl⟩
  | addEdge x =>
    simp only [Ty.applyChg] at e
    split at e
    · cases e; exact ⟨h, hk, edgesKeep_eq rfl⟩
    · cases e
      obtain ⟨h1, h2⟩ := tgInv_edge h hc
      exact ⟨h1, hk, h2⟩
  | anonTy t =>
    cases e
    refine ⟨tgInv_kn h hk rfl rfl rfl ?_ ?_, hk, edgesKeep_eq rfl⟩
    · intro n sd ts e
      change Ty.addTy t (g.kn n sd) = _ at e
      cases hkn : g.kn n sd with
      | inferred us =>
        rw [hkn] at e
        have hu := h.sets n sd us hkn
        simp only [Ty.addTy] at e
        cases e
        split
        · exact hu
        · rename_i ht
          exact List.nodup_append.2 ⟨hu, by simp, fun a ha b hb => by
            rw [List.mem_singleton.1 hb]; rintro rfl; exact ht ha⟩
      | any => rw [hkn] at e; cases e
      | known => rw [hkn] at e; cases e
      | obliged => rw [hkn] at e; cases e
    · intro n e
      change Ty.addTy t (g.kn n .inp) = _ at e
      cases hkn : g.kn n .inp with
      | any => exact h.any n hkn
      | inferred us => rw [hkn] at e; cases e
      | known => rw [hkn] at e; cases e
      | obliged => rw [hkn] at e; cases e

theorem flows_tgInv {A : Ast T} {g g' : Ty.State T} {es : List (Nat × Ty.Edge)} {c : Bool} (h : Ty.Flows g es g' c)
    (hn : Ty.NoSingle g) (hes : ∀ i e, (i, e) ∈ es → g.edges[i]? = some e)
    (ha : ∀ n, g.kn n .inp = .any → n ∈ A.lits) (hv : ∀ i ∈ g.viaAny, ∃ e : Ty.Edge, g.edges[i]? = some e ∧ e.src ∈ A.lits)
    (hii : ∀ x ∈ g.edges, x.flow = .ii → x.src ∈ A.lits → x.dst ∈ A.lits) :
    (∀ n, g'.kn n .inp = .any → n ∈ A.lits) ∧ ∀ i ∈ g'.viaAny, ∃ e : Ty.Edge, g'.edges[i]? = some e ∧ e.src ∈ A.lits := by
  induction h with
  | nil g => exact ⟨ha, hv⟩
  | skip hf _ ih => exact ih hn (fun i e h => hes i e (List.mem_cons_of_mem _ h)) ha hv hii
  | @flow g g' c i e es r hf _ ih =>
    have hm := Ty.flowEdge_moves hn hf
    have hei := hes i e List.mem_cons_self
    have hsrc : ∀ (f : Ty.Flow), f = .ii → f.srcSide = .inp := fun f e => by rw [e]; rfl
    have hdst : ∀ (f : Ty.Flow), f = .ii → f.dstSide = .inp := fun f e => by rw [e]; rfl
    refine ih (Ty.moves_noSingle hn hm) (fun i e h => hes i e (List.mem_cons_of_mem _ h)) ?_ ?_ hii
    · intro n hkn
      cases hm with
      | fwd hf' hc =>
        change ((g.set e.dst e.flow.dstSide (g.srcKn e)).kn n .inp) = _ at hkn
        rw [Ty.set_kn] at hkn
        split at hkn
        · rw [hkn] at hf'; cases hf'
        · exact ha n hkn
      | bwd he hu hf' hc =>
        change ((g.set e.src e.flow.srcSide (g.dstKn e)).kn n .inp) = _ at hkn
        rw [Ty.set_kn] at hkn
        split at hkn
        · rw [hkn] at hf'; cases hf'
        · exact ha n hkn
      | thru he hf' hany =>
        change ((g.set e.dst e.flow.dstSide .any).kn n .inp) = _ at hkn
        rw [Ty.set_kn] at hkn
        split at hkn
        · rename_i hx
          rw [hx.1]
          refine hii e (List.mem_of_getElem? hei) he (ha _ ?_)
          rw [Ty.State.srcKn, hsrc _ he] at hany
          exact hany
        · exact ha n hkn
    · intro j hj
      cases hm with
      | fwd hf' hc => exact hv j hj
      | bwd he hu hf' hc => exact hv j hj
      | thru he hf' hany =>
        rcases List.mem_cons.1 hj with rfl | hj
        · refine ⟨e, hei, ha _ ?_⟩
          rw [Ty.State.srcKn, hsrc _ he] at hany
          exact hany
        · exact hv j hj

theorem intersectEdge_any {g : Ty.State T} {e : Ty.Edge} {n : Nat} {sd : Ty.Side} (h : (Ty.intersectEdge g e).kn n sd = .any) :
    g.kn n sd = .any := by
  unfold Ty.intersectEdge at h
  split at h
  · rw [Ty.set_kn] at h
    split at h
    · cases h
    · rw [Ty.set_kn] at h
      split at h
      · cases h
      · exact h
  · exact h

theorem intersect_any {n : Nat} {sd : Ty.Side} : ∀ (es : List (Nat × Ty.Edge)) (g : Ty.State T),
    (es.foldl (fun s e => Ty.intersectEdge s e.2) g).kn n sd = .any → g.kn n sd = .any
  | [], _, h => h
  | e :: es, g, h => intersectEdge_any (intersect_any es _ h)

theorem ready_any {g : Ty.State T} {n : Nat} {sd : Ty.Side} (h : (Ty.ready g).kn n sd = .any) : g.kn n sd = .any := by
  refine intersect_any (Ty.todo g) g ?_
  change Ty.upgrade1 ((Ty.intersect g).kn n sd) = _ at h
  change (Ty.intersect g).kn n sd = _
  generalize (Ty.intersect g).kn n sd = k at h
  unfold Ty.upgrade1 at h
  split at h
  · cases h
  · exact h

theorem rounds_tgInv {A : Ast T} {g g' : Ty.State T} (h : Ty.Rounds g g') (hi : TgInv A g) : TgInv A g' := by
  have one : ∀ {g g' : Ty.State T} {c : Bool}, Ty.Round g g' c → TgInv A g → (∀ n, g'.kn n .inp = .any → n ∈ A.lits) ∧
      ∀ i ∈ g'.viaAny, ∃ e : Ty.Edge, g'.edges[i]? = some e ∧ e.src ∈ A.lits := by
    intro g g' c h hi
    obtain ⟨_, hn, he, hd, hv⟩ := Ty.ready_rest g
    refine flows_tgInv h hn (fun i e hx => ?_) (fun n hn => hi.any n (ready_any hn)) ?_ ?_
    · rw [he]; exact (Ty.mem_todo.1 hx).1
    · rw [hv, he]; exact hi.via
    · rw [he]; exact hi.ii
  have all : ∀ {g g' : Ty.State T}, Ty.Rounds g g' → TgInv A g → (∀ n, g'.kn n .inp = .any → n ∈ A.lits) ∧
      ∀ i ∈ g'.viaAny, ∃ e : Ty.Edge, g'.edges[i]? = some e ∧ e.src ∈ A.lits := by
    intro g g' h
    induction h with
    | last h => exact one h
    | @more g m g' h hr ih =>
      intro hi
      obtain ⟨h1, h2⟩ := one h hi
      refine ih ⟨?_, Ty.round_inv h hi.ty, h1, h2, ?_⟩
      · obtain ⟨_, hn, he, hd, _⟩ := Ty.ready_rest g
        exact (flows_rank (kd := fun _ _ => false) (n := 0) h hn (ready_rank hi.sets false 0 .inp).2
          (fun x hx => by rw [Ty.todo_ready]; exact hx) (todo_nodup g)).2
      · rw [(Ty.round_keeps h).2.2]; exact hi.ii
  obtain ⟨h1, h2⟩ := all h hi
  exact ⟨(rounds_rank (kd := fun _ _ => false) (n := 0) h hi.sets).2, Ty.rounds_inv h hi.ty, h1, h2, by
    rw [(Ty.rounds_keeps h).2.2]; exact hi.ii⟩

/-! ### The compiler -/

/-- What mapping the parameters of a definition leaves: for each that is evaluated at the call the declared type and the
position of its argument. -/
def mappedParams : Nat → List (String × Blk.PTy T) → List (Option T × Nat)
  | _, [] => []
  | i, p :: ps => (if atCall p.2 then [(ptyOf p.2, i % 256)] else []) ++ mappedParams (i + 1) ps

/-- The calls of definitions: their parameters are mapped as declared, and the expression of a definition is sealed only
then. -/
structure CallInv (A : Ast T) (s : S T) : Prop where
  calls : ∀ x ∈ s.callsite, (A.params x.1).length = (A.args (A.owner x.1)).length ∧ x.2 = mappedParams 0 (A.params x.1)
  seals : ∀ n x, x ∈ Loc.sealEdges n → x ∉ s.lg.seals n → ∃ i, n = .arg i :: x
  bodies : ∀ d ∈ A.defs, s.lg.isSealed (A.place (A.body d)) = true → d ∈ s.callsite.map (·.1)

theorem CallInv.congr {A : Ast T} {s s' : S T} (h : CallInv A s) (h1 : s'.callsite = s.callsite) (h2 : s'.lg = s.lg) : CallInv A s' :=
  ⟨by rw [h1]; exact h.calls, by rw [h2]; exact h.seals, by rw [h1, h2]; exact h.bodies⟩

structure Inv (A : Ast T) (s : S T) : Prop where
  tg : TgInv A s.tg
  outs : ∀ n ∈ s.outs, n ∈ A.ops
  ptr : Ptrs A s
  flows : ∀ e ∈ A.exprs, ∀ x ∈ A.flows e, x ∈ s.tg.edges
  steps : ∀ x ∈ s.steps, x.1 ∈ A.ops ∧ Ty.Settled (s.tg.kn x.1 .inp) x.2.1 ∧ Ty.Settled (s.tg.kn x.1 .out) x.2.2
  exprs : ∀ e ∈ s.exprs, e ∈ A.exprs ∧ ∃ i o, Ty.Settled (s.tg.kn e .inp) i ∧ Ty.Settled (s.tg.kn e .out) o ∧
    Pipe s.steps (A.blocks e) i o
  call : CallInv A s

/-- What is compiled and settled stays so. -/
structure Later (s s' : S T) : Prop where
  keeps : Ty.Keeps s.tg s'.tg
  edges : EdgesKeep s.tg s'.tg
  steps : ∀ x ∈ s.steps, x ∈ s'.steps
  exprs : ∀ x ∈ s.exprs, x ∈ s'.exprs
  depth : s.depth ≤ s'.depth
  callsite : ∀ x ∈ s.callsite, x ∈ s'.callsite

theorem Later.refl (s : S T) : Later s s := ⟨Ty.Keeps.refl _, fun _ _ h => h, fun _ h => h, fun _ h => h, Nat.le_refl _, fun _ h => h⟩

theorem Later.trans {a b c : S T} (h : Later a b) (h' : Later b c) : Later a c :=
  ⟨h.keeps.trans h'.keeps, h.edges.trans h'.edges, fun x hx => h'.steps x (h.steps x hx), fun x hx => h'.exprs x (h.exprs x hx),
    Nat.le_trans h.depth h'.depth, fun x hx => h'.callsite x (h.callsite x hx)⟩

theorem Pipe.mono {a b : List (Nat × T × T)} (h : ∀ x ∈ a, x ∈ b) {ops : List Nat} {t u : T} (hp : Pipe a ops t u) : Pipe b ops t u := by
  induction hp with
  | nil t => exact .nil t
  | cons h1 _ ih => exact .cons (h _ h1) ih

theorem Fixed.mono {A : Ast T} {s s' : S T} (h : Ty.Keeps s.tg s'.tg) {op : Nat} (hf : Fixed A s op) : Fixed A s' op := by
  rcases hf with hf | ⟨t, d, h1, h2⟩
  · exact .inl hf
  · exact .inr ⟨t, d, h _ _ _ h1, h2⟩

theorem Ptrs.mono {A : Ast T} {s s' : S T} (h : Ty.Keeps s.tg s'.tg) (hl : s'.lg.locals = s.lg.locals) (hp : Ptrs A s) : Ptrs A s' := by
  intro p hm
  rw [hl] at hm
  obtain ⟨op, ho, a, ha, he, hf⟩ := hp p hm
  exact ⟨op, ho, a, ha, he, hf.mono h⟩

/-- Everything but the graphs is as before. -/
structure Rest (s s' : S T) : Prop where
  steps : s'.steps = s.steps
  exprs : s'.exprs = s.exprs
  callsite : s'.callsite = s.callsite
  outs : s'.outs = s.outs
  depth : s'.depth = s.depth
  binds : s'.binds = s.binds
  codes : s'.codes = s.codes

theorem Rest.refl (s : S T) : Rest s s := ⟨rfl, rfl, rfl, rfl, rfl, rfl, rfl⟩

theorem Rest.trans {a b c : S T} (h : Rest a b) (h' : Rest b c) : Rest a c :=
  ⟨h'.steps.trans h.steps, h'.exprs.trans h.exprs, h'.callsite.trans h.callsite, h'.outs.trans h.outs, h'.depth.trans h.depth,
    h'.binds.trans h.binds, h'.codes.trans h.codes⟩

theorem Rest.later {s s' : S T} (h : Rest s s') (hk : Ty.Keeps s.tg s'.tg) (he : EdgesKeep s.tg s'.tg) : Later s s' :=
  ⟨hk, he, fun x hx => by rw [h.steps]; exact hx, fun x hx => by rw [h.exprs]; exact hx, Nat.le_of_eq h.depth.symm,
    fun x hx => by rw [h.callsite]; exact hx⟩

theorem inv_rest {A : Ast T} {s s' : S T} (hi : Inv A s) (hr : Rest s s') (ht : TgInv A s'.tg) (hk : Ty.Keeps s.tg s'.tg)
    (he : EdgesKeep s.tg s'.tg) (hp : Ptrs A s') (hc : CallInv A s') : Inv A s' := by
  refine ⟨ht, by rw [hr.outs]; exact hi.outs, hp, fun e hee x hx => he.mem (hi.flows e hee x hx), ?_, ?_, hc⟩
  · rw [hr.steps]
    intro x hx
    obtain ⟨h1, h2, h3⟩ := hi.steps x hx
    exact ⟨h1, hk _ _ _ h2, hk _ _ _ h3⟩
  · rw [hr.steps, hr.exprs]
    intro e he
    obtain ⟨h1, i, o, h2, h3, h4⟩ := hi.exprs e he
    exact ⟨h1, i, o, hk _ _ _ h2, hk _ _ _ h3, h4⟩

theorem apply1_rest {A : Ast T} {s s' : S T} {b : Bool} {c : Chg T} (e : apply1 A s c = .ok (s', b)) :
    Rest s s' ∧ Ty.Keeps s.tg s'.tg := by
  cases c with
  | ty c =>
    simp only [apply1] at e
    cases hg : Ty.applyChg s.tg c with
    | error x => rw [hg] at e; cases e
    | ok g =>
      rw [hg] at e; cases e
      exact ⟨⟨rfl, rfl, rfl, rfl, rfl, rfl, rfl⟩, (Ty.step_keeps (o := .chg c) hg).1⟩
  | var => cases e; exact ⟨⟨rfl, rfl, rfl, rfl, rfl, rfl, rfl⟩, Ty.Keeps.refl _⟩
  | lzy => cases e; exact ⟨⟨rfl, rfl, rfl, rfl, rfl, rfl, rfl⟩, Ty.Keeps.refl _⟩
  | sealOp => cases e; exact ⟨⟨rfl, rfl, rfl, rfl, rfl, rfl, rfl⟩, Ty.Keeps.refl _⟩
  | breakEdge => cases e; exact ⟨⟨rfl, rfl, rfl, rfl, rfl, rfl, rfl⟩, Ty.Keeps.refl _⟩

theorem ptrs_lg {A : Ast T} {s : S T} (hp : Ptrs A s) {c : Loc.Chg} {sl : List T}
    (hc : ∀ name to n, c = .newLazy name to n → ∃ op ∈ A.ops, ∃ a ∈ A.args op, to = A.place a ∧ Fixed A s op) :
    Ptrs A { s with lg := Loc.apply A.places s.lg c, slots := sl } := by
  intro p hm
  rcases apply_ptr hm with hm | ⟨name, n, rfl⟩
  · exact hp p hm
  · exact hc _ _ _ rfl

theorem apply1_inv {A : Ast T} {s0 s s' : S T} {b : Bool} {c : Chg T} (hi : Inv A s) (hk : Ty.Keeps s0.tg s.tg) (hc : Sound A s0 c)
    (e : apply1 A s c = .ok (s', b)) : Inv A s' ∧ Later s s' := by
  obtain ⟨hr, hk'⟩ := apply1_rest e
  have lg : ∀ (c : Loc.Chg) (sl : List T),
      (∀ name to n, c = .newLazy name to n → ∃ op ∈ A.ops, ∃ a ∈ A.args op, to = A.place a ∧ Fixed A s op) →
      s' = { s with lg := Loc.apply A.places s.lg c, slots := sl } → CallInv A s' → Inv A s' ∧ Later s s' := by
    intro c sl hc e' hci
    subst e'
    exact ⟨inv_rest hi hr hi.tg hk' (fun _ _ h => h) (ptrs_lg hi.ptr hc) hci, hr.later hk' fun _ _ h => h⟩
  cases c with
  | ty c =>
    simp only [apply1] at e
    cases hg : Ty.applyChg s.tg c with
    | error x => rw [hg] at e; cases e
    | ok g =>
      rw [hg] at e; cases e
      obtain ⟨h1, h2, h3⟩ := applyChg_inv hi.tg hc hg
      exact ⟨inv_rest hi hr h1 h2 h3 (hi.ptr.mono h2 rfl) (hi.call.congr rfl rfl), hr.later h2 h3⟩
  | var name t n =>
    cases e
    exact lg (.newVar name (A.place n)) _ (fun _ _ _ e => by cases e) rfl
      ⟨hi.call.calls, hi.call.seals, hi.call.bodies⟩
  | lzy name to n =>
    cases e
    refine lg (.newLazy name (A.place to) (A.place n)) s.slots (fun _ _ _ e => ?_) rfl
      ⟨hi.call.calls, hi.call.seals, hi.call.bodies⟩
    cases e
    obtain ⟨op, ho, ha, hf⟩ := hc
    exact ⟨op, ho, to, ha, rfl, hf.mono hk⟩
  | sealOp n =>
    cases e
    refine lg (.seal (A.place n)) s.slots (fun _ _ _ e => by cases e) rfl ⟨hi.call.calls, hi.call.seals, fun d hd hs => ?_⟩
    simp only [Loc.apply, Bool.or_eq_true, decide_eq_true_eq] at hs
    exact hs.elim (fun e => absurd e (hc d hd)) (hi.call.bodies d hd)
  | breakEdge op a =>
    cases e
    refine lg (.breakEdge (A.place op) (A.place a)) s.slots (fun _ _ _ e => by cases e) rfl
      ⟨hi.call.calls, fun n x hx hn => ?_, hi.call.bodies⟩
    by_cases hm : x ∈ s.lg.seals n
    · simp only [Loc.apply] at hn
      split at hn
      · rename_i e
        have : x = A.place op := by
          simpa [hm] using hn
        rw [e, this]; exact hc
      · exact absurd hm hn
    · exact hi.call.seals n x hx hm

theorem applyAll_rest {A : Ast T} : ∀ {cs : List (Chg T)} {s s' : S T} {b b' : Bool}, applyAll A s b cs = .ok (s', b') →
    Rest s s' ∧ Ty.Keeps s.tg s'.tg
  | [], s, s', b, b', e => by cases e; exact ⟨Rest.refl s, Ty.Keeps.refl _⟩
  | c :: cs, s, s', b, b', e => by
    simp only [applyAll] at e
    cases h : apply1 A s c with
    | error x => rw [h] at e; cases e
    | ok x =>
      rw [h] at e
      obtain ⟨h1, h2⟩ := apply1_rest h
      obtain ⟨h3, h4⟩ := applyAll_rest e
      exact ⟨h1.trans h3, h2.trans h4⟩

theorem applyAll_inv {A : Ast T} {s0 : S T} : ∀ {cs : List (Chg T)} {s s' : S T} {b b' : Bool}, Inv A s → Ty.Keeps s0.tg s.tg →
    (∀ c ∈ cs, Sound A s0 c) → applyAll A s b cs = .ok (s', b') → Inv A s' ∧ Later s s'
  | [], s, s', b, b', hi, _, _, e => by cases e; exact ⟨hi, Later.refl s⟩
  | c :: cs, s, s', b, b', hi, hk, hc, e => by
    simp only [applyAll] at e
    cases h : apply1 A s c with
    | error x => rw [h] at e; cases e
    | ok x =>
      rw [h] at e
      obtain ⟨h1, h2⟩ := apply1_inv hi hk (hc c (by simp)) h
      obtain ⟨h3, h4⟩ := applyAll_inv h1 (hk.trans h2.keeps) (fun c' hc' => hc c' (by simp [hc'])) e
      exact ⟨h3, h2.trans h4⟩

theorem applyAll_rel {A : Ast T} {names : List String} {s0 : S T} : ∀ {cs : List (Chg T)} {s s' : S T} {b b' : Bool},
    Rel A names s0 s b → AllValid A names s0 cs → applyAll A s b cs = .ok (s', b') → Rel A names s0 s' b'
  | [], s, s', b, b', hi, _, e => by cases e; exact hi
  | c :: cs, s, s', b, b', hi, hc, e => by
    simp only [applyAll] at e
    cases h : apply1 A s c with
    | error x => rw [h] at e; cases e
    | ok x =>
      rw [h] at e
      exact applyAll_rel (apply1_rel hi (hc c (by simp)) h) (fun c' hc' => hc c' (by simp [hc'])) e

/-- Nothing was changed: then the type graph is the same. -/
theorem apply1_same {A : Ast T} {names : List String} {s0 s s' : S T} {c : Chg T} (hc : Valid A names s0 c)
    (e : apply1 A s c = .ok (s', false)) : s'.tg = s.tg := by
  cases hc with
  | @known n sd t =>
    simp only [apply1, Ty.applyChg, Ty.setKn] at e
    by_cases h : s.tg.kn n sd = .known t
    · rw [if_pos h] at e; injection e with e; injection e with e _; subst e; rfl
    · rw [if_neg h] at e
      split at e
      · simp [tyAlters, h] at e
      · cases e
  | @oblige n sd t =>
    simp only [apply1, Ty.applyChg, Ty.setKn] at e
    by_cases h : s.tg.kn n sd = .obliged t
    · rw [if_pos h] at e; injection e with e; injection e with e _; subst e; rfl
    · rw [if_neg h] at e
      split at e
      · simp [tyAlters, h] at e
      · cases e
  | @any n =>
    simp only [apply1, Ty.applyChg] at e
    by_cases h : (s.tg.kn n .inp).ty.isNone = true
    · rw [if_pos h, Ty.setKn] at e
      by_cases h' : s.tg.kn n .inp = .any
      · rw [if_pos h'] at e; injection e with e; injection e with e _; subst e; rfl
      · rw [if_neg h'] at e
        split at e
        · injection e with e; injection e with _ e
          simp [tyAlters, h] at e
          exact absurd e h'
        · cases e
    · rw [if_neg h] at e; injection e with e; injection e with e _; subst e; rfl
  | @edge x =>
    simp only [apply1, Ty.applyChg] at e
    by_cases h : x ∈ s.tg.edges
    · rw [if_pos h] at e; injection e with e; injection e with e _; subst e; rfl
    · simp [tyAlters, h] at e
  | var => cases e
  | lzy => cases e
  | sealOp => simp only [apply1] at e; injection e with e; injection e with e _; subst e; rfl
  | breakEdge => simp only [apply1] at e; injection e with e; injection e with e _; subst e; rfl

theorem applyAll_true {A : Ast T} : ∀ {cs : List (Chg T)} {s s' : S T} {b' : Bool}, applyAll A s true cs = .ok (s', b') → b' = true
  | [], _, _, _, e => by cases e; rfl
  | c :: cs, s, s', b', e => by
    simp only [applyAll] at e
    split at e
    · rw [Bool.true_or] at e; exact applyAll_true e
    · cases e

theorem applyAll_same {A : Ast T} {names : List String} {s0 : S T} : ∀ {cs : List (Chg T)} {s s' : S T} {b : Bool},
    AllValid A names s0 cs → applyAll A s b cs = .ok (s', false) → s'.tg = s.tg
  | [], s, s', b, _, e => by cases e; rfl
  | c :: cs, s, s', b, hc, e => by
    simp only [applyAll] at e
    cases h : apply1 A s c with
    | error x => rw [h] at e; cases e
    | ok x =>
      obtain ⟨s1, b1⟩ := x
      rw [h] at e
      dsimp only at e
      have hb : (b || b1) = false := by
        cases hb : (b || b1) with
        | false => rfl
        | true => rw [hb] at e; cases applyAll_true e
      have : b1 = false := (Bool.or_eq_false_iff.1 hb).2
      subst this
      rw [applyAll_same (fun c' hc' => hc c' (by simp [hc'])) e, apply1_same (hc c (by simp)) h]

theorem applyAll_settles {A : Ast T} {n : Nat} {sd : Ty.Side} {t : T} : ∀ {cs : List (Chg T)} {s s' : S T} {b b' : Bool},
    applyAll A s b cs = .ok (s', b') → Chg.ty (.known n sd t) ∈ cs → Ty.Settled (s'.tg.kn n sd) t
  | [], _, _, _, _, _, h => by cases h
  | c :: cs, s, s', b, b', e, hm => by
    simp only [applyAll] at e
    cases h : apply1 A s c with
    | error x => rw [h] at e; cases e
    | ok x =>
      rw [h] at e
      rcases List.mem_cons.1 hm with rfl | hm
      · refine (applyAll_rest e).2 n sd t ?_
        simp only [apply1, Ty.applyChg, Ty.setKn] at h
        by_cases hk : s.tg.kn n sd = .known t
        · rw [if_pos hk] at h; cases h; exact .inl hk
        · rw [if_neg hk] at h
          cases hf : Ty.canFlow (.known t) (s.tg.kn n sd) with
          | error x => rw [hf] at h; cases h
          | ok u =>
            rw [hf] at h; cases h
            exact .inl (by rw [Ty.set_kn, if_pos ⟨rfl, rfl⟩])
      · exact applyAll_settles e hm

/-- Changes do not depend on what has been compiled. -/
theorem applyAll_with {A : Ast T} {st : List (Nat × T × T)} {o : List Nat} {k : List (Nat × T × T × Code T)} : ∀ {cs : List (Chg T)} {s s1 : S T} {b b' : Bool},
    applyAll A { s with steps := st, outs := o, codes := k } b cs = .ok (s1, b') →
    ∃ s', applyAll A s b cs = .ok (s', b') ∧ s1 = { s' with steps := st, outs := o, codes := k }
  | [], s, s1, b, b', e => by cases e; exact ⟨s, rfl, rfl⟩
  | c :: cs, s, s1, b, b', e => by
    have one : apply1 A { s with steps := st, outs := o, codes := k } c =
        (apply1 A s c).map fun x => ({ x.1 with steps := st, outs := o, codes := k }, x.2) := by
      cases c with
      | ty c => simp only [apply1]; cases Ty.applyChg s.tg c <;> rfl
      | _ => rfl
    simp only [applyAll, one] at e ⊢
    cases h : apply1 A s c with
    | error x => rw [h] at e; cases e
    | ok x =>
      rw [h] at e
      exact applyAll_with e

/-! ### The measure -/

def M1 (A : Ast T) (s : S T) : Nat :=
  (A.ops.filter fun op => op ∉ s.ops).length + (A.exprs.filter fun e => e ∉ s.exprs).length +
    (A.defs.filter fun d => d ∉ s.callsite.map (·.1)).length

def NotAbove (A : Ast T) (names : List String) (s' s : S T) : Prop :=
  M1 A s' < M1 A s ∨ (M1 A s' ≤ M1 A s ∧ M2 A names s' ≤ M2 A names s)

def Below (A : Ast T) (names : List String) (s' s : S T) : Prop :=
  M1 A s' < M1 A s ∨ (M1 A s' ≤ M1 A s ∧ M2 A names s' < M2 A names s)

theorem NotAbove.refl (A : Ast T) (names : List String) (s : S T) : NotAbove A names s s := .inr ⟨Nat.le_refl _, Nat.le_refl _⟩

theorem NotAbove.trans {A : Ast T} {names : List String} {a b c : S T} (h : NotAbove A names b a) (h' : NotAbove A names c b) :
    NotAbove A names c a := by unfold NotAbove at *; omega

theorem Below.trans_left {A : Ast T} {names : List String} {a b c : S T} (h : NotAbove A names b a) (h' : Below A names c b) :
    Below A names c a := by unfold NotAbove Below at *; omega

theorem Below.trans_right {A : Ast T} {names : List String} {a b c : S T} (h : Below A names b a) (h' : NotAbove A names c b) :
    Below A names c a := by unfold NotAbove Below at *; omega

theorem Below.notAbove {A : Ast T} {names : List String} {a b : S T} (h : Below A names b a) : NotAbove A names b a := by
  unfold NotAbove Below at *; omega

theorem Rest.m1 {A : Ast T} {s s' : S T} (h : Rest s s') : M1 A s' = M1 A s := by
  unfold M1 S.ops; rw [h.steps, h.exprs, h.callsite]

theorem rel_notAbove {A : Ast T} {names : List String} {s s' : S T} {b : Bool} (h : Rel A names s s' b) (hr : Rest s s') :
    NotAbove A names s' s := .inr ⟨Nat.le_of_eq hr.m1, h.m2.1⟩

theorem rel_below {A : Ast T} {names : List String} {s s' : S T} (h : Rel A names s s' true) (hr : Rest s s') :
    Below A names s' s := .inr ⟨Nat.le_of_eq hr.m1, h.m2.2 rfl⟩

theorem below_wf (A : Ast T) (names : List String) : WellFounded (Below A names) := by
  refine Subrelation.wf (r := InvImage (Prod.Lex (· < ·) (· < ·)) fun s : S T => (M1 A s, M2 A names s)) ?_
    (InvImage.wf _ (Prod.lex ⟨_, Nat.lt_wfRel.wf⟩ ⟨_, Nat.lt_wfRel.wf⟩).wf)
  intro a b h
  show Prod.Lex _ _ (M1 A a, M2 A names a) (M1 A b, M2 A names b)
  rcases h with h | ⟨h1, h2⟩
  · exact .left _ _ h
  · rcases Nat.lt_or_eq_of_le h1 with h | h
    · exact .left _ _ h
    · rw [h]; exact .right _ h2

end Verif.Comp
