import Verif.Lemmas.ProgBegin
import Verif.Spec.Notes
/-! C78: the annotated types that are collected are those that are written. -/
namespace Verif.Prog
open Verif Verif.Exp

variable {D : Defs}

/-! ### The graph is the same -/

theorem addBlksN_graph {root : Nat} : ∀ (bs : List Exp.Blk) (g : Graph) (q : Queue) (ns : List Ann),
    (addBlksN D root bs g q ns).map (fun r => (r.1, r.2.1)) = addBlks D root bs g q := by
  intro bs
  induction bs with
  | nil => intro g q ns; rfl
  | cons b bs ih =>
    intro g q ns
    obtain ⟨op, i, o, ts⟩ := b
    cases op with
    | none => rfl
    | some f =>
      simp only [addBlksN, addBlks]
      cases checkTy D i with
      | error x => rfl
      | ok _ =>
        cases checkTy D o with
        | error x => rfl
        | ok _ =>
          dsimp only
          cases addTerms D g.nodes.length ts ((g.add (.op f)).link root g.nodes.length .normal) q with
          | error x => rfl
          | ok r => exact ih _ _ _

theorem flatLoopN_graph : ∀ (f : Nat) (q : Queue) (g : Graph) (ns : List Ann), (flatLoopN D f q g ns).map (·.1) = flatLoop D f q g := by
  intro f
  induction f with
  | zero => intro q g ns; cases q <;> rfl
  | succ f ih =>
    intro q g ns
    cases q with
    | nil => rfl
    | cons x q =>
      obtain ⟨root, e⟩ := x
      simp only [flatLoopN, flatLoop]
      rw [← addBlksN_graph _ _ _ (ns ++ ann root .out e.out)]
      cases addBlksN D root e.blks g q (ns ++ ann root .out e.out) with
      | error x => rfl
      | ok r => exact ih _ _ _

theorem flattenN_graph (e : Expr) (g : Graph) (ns : List Ann) : (flattenN D e g ns).map (·.1) = flatten D e g := by
  unfold flattenN flatten
  cases checkTy D e.out with
  | error x => rfl
  | ok _ => exact flatLoopN_graph _ _ _ _

def noAnn (r : Graph × List Ann × Bool) : Graph × Bool := (r.1, r.2.2)

theorem addImplN_graph (op : Nat) (name : String) (ps : List (String × String)) (g : Graph) (ns : List Ann) (im : Impl) :
    (addImplN D op name ps g ns im).map noAnn = addImpl D op name ps g im := by
  unfold addImplN addImpl
  cases im.defn with
  | none => rfl
  | some x =>
    obtain ⟨params, e⟩ := x
    dsimp only
    split
    · rfl
    · cases checkParams D params with
      | error x => rfl
      | ok _ =>
        dsimp only
        rw [← flattenN_graph e (g.add (.defn name im.ty)) ns]
        cases flattenN D e (g.add (.defn name im.ty)) ns <;> rfl

theorem addImplsN_graph (op : Nat) (name : String) (ps : List (String × String)) : ∀ (ims : List Impl) (g : Graph) (ns : List Ann) (b : Bool),
    (addImplsN D op name ps ims g ns b).map noAnn = addImpls D op name ps ims g b := by
  intro ims
  induction ims with
  | nil => intro g ns b; rfl
  | cons im ims ih =>
    intro g ns b
    simp only [addImplsN, addImpls]
    rw [← addImplN_graph op name ps g ns im]
    cases addImplN D op name ps g ns im with
    | error x => rfl
    | ok r => exact ih _ _ _

theorem expandDefN_graph (g : Graph) (ns : List Ann) (op : Nat) : (expandDefN D g ns op).map noAnn = expandDef D g op := by
  unfold expandDefN expandDef
  cases (g.nodes[op]?).bind Node.opName with
  | none => rfl
  | some name =>
    dsimp only
    cases D.impls name with
    | nil => rfl
    | cons im ims => exact addImplsN_graph _ _ _ _ _ _ _

theorem expandOpsN_graph : ∀ (ops : List Nat) (g : Graph) (ns : List Ann) (b : Bool),
    (expandOpsN D ops g ns b).map noAnn = expandOps D ops g b := by
  intro ops
  induction ops with
  | nil => intro g ns b; rfl
  | cons op ops ih =>
    intro g ns b
    simp only [expandOpsN, expandOps]
    rw [← expandDefN_graph g ns op]
    cases expandDefN D g ns op with
    | error x => rfl
    | ok r => exact ih _ _ _

theorem initLoopN_graph : ∀ (left : Nat) (g : Graph) (ns : List Ann), (initLoopN D left g ns).map (·.1) = initLoop D left g := by
  intro left
  induction left with
  | zero =>
    intro g ns
    unfold initLoopN initLoop expandDefs expandDefsN
    rw [← expandOpsN_graph _ g ns]
    cases expandOpsN D (openOps g) g ns false with
    | error x => rfl
    | ok r => obtain ⟨g', ns', b⟩ := r; cases b <;> rfl
  | succ left ih =>
    intro g ns
    unfold initLoopN initLoop expandDefs expandDefsN
    rw [← expandOpsN_graph _ g ns]
    cases expandOpsN D (openOps g) g ns false with
    | error x => rfl
    | ok r =>
      obtain ⟨g', ns', b⟩ := r
      cases b
      · rfl
      · exact ih _ _

theorem initN_graph (e : Expr) : (initN D e).map (·.1) = init D e := by
  unfold initN init
  rw [← flattenN_graph e _ []]
  cases flattenN D e ⟨[], [], []⟩ [] with
  | error x => rfl
  | ok r => exact initLoopN_graph _ _ _

theorem map_eq_ok {ε α β : Type} {f : α → β} {x : Except ε α} {y : Except ε β} {a : α} (h : x.map f = y) (hx : x = .ok a) : y = .ok (f a) := by
  rw [← h, hx]; rfl

/-! ### What is collected -/

section
variable {P Q : Nat → Ty.Side → String → Prop} {g : Graph} (h : ∀ n sd t, P n sd t → Q n sd t)
include h

mutual
theorem AnnotsE.mono : ∀ (e : Expr) (n : Nat), AnnotsE P g n e → AnnotsE Q g n e
  | .mk _ bs, n, ⟨h1, h2⟩ => ⟨fun t ht => h _ _ _ (h1 t ht), AnnotsBs.mono bs _ h2⟩
theorem AnnotsBs.mono : ∀ (bs : List Exp.Blk) (ms : List Nat), AnnotsBs P g ms bs → AnnotsBs Q g ms bs
  | [], _, h1 => h1
  | b :: bs, _, ⟨m, ms', h1, h2, h3⟩ => ⟨m, ms', h1, AnnotsB.mono b m h2, AnnotsBs.mono bs ms' h3⟩
theorem AnnotsB.mono : ∀ (b : Exp.Blk) (m : Nat), AnnotsB P g m b → AnnotsB Q g m b
  | .mk _ _ _ ts, m, ⟨h1, h2, h3⟩ => ⟨fun t ht => h _ _ _ (h1 t ht), fun t ht => h _ _ _ (h2 t ht), AnnotsTs.mono ts _ h3⟩
theorem AnnotsTs.mono : ∀ (ts : List Term) (ks : List Nat), AnnotsTs P g ks ts → AnnotsTs Q g ks ts
  | [], _, h1 => h1
  | t :: ts, _, ⟨k, ks', h1, h2, h3⟩ => ⟨k, ks', h1, AnnotsT.mono t k h2, AnnotsTs.mono ts ks' h3⟩
theorem AnnotsT.mono : ∀ (t : Term) (k : Nat), AnnotsT P g k t → AnnotsT Q g k t
  | .flag _, _, _ => trivial
  | .plain _, _, _ => trivial
  | .pound _, _, _ => trivial
  | .expr e, k, h1 => AnnotsE.mono e k h1
end
end

section
variable {P : Nat → Ty.Side → String → Prop} {g g' : Graph}
  (h : ∀ (n : Nat) x, g.nodes[n]? = some x → x.isCmd = false → below g' n = below g n)
include h

mutual
theorem AnnotsE.same : ∀ (e : Expr) (n : Nat), ShowsE g n e → AnnotsE P g n e → AnnotsE P g' n e
  | .mk _ bs, n, ⟨s1, s2⟩, ⟨h1, h2⟩ => ⟨h1, by
      rw [h n _ s1 rfl]
      exact AnnotsBs.same bs _ s2 h2⟩
theorem AnnotsBs.same : ∀ (bs : List Exp.Blk) (ms : List Nat), ShowsBs g ms bs → AnnotsBs P g ms bs → AnnotsBs P g' ms bs
  | [], _, _, h1 => h1
  | b :: bs, _, ⟨_, _, s1, s2, s3⟩, ⟨m, ms', h1, h2, h3⟩ => by
    rw [s1] at h1
    injection h1 with e1 e2
    subst e1 e2
    exact ⟨_, _, s1, AnnotsB.same b _ s2 h2, AnnotsBs.same bs _ s3 h3⟩
theorem AnnotsB.same : ∀ (b : Exp.Blk) (m : Nat), ShowsB g m b → AnnotsB P g m b → AnnotsB P g' m b
  | .mk _ _ _ ts, m, ⟨⟨_, _, s1⟩, s2⟩, ⟨h1, h2, h3⟩ => ⟨h1, h2, by
      rw [h m _ s1 rfl]
      exact AnnotsTs.same ts _ s2 h3⟩
theorem AnnotsTs.same : ∀ (ts : List Term) (ks : List Nat), ShowsTs g ks ts → AnnotsTs P g ks ts → AnnotsTs P g' ks ts
  | [], _, _, h1 => h1
  | t :: ts, _, ⟨_, _, s1, s2, s3⟩, ⟨k, ks', h1, h2, h3⟩ => by
    rw [s1] at h1
    injection h1 with e1 e2
    subst e1 e2
    exact ⟨_, _, s1, AnnotsT.same t _ s2 h2, AnnotsTs.same ts _ s3 h3⟩
theorem AnnotsT.same : ∀ (t : Term) (k : Nat), ShowsT g k t → AnnotsT P g k t → AnnotsT P g' k t
  | .flag _, _, _, _ => trivial
  | .plain _, _, _, _ => trivial
  | .pound _, _, _, _ => trivial
  | .expr e, k, s1, h1 => AnnotsE.same e k s1 h1
end
end

/-- It is collected. -/
def In (ns : List Ann) (n : Nat) (sd : Ty.Side) (t : String) : Prop := (n, sd, t) ∈ ns

theorem mem_ann {a : Ann} {n : Nat} {sd : Ty.Side} {o : Option String} : a ∈ ann n sd o ↔ ∃ t, o = some t ∧ a = (n, sd, t) := by
  cases o <;> simp [ann]

/-- The types of the blocks, without those in their arguments. -/
def Top (ns : List Ann) : List Nat → List Exp.Blk → Prop
  | ms, [] => ms = []
  | ms, .mk _ i o _ :: bs => ∃ m ms', ms = m :: ms' ∧ (∀ t, i = some t → In ns m .inp t) ∧ (∀ t, o = some t → In ns m .out t) ∧ Top ns ms' bs

/-- The new ones are of operations and expressions. -/
def Fine (g : Graph) (ns : List Ann) : Prop := ∀ a ∈ ns, Annotable g a.1 a.2.1

theorem Fine.keeps {g g' : Graph} {ns : List Ann} (h : Fine g ns) (k : Keeps g g') : Fine g' ns := by
  intro a ha
  rcases h a ha with ⟨f, h1⟩ | ⟨h1, h2⟩
  · exact Or.inl ⟨f, k _ _ h1⟩
  · exact Or.inr ⟨k _ _ h1, h2⟩

theorem addBlksN_top {root : Nat} : ∀ (bs : List Exp.Blk) (g : Graph) (q : Queue) (ns : List Ann) {g' : Graph} {q' : Queue} {ns' : List Ann},
    addBlksN D root bs g q ns = .ok (g', q', ns') → root < g.nodes.length → Src g → Fine g ns →
    (∀ a ∈ ns, a ∈ ns') ∧ Fine g' ns' ∧ ∃ ms, below g' root = below g root ++ ms ∧ Top ns' ms bs := by
  intro bs
  induction bs with
  | nil =>
    intro g q ns g' q' ns' h hr hs hf
    cases h
    exact ⟨fun _ h => h, hf, [], by simp, rfl⟩
  | cons blk bs ih =>
    intro g q ns g' q' ns' h hr hs hf
    obtain ⟨op, inTy, outTy, terms⟩ := blk
    cases op with
    | none => cases h
    | some op =>
      simp only [addBlksN] at h
      split at h
      · cases h
      · split at h
        · cases h
        · split at h
          · cases h
          · rename_i g1 q1 ht
            have hl0 := len_step g (.op op) root g.nodes.length .normal
            obtain ⟨ks, new1, hq1, hk1, hs1, hl1, hb1, ho1, hp1⟩ :=
              addTerms_shows D g.nodes.length terms _ q ht (by omega) (hs.step hr _ _ _)
            have hop1 : g1.nodes[g.nodes.length]? = some (.op op) := hk1 _ _ (new_step _ _ _ _ _)
            have hf1 : Fine g1 (ns ++ ann g.nodes.length .inp inTy ++ ann g.nodes.length .out outTy) := by
              intro a ha
              rcases List.mem_append.1 ha with ha | ha
              · rcases List.mem_append.1 ha with ha | ha
                · exact (hf.keeps fun n x hx => hk1 n x (keeps_step _ _ _ _ _ n x hx)) a ha
                · obtain ⟨t, _, rfl⟩ := mem_ann.1 ha
                  exact Or.inl ⟨op, hop1⟩
              · obtain ⟨t, _, rfl⟩ := mem_ann.1 ha
                exact Or.inl ⟨op, hop1⟩
            obtain ⟨r1, r2, ms, r3, r4⟩ := ih g1 q1 _ h (by omega) hs1 hf1
            refine ⟨fun a ha => r1 a (List.mem_append_left _ (List.mem_append_left _ ha)), r2, g.nodes.length :: ms, ?_, ?_⟩
            · rw [r3, ho1 _ (by omega), below_link, if_pos rfl, below_add, List.append_assoc]; rfl
            · exact ⟨_, ms, rfl, fun t ht => r1 _ (List.mem_append_left _ (List.mem_append_right _ (mem_ann.2 ⟨t, ht, rfl⟩))),
                fun t ht => r1 _ (List.mem_append_right _ (mem_ann.2 ⟨t, ht, rfl⟩)), r4⟩

theorem annots_terms {g g' : Graph} {q : Queue} {P : Nat → Ty.Side → String → Prop} (hq : ∀ x ∈ q, AnnotsE P g' x.1 x.2) :
    ∀ {ts : List Term} {ks : List Nat}, PTs g q ks ts → AnnotsTs P g' ks ts
  | [], _, h1 => h1
  | t :: _, _, ⟨k, ks', h1, h2, h3⟩ => by
    refine ⟨k, ks', h1, ?_, annots_terms hq h3⟩
    cases t with
    | flag f => exact trivial
    | plain f => exact trivial
    | pound f => exact trivial
    | expr e => exact hq _ h2

theorem annots_blocks {g g' : Graph} {q : Queue} {ns : List Ann} (hq : ∀ x ∈ q, AnnotsE (In ns) g' x.1 x.2)
    (hb : ∀ m f, g.nodes[m]? = some (.op f) → below g' m = below g m) : ∀ {bs : List Exp.Blk} {ms : List Nat},
    PBs g q ms bs → Top ns ms bs → AnnotsBs (In ns) g' ms bs
  | [], _, h1, _ => h1
  | .mk _ _ _ _ :: _, _, ⟨m, ms', h1, ⟨⟨f, h2, h3⟩, h4⟩, h5⟩, ⟨_, _, k1, k2, k3, k4⟩ => by
    rw [h1] at k1
    injection k1 with e1 e2
    subst e1 e2
    refine ⟨m, ms', h1, ⟨k2, k3, ?_⟩, annots_blocks hq hb h5 k4⟩
    rw [hb m f h3]
    exact annots_terms hq h4

theorem Top.mono {ns ns' : List Ann} (h : ∀ a ∈ ns, a ∈ ns') : ∀ {bs : List Exp.Blk} {ms : List Nat}, Top ns ms bs → Top ns' ms bs
  | [], _, h1 => h1
  | .mk _ _ _ _ :: _, _, ⟨m, ms', k1, k2, k3, k4⟩ =>
    ⟨m, ms', k1, fun t ht => h _ (k2 t ht), fun t ht => h _ (k3 t ht), Top.mono h k4⟩

theorem flatLoopN_annots : ∀ (fuel : Nat) (q : Queue) (g : Graph) (ns : List Ann) {g' : Graph} {ns' : List Ann},
    flatLoopN D fuel q g ns = .ok (g', ns') → Src g → (q.map (·.1)).Nodup → (∀ x ∈ q, g.nodes[x.1]? = some .expr ∧ below g x.1 = []) →
    Fine g ns → (∀ x ∈ q, AnnotsE (In ns') g' x.1 x.2) ∧ (∀ a ∈ ns, a ∈ ns') ∧ Fine g' ns' := by
  intro fuel
  induction fuel with
  | zero =>
    intro q g ns g' ns' h hs hn hq hf
    cases q with
    | nil => simp only [flatLoopN] at h; cases h; exact ⟨by simp, fun _ h => h, hf⟩
    | cons x q => simp [flatLoopN] at h
  | succ fuel ih =>
    intro q g ns g' ns' h hs hn hq hf
    cases q with
    | nil => simp only [flatLoopN] at h; cases h; exact ⟨by simp, fun _ h => h, hf⟩
    | cons x q =>
      obtain ⟨root, e⟩ := x
      simp only [flatLoopN] at h
      split at h
      · cases h
      · rename_i g1 q1 ns1 hbN
        have hb : addBlks D root e.blks g q = .ok (g1, q1) := by
          have := addBlksN_graph (D := D) (root := root) e.blks g q (ns ++ ann root .out e.out)
          rw [hbN] at this
          exact this.symm
        have hloop : flatLoop D fuel q1 g1 = .ok g' := map_eq_ok (flatLoopN_graph _ _ _ _) h
        obtain ⟨hr1, hr2⟩ := hq (root, e) List.mem_cons_self
        dsimp only at hr1 hr2
        have hrl := (List.getElem?_eq_some_iff.1 hr1).1
        rw [List.map_cons, List.nodup_cons] at hn
        obtain ⟨ms, new, hqd, hk, hs1, hl, hb1, ho, hp⟩ := addBlks_shows D root e.blks g q hb hrl hs
        have hlt : ∀ x ∈ q, x.1 < g.nodes.length := fun x hx =>
          (List.getElem?_eq_some_iff.1 (hq x (List.mem_cons_of_mem _ hx)).1).1
        have hr : root ∉ q1.map (·.1) := by
          rw [hqd.eq, List.map_append, List.mem_append]
          rintro (h1 | h1)
          · exact hn.1 h1
          · obtain ⟨y, hy, h2⟩ := List.mem_map.1 h1
            have := (hqd.node y hy).1
            omega
        have hn1 : (q1.map (·.1)).Nodup := by
          rw [hqd.eq, List.map_append]
          refine List.nodup_append.2 ⟨hn.2, hqd.nodup, ?_⟩
          intro a ha b hb' hab
          subst hab
          obtain ⟨y, hy, rfl⟩ := List.mem_map.1 ha
          obtain ⟨z, hz, hyz⟩ := List.mem_map.1 hb'
          have h1 := hlt y hy
          have h2 := (hqd.node z hz).1
          omega
        have hq1 : ∀ x ∈ q1, g1.nodes[x.1]? = some .expr ∧ below g1 x.1 = [] := by
          intro x hx
          rw [hqd.eq] at hx
          rcases List.mem_append.1 hx with hx | hx
          · obtain ⟨h1, h2⟩ := hq x (List.mem_cons_of_mem _ hx)
            refine ⟨hk _ _ h1, ?_⟩
            rw [ho _ (hlt x hx) (fun h => hn.1 (List.mem_map.2 ⟨x, hx, h⟩))]
            exact h2
          · exact (hqd.node x hx).2
        have hf0 : Fine g (ns ++ ann root .out e.out) := by
          intro a ha
          rcases List.mem_append.1 ha with ha | ha
          · exact hf a ha
          · obtain ⟨t, _, rfl⟩ := mem_ann.1 ha
            exact Or.inr ⟨hr1, rfl⟩
        obtain ⟨t1, t2, ms', t3, t4⟩ := addBlksN_top _ _ _ _ hbN hrl hs hf0
        have hms : ms' = ms := by
          rw [hb1] at t3
          exact (List.append_cancel_left t3).symm
        subst hms
        obtain ⟨r1, r2, r3⟩ := ih q1 g1 ns1 h hs1 hn1 hq1 t2
        obtain ⟨_, _, w3⟩ := flatLoop_shows D fuel q1 g1 hloop hs1 hn1 hq1
        refine ⟨?_, fun a ha => r2 a (t1 a (List.mem_append_left _ ha)), r3⟩
        intro x hx
        rcases List.mem_cons.1 hx with rfl | hx
        · obtain ⟨o, bs⟩ := e
          refine ⟨fun t ht => r2 _ (t1 _ (List.mem_append_right _ (mem_ann.2 ⟨t, ht, rfl⟩))), ?_⟩
          dsimp only
          rw [w3 root (by omega) hr, hb1, hr2, List.nil_append]
          refine annots_blocks r1 ?_ hp (t4.mono r2)
          intro m f hm
          refine w3 m (List.getElem?_eq_some_iff.1 hm).1 ?_
          intro h1
          obtain ⟨y, hy, rfl⟩ := List.mem_map.1 h1
          rw [(hq1 y hy).1] at hm
          cases hm
        · exact r1 x (by rw [hqd.eq]; exact List.mem_append_left _ hx)

theorem flattenN_annots {e : Expr} {g g' : Graph} {ns ns' : List Ann} (h : flattenN D e g ns = .ok (g', ns')) (hs : Src g) (hf : Fine g ns) :
    AnnotsE (In ns') g' g.nodes.length e ∧ (∀ a ∈ ns, a ∈ ns') ∧ Fine g' ns' := by
  unfold flattenN at h
  split at h
  · cases h
  · have hs1 : Src (g.add .expr) := by
      intro x hx
      have := hs x hx
      simp [Graph.add]; omega
    obtain ⟨h1, h2, h3⟩ := flatLoopN_annots _ _ _ _ h hs1 (by simp) (by
      intro x hx
      rw [List.mem_singleton.1 hx]
      exact ⟨by simp [Graph.add], by rw [below_add]; exact hs.none (Nat.le_refl _)⟩) (hf.keeps (by
        intro n y hy
        show (g.nodes ++ [_])[n]? = _
        rw [List.getElem?_append_left (getElem?_lt hy)]
        exact hy))
    exact ⟨h1 _ List.mem_cons_self, h2, h3⟩

/-! ### Definitions -/

/-- While definitions are expanded: the types of the program and of the definitions are collected. -/
structure Collects (D : Defs) (e : Expr) (g : Graph) (ns : List Ann) : Prop where
  up : Up g
  fine : Fine g ns
  shows : ShowsE g 0 e
  annots : AnnotsE (In ns) g 0 e
  bodies : ∀ (c : Nat) f ty, g.nodes[c]? = some (.defn f ty) → ∃ im ∈ D.impls f, im.ty = ty ∧ ∃ ps b, im.defn = some (ps, b) ∧
    below g c = [c + 1] ∧ ShowsE g (c + 1) b ∧ AnnotsE (In ns) g (c + 1) b

theorem In.mono {ns ns' : List Ann} (h : ∀ a ∈ ns, a ∈ ns') (n : Nat) (sd : Ty.Side) (t : String) : In ns n sd t → In ns' n sd t := h _

variable {e : Expr}

theorem addImplN_collects {op : Nat} {name : String} {ps : List (String × String)} {g g' : Graph} {ns ns' : List Ann} {im : Impl} {b : Bool}
    (h : addImplN D op name ps g ns im = .ok (g', ns', b)) (hm : im ∈ D.impls name) (hc : Collects D e g ns) (hop : op < g.nodes.length) :
    Collects D e g' ns' ∧ g.nodes.length ≤ g'.nodes.length := by
  have hg : addImpl D op name ps g im = .ok (g', b) := by
    have := addImplN_graph (D := D) op name ps g ns im
    rw [h] at this
    exact this.symm
  have hsub : (∀ a ∈ ns, a ∈ ns') ∧ Fine g' ns' ∧ ∀ ps' body, b = true → im.defn = some (ps', body) →
      AnnotsE (In ns') g' (g.nodes.length + 1) body := by
    unfold addImplN at h
    split at h
    · rename_i hd
      cases h
      refine ⟨fun _ h => h, hc.fine.keeps ?_, fun ps' body _ hb => by rw [hd] at hb; cases hb⟩
      intro n x hx
      rw [linkCmd_eq]
      show (g.nodes ++ [_])[n]? = _
      rw [List.getElem?_append_left (getElem?_lt hx)]
      exact hx
    · rename_i params body hd
      split at h
      · cases h
        exact ⟨fun _ h => h, hc.fine, fun _ _ hb _ => by cases hb⟩
      · split at h
        · cases h
        · dsimp only at h
          split at h
          · cases h
          · rename_i g3 ns3 hf
            cases h
            have hl0 : (g.add (.defn name im.ty)).nodes.length = g.nodes.length + 1 := by simp [Graph.add]
            have hsrc : Src (g.add (.defn name im.ty)) := by
              intro x hx
              have := hc.up x hx
              rw [hl0]; omega
            have hkeep : Keeps g (g.add (.defn name im.ty)) := by
              intro n x hx
              show (g.nodes ++ [_])[n]? = _
              rw [List.getElem?_append_left (getElem?_lt hx)]
              exact hx
            obtain ⟨h1, h2, h3⟩ := flattenN_annots hf hsrc (hc.fine.keeps hkeep)
            have hfl : flatten D body (g.add (.defn name im.ty)) = .ok g3 := map_eq_ok (flattenN_graph body _ ns) hf
            obtain ⟨s1, s2⟩ := flatten_shows hfl hsrc
            rw [hl0] at h1 s1
            have hdef : g3.nodes[g.nodes.length]? = some (.defn name im.ty) :=
              (s2 g.nodes.length _ (by simp [Graph.add])).1
            have hnode : Keeps g3 (linkCmd (noteId (g3.link g.nodes.length (g.nodes.length + 1) .normal) g.nodes.length name im.ty) op
                g.nodes.length im.ty) := by
              intro n x hx
              rw [linkCmd_eq]
              show (noteId _ _ _ _).nodes[n]? = _
              rw [(noteId_rest _ _ _ _).1]
              exact hx
            refine ⟨h2, h3.keeps hnode, ?_⟩
            intro ps' body' _ hb
            rw [hd] at hb
            cases hb
            refine AnnotsE.same ?_ body _ s1 h1
            intro n x hx hcmd
            rw [below_linkCmd]
            have : ∀ n, below (noteId (g3.link g.nodes.length (g.nodes.length + 1) .normal) g.nodes.length name im.ty) n =
                below (g3.link g.nodes.length (g.nodes.length + 1) .normal) n := by
              intro n
              unfold below
              rw [(noteId_rest _ _ _ _).2]
            rw [this, below_link, if_neg]
            intro e1
            rw [← e1, hdef] at hx
            cases hx
            cases hcmd
  obtain ⟨k1, k2, k3⟩ := hsub
  cases b with
  | false =>
    obtain ⟨rfl, _⟩ := addImpl_false hg
    refine ⟨⟨hc.up, k2, hc.shows, AnnotsE.mono (In.mono k1) _ _ hc.annots, ?_⟩, Nat.le_refl _⟩
    intro c f ty hx
    obtain ⟨im', h1, h2, ps', body, h3, h4, h5, h6⟩ := hc.bodies c f ty hx
    exact ⟨im', h1, h2, ps', body, h3, h4, h5, AnnotsE.mono (In.mono k1) _ _ h6⟩
  | true =>
    obtain ⟨nn, es, ha⟩ := addImpl_added hc.up hop hg
    have hs := ha.same
    have hl := ha.len
    refine ⟨⟨ha.up' hc.up hop, k2, hc.shows.same hs,
      AnnotsE.mono (In.mono k1) _ _ (AnnotsE.same (fun n x hx _ => (hs n x hx).2) _ _ hc.shows hc.annots), ?_⟩, by omega⟩
    intro c f ty hx
    rcases ha.cases hx with ⟨_, h0⟩ | ⟨rfl, h0⟩ | ⟨_, _, h0⟩
    · obtain ⟨im', h1, h2, ps', body, h3, h4, h5, h6⟩ := hc.bodies c f ty h0
      exact ⟨im', h1, h2, ps', body, h3, by rw [(hs _ _ h0).2, h4], h5.same hs,
        AnnotsE.mono (In.mono k1) _ _ (AnnotsE.same (fun n x hx _ => (hs n x hx).2) _ _ h5 h6)⟩
    · unfold cmdNode at h0
      cases hd : im.defn with
      | none => rw [hd] at h0; cases h0
      | some x =>
        obtain ⟨ps', body⟩ := x
        rw [hd] at h0
        cases h0
        obtain ⟨h4, h5⟩ := ha.body ps' body hd
        exact ⟨im, hm, rfl, ps', body, hd, h4, h5, k3 ps' body rfl hd⟩
    · cases h0

theorem addImplsN_collects {op : Nat} {name : String} {ps : List (String × String)} : ∀ (ims : List Impl) {g g' : Graph} {ns ns' : List Ann}
    {b b' : Bool}, addImplsN D op name ps ims g ns b = .ok (g', ns', b') → (∀ im ∈ ims, im ∈ D.impls name) → Collects D e g ns →
    op < g.nodes.length → Collects D e g' ns' ∧ g.nodes.length ≤ g'.nodes.length := by
  intro ims
  induction ims with
  | nil => intro g g' ns ns' b b' h _ hc _; cases h; exact ⟨hc, Nat.le_refl _⟩
  | cons im ims ih =>
    intro g g' ns ns' b b' h hm hc hop
    rw [addImplsN] at h
    split at h
    · cases h
    · rename_i g1 ns1 c h1
      obtain ⟨k1, k2⟩ := addImplN_collects h1 (hm im List.mem_cons_self) hc hop
      obtain ⟨r1, r2⟩ := ih h (fun x hx => hm x (List.mem_cons_of_mem _ hx)) k1 (by omega)
      exact ⟨r1, by omega⟩

theorem expandOpsN_collects : ∀ (ops : List Nat) {g g' : Graph} {ns ns' : List Ann} {b b' : Bool},
    expandOpsN D ops g ns b = .ok (g', ns', b') → Collects D e g ns → Collects D e g' ns' := by
  intro ops
  induction ops with
  | nil => intro g g' ns ns' b b' h hc; cases h; exact hc
  | cons op ops ih =>
    intro g g' ns ns' b b' h hc
    rw [expandOpsN] at h
    split at h
    · cases h
    · rename_i g1 ns1 c h1
      refine ih h ?_
      unfold expandDefN at h1
      split at h1
      · cases h1
      · rename_i name hname
        have hop := getElem?_lt (opName_some hname)
        split at h1
        · cases h1
        · rename_i ims _
          exact (addImplsN_collects _ h1 (fun _ h => h) hc hop).1

theorem initLoopN_collects : ∀ (left : Nat) {g g' : Graph} {ns ns' : List Ann}, initLoopN D left g ns = .ok (g', ns') →
    Collects D e g ns → Collects D e g' ns' := by
  intro left
  induction left with
  | zero =>
    intro g g' ns ns' h hc
    rw [initLoopN] at h
    split at h
    · cases h
    · rename_i h1; cases h; exact expandOpsN_collects _ h1 hc
    · cases h
  | succ left ih =>
    intro g g' ns ns' h hc
    rw [initLoopN] at h
    split at h
    · cases h
    · rename_i h1; cases h; exact expandOpsN_collects _ h1 hc
    · rename_i h1; exact ih h (expandOpsN_collects _ h1 hc)

theorem initN_collects {g : Graph} {ns : List Ann} (h : initN D e = .ok (g, ns)) : Collects D e g ns := by
  unfold initN at h
  split at h
  · cases h
  · rename_i g0 ns0 hf
    have hs : Src ⟨[], [], []⟩ := by intro x hx; cases hx
    have hfl : flatten D e ⟨[], [], []⟩ = .ok g0 := map_eq_ok (flattenN_graph e _ []) hf
    obtain ⟨h1, _, h3⟩ := flattenN_annots hf hs (by intro a ha; cases ha)
    obtain ⟨s1, _⟩ := flatten_shows hfl hs
    obtain ⟨hi, _, _, hn⟩ := inv_start hfl
    refine initLoopN_collects _ h ⟨hi.up, h3, s1, h1, ?_⟩
    intro c f ty hx
    have hc0 : c ≠ 0 := by
      intro hc0
      rw [hc0] at hx
      cases e
      have h0 : g0.nodes[0]? = some _ := s1.1
      rw [h0] at hx
      cases hx
    obtain ⟨x, hx1, hx2⟩ : ∃ x ∈ g0.edges, x.dst = c := by
      have := hi.root c (getElem?_lt hx)
      cases this with
      | refl => exact absurd rfl hc0
      | step x _ hm _ => exact ⟨x, hm, rfl⟩
    have := (hi.kind x hx1 _ (by rw [hx2]; exact hx)).1 (hn x hx1)
    cases this

end Verif.Prog
