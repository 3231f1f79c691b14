import Verif.Lemmas.EvalMoves
/-! What holds of variables and compiled blocks is kept by every move of the compiler. -/
namespace Verif.Comp
open Verif
set_option linter.unusedSectionVars false
variable {T V : Type} [DecidableEq T]

section
variable {A : Ast T} {I : Builtins T} {E : Exec T V} {m : Nat} {s s' : S T} {D D' : List Scope.DefAt} {H : List (List Nat)}

/-! ### Parameters -/

theorem declared_ty {t : Option T} {a : Arg T} {cs : List (Chg T)} (h : declared t a = .error cs) : ∀ c ∈ cs, ∃ x, c = .ty x := by
  cases t with
  | none => cases h
  | some u => exact returns_ty h

theorem declared_same {t : Option T} {a b : Arg T} (h : declared t a = .ok b) : b = a := by
  cases t with
  | none => cases h; rfl
  | some u => exact returns_same h

theorem callsiteParam_cases (hf : Fresh s) (d : Nat) (name : String) (t : Option T) (n : Nat) :
    ((callsiteParam A s d name t n).2 = .ok (some false) ∧ ∃ u, (callsiteParam A s d name t n).1 = [.var name u (A.body d)] ∧
      Ty.Settled (s.tg.kn n .out) u ∧ Loc.newVar s.lg (A.place (A.body d)) name = none) ∨
    ((callsiteParam A s d name t n).2 ≠ .ok (some false) ∧ ∀ c ∈ (callsiteParam A s d name t n).1, ∃ x, c = .ty x) := by
  unfold callsiteParam
  cases h : declared t (newArg A s n) with
  | error cs => exact .inr ⟨by simp, declared_ty h⟩
  | ok a =>
    dsimp only
    split
    · exact .inr ⟨by simp, fun _ h => by cases h⟩
    · exact .inr ⟨by simp, fun _ h => by cases h⟩
    · cases hu : a.out.ty with
      | none => exact .inr ⟨by simp, fun _ h => by cases h⟩
      | some u =>
        dsimp only
        cases hv : newVar A s name u (A.body d) with
        | error e => exact .inr ⟨by simp, fun _ h => by cases h⟩
        | ok c =>
          cases c with
          | none => exact .inr ⟨by simp, fun _ h => by cases h⟩
          | some c =>
            obtain ⟨e1, e2⟩ := newVar_some hv
            rw [declared_same h] at hu
            exact .inl ⟨rfl, u, by rw [e1], (newArg_cur A s n).settled_out hf hu, e2⟩

theorem callsiteParam_there (hl : Locs A s D) {d : Nat} {name : String} {t : Option T} {n : Nat}
    (h : (callsiteParam A s d name t n).2 = .ok (some true)) : ∃ x, variableAt A s name (A.body d) = some x := by
  unfold callsiteParam at h
  cases h1 : declared t (newArg A s n) with
  | error cs => rw [h1] at h; cases h
  | ok a =>
    rw [h1] at h
    dsimp only at h
    split at h
    · cases h
    · cases h
    · cases hu : a.out.ty with
      | none => rw [hu] at h; cases h
      | some u =>
        rw [hu] at h
        dsimp only at h
        cases hv : newVar A s name u (A.body d) with
        | error e => rw [hv] at h; cases h
        | ok c =>
          cases c with
          | none =>
            obtain ⟨slot, w, h2⟩ := newVar_there hl hv
            exact ⟨_, h2⟩
          | some c => rw [hv] at h; cases h

/-- A change that makes the variable of a parameter. -/
def ParamChg (A : Ast T) (s : S T) (d : Nat) (ps : List (String × Blk.PTy T)) (as : List Nat) (c : Chg T) : Prop :=
  ∃ (j : Nat) (name : String) (p : Blk.PTy T) (a : Nat) (u : T), c = .var name u (A.body d) ∧ ps[j]? = some (name, p) ∧ as[j]? = some a ∧
    Ty.Settled (s.tg.kn a .out) u ∧ Loc.newVar s.lg (A.place (A.body d)) name = none

theorem ParamChg.cons {d : Nat} {p : String × Blk.PTy T} {ps : List (String × Blk.PTy T)} {a : Nat} {as : List Nat} {c : Chg T}
    (h : ParamChg A s d ps as c) : ParamChg A s d (p :: ps) (a :: as) c := by
  obtain ⟨j, name, q, b, u, h1, h2, h3, h4⟩ := h
  exact ⟨j + 1, name, q, b, u, h1, h2, h3, h4⟩

theorem mapLoop_defs (hf : Fresh s) (d : Nat) : ∀ (ps : List (String × Blk.PTy T)), (∀ p ∈ ps, p.2 ≠ .expr) → ∀ (i : Nat) (as : List Nat)
    (acc : List (Option T × Nat)) (chg : Bool),
    (∀ c ∈ (mapLoop A s d i ps as acc chg).1, (∃ x, c = .ty x) ∨ ParamChg A s d ps as c) ∧
    ((newDefs A (mapLoop A s d i ps as acc chg).1).map (·.1.2)).Sublist (ps.map (·.1))
  | [], _, i, as, acc, chg => by
    cases as <;> exact ⟨fun _ h => (by cases h), .refl _⟩
  | (name, p) :: ps, h, i, [], acc, chg => by
    have e : (mapLoop A s d i ((name, p) :: ps) [] acc chg).1 = [] := by cases p <;> rfl
    rw [e]
    exact ⟨fun _ h => (by cases h), List.nil_sublist _⟩
  | (name, p) :: ps, h, i, a :: as, acc, chg => by
    have ih := mapLoop_defs hf d ps (fun q hq => h q (List.mem_cons_of_mem _ hq)) (i + 1) as
    rw [mapLoop_cons (h (name, p) (by simp))]
    have hc := callsiteParam_cases (A := A) hf d name (ptyOf p) a
    generalize callsiteParam A s d name (ptyOf p) a = z at hc
    obtain ⟨cs, r⟩ := z
    dsimp only at hc
    rcases hc with ⟨e, u, e1, h1, h2⟩ | ⟨hne, h1⟩
    · subst e e1
      dsimp only
      obtain ⟨h3, h4⟩ := ih acc true
      refine ⟨fun c hc => ?_, ?_⟩
      · rcases List.mem_append.1 hc with hc | hc
        · exact .inr ⟨0, name, p, a, u, List.mem_singleton.1 hc, rfl, rfl, h1, h2⟩
        · exact (h3 c hc).imp_right ParamChg.cons
      · rw [newDefs_append]
        exact h4.cons_cons name
    · have hn := (newDefs_ty (A := A) h1).1
      cases r with
      | error e => exact ⟨fun c hc => .inl (h1 c hc), by dsimp only; rw [hn]; exact List.nil_sublist _⟩
      | ok o =>
        cases o with
        | none => exact ⟨fun c hc => .inl (h1 c hc), by dsimp only; rw [hn]; exact List.nil_sublist _⟩
        | some b =>
          cases b with
          | false => exact absurd rfl hne
          | true =>
            dsimp only
            obtain ⟨h3, h4⟩ := ih (acc ++ [(ptyOf p, i % 256)]) chg
            refine ⟨fun c hc => ?_, ?_⟩
            · rcases List.mem_append.1 hc with hc | hc
              · exact .inl (h1 c hc)
              · exact (h3 c hc).imp_right ParamChg.cons
            · rw [newDefs_append, hn]
              exact h4.cons name

theorem mapLoop_there (hl : Locs A s D) (d : Nat) : ∀ (ps : List (String × Blk.PTy T)), (∀ p ∈ ps, p.2 ≠ .expr) → ∀ (i : Nat) (as : List Nat)
    (acc out : List (Option T × Nat)) (chg : Bool), (mapLoop A s d i ps as acc chg).2 = .success out →
    ∀ p ∈ ps, ∃ x, variableAt A s p.1 (A.body d) = some x
  | [], _, _, _, _, _, _, _ => fun _ h => by cases h
  | (name, p) :: ps, h, i, [], acc, out, chg, e => by
    have e1 : (mapLoop A s d i ((name, p) :: ps) [] acc chg).2 = .fail .hard := by cases p <;> rfl
    rw [e1] at e; cases e
  | (name, p) :: ps, h, i, a :: as, acc, out, chg, e => by
    have h' : ∀ q ∈ ps, q.2 ≠ .expr := fun q hq => h q (List.mem_cons_of_mem _ hq)
    rw [mapLoop_cons (h (name, p) (by simp))] at e
    have ht := callsiteParam_there (A := A) hl (d := d) (name := name) (t := ptyOf p) (n := a)
    generalize callsiteParam A s d name (ptyOf p) a = z at e ht
    obtain ⟨cs, r⟩ := z
    cases r with
    | error e' => cases e
    | ok o =>
      cases o with
      | none => cases e
      | some b =>
        cases b with
        | false => cases (mapLoop_success _ _ _ _ _ _ e).1
        | true =>
          dsimp only at e
          intro q hq
          rcases List.mem_cons.1 hq with e1 | hq
          · rw [e1]; exact ht rfl
          · exact mapLoop_there hl d ps h' _ _ _ _ _ e q hq

theorem boundTo_ok {names : List String} (hw : A.Wf names) (hpl : A.Placed) (hl : Locs A s D) {d : Nat} (hd : d ∈ A.defs)
    {cs : List (Chg T)} {ps : List (Option T × Nat)} (h : mapDef A s d = (cs, .success ps)) : BindOk A s.slots D (d, boundTo A s d) := by
  unfold mapDef at h
  split at h
  · cases h
  · have ht := mapLoop_there hl d _ (hpl.values d hd) _ _ _ _ _ (congrArg (·.2) h)
    have hs : ∀ p ∈ A.params d, ∃ y, (if atCall p.2 then variableAt A s p.1 (A.body d) else none) = some y ∧ variableAt A s p.1 (A.body d) = some y := by
      intro p hp
      have h1 : atCall p.2 = true := by
        have := hpl.values d hd p hp
        cases hp : p.2 <;> first | rfl | exact absurd hp this
      rw [if_pos h1]
      obtain ⟨y, hy⟩ := ht p hp
      exact ⟨y, hy, hy⟩
    have hat := filterMap_at (f := fun p : String × Blk.PTy T => if atCall p.2 then variableAt A s p.1 (A.body d) else none) (l := A.params d)
      fun p hp => let ⟨y, hy, _⟩ := hs p hp; ⟨y, hy⟩
    refine ⟨hd, ?_, fun j name p hp => ?_⟩
    · dsimp only
      unfold boundTo
      have key : ∀ l : List (String × Blk.PTy T), (∀ p ∈ l, ∃ y, (if atCall p.2 then variableAt A s p.1 (A.body d) else none) = some y) →
          (l.filterMap fun p => if atCall p.2 then variableAt A s p.1 (A.body d) else none).length = l.length := by
        intro l
        induction l with
        | nil => intro _; rfl
        | cons p l ih =>
          intro h
          obtain ⟨y, hy⟩ := h p (by simp)
          rw [List.filterMap_cons, hy]
          simp only [List.length_cons]
          rw [ih fun q hq => h q (List.mem_cons_of_mem _ hq)]
      exact key _ fun p hp => let ⟨y, hy, _⟩ := hs p hp; ⟨y, hy⟩
    · dsimp only at hp ⊢
      obtain ⟨y, hy, hv⟩ := hs _ (List.mem_of_getElem? hp)
      obtain ⟨h1, h2⟩ := hl.there (hpl.ok hw) (hw.body_lt _ (List.mem_map.2 ⟨d, hd, rfl⟩)) (t := y.2) (slot := y.1) hv
      refine ⟨y.1, y.2, ?_, h1, h2⟩
      unfold boundTo
      rw [hat j, hp, Option.bind_some]
      exact hy

/-- The changes for the parameters of these definitions. -/
structure NewParams (A : Ast T) (s : S T) (D : List Scope.DefAt) (P : List Nat) (cs : List (Chg T)) : Prop where
  each : ∀ c ∈ cs, (∃ x, c = .ty x) ∨ ∃ d ∈ P, d ∈ A.defs ∧ ∃ (j : Nat) (name : String) (p : Blk.PTy T) (a : Nat) (u : T),
    c = .var name u (A.body d) ∧ (A.params d)[j]? = some (name, p) ∧ (A.args (A.owner d))[j]? = some a ∧
    Ty.Settled (s.tg.kn a .out) u ∧ (A.place (A.body d), name) ∉ D
  nodup : ((newDefs A cs).map (·.1)).Nodup

theorem NewParams.append {names : List String} (hw : A.Wf names) (hpl : A.Placed) (hf : Fresh s) (hl : Locs A s D) {s0 : S T} (ht : s.tg = s0.tg)
    {P : List Nat} {cs : List (Chg T)} (h : NewParams A s0 D P cs) {d : Nat} (hd : d ∈ A.defs) (hdp : d ∉ P) :
    NewParams A s0 D (P ++ [d]) (cs ++ (mapDef A s d).1) := by
  have hm : (∀ c ∈ (mapDef A s d).1, (∃ x, c = .ty x) ∨ ParamChg A s d (A.params d) (A.args (A.owner d)) c) ∧
      ((newDefs A (mapDef A s d).1).map (·.1.2)).Sublist ((A.params d).map (·.1)) := by
    unfold mapDef
    split
    · exact ⟨fun _ h => (by cases h), List.nil_sublist _⟩
    · exact mapLoop_defs hf d _ (hpl.values d hd) _ _ _ _
  have hlt := hw.body_lt _ (List.mem_map.2 ⟨d, hd, rfl⟩)
  have at_ : ∀ x ∈ newDefs A (mapDef A s d).1, x.1.1 = A.place (A.body d) := by
    intro x hx
    obtain ⟨c, hc, e⟩ := List.mem_filterMap.1 hx
    rcases hm.1 c hc with ⟨y, e1⟩ | ⟨j, name, p, a, u, e1, _⟩
    · rw [e1] at e; cases e
    · rw [e1] at e; cases e; rfl
  refine ⟨fun c hc => ?_, ?_⟩
  · rcases List.mem_append.1 hc with hc | hc
    · refine (h.each c hc).imp_right fun ⟨d', hd', h1⟩ => ⟨d', List.mem_append_left _ hd', h1⟩
    · refine (hm.1 c hc).imp_right fun ⟨j, name, p, a, u, h1, h2, h3, h4, h5⟩ => ⟨d, by simp, hd, j, name, p, a, u, h1, h2, h3, ?_, hl.absent hlt h5⟩
      rw [← ht]; exact h4
  · rw [newDefs_append, List.map_append]
    refine List.nodup_append.2 ⟨h.nodup, ?_, fun a ha b hb e => ?_⟩
    · have h1 : ((newDefs A (mapDef A s d).1).map (·.1.2)).Nodup := hm.2.nodup (hpl.names d hd)
      rw [List.Nodup, List.pairwise_map] at h1 ⊢
      exact h1.imp fun hne e => hne (congrArg (·.2) e)
    · subst e
      obtain ⟨x, hx, e1⟩ := List.mem_map.1 ha
      obtain ⟨y, hy, e2⟩ := List.mem_map.1 hb
      obtain ⟨c, hc, e3⟩ := List.mem_filterMap.1 hx
      have h2 := at_ y hy
      rw [e2, ← e1] at h2
      rcases h.each c hc with ⟨z, e4⟩ | ⟨d', hd', hd'', j, name, p, b, u, e4, _⟩
      · rw [e4] at e3; cases e3
      · rw [e4] at e3
        cases e3
        have e5 := place_inj hw.places (hw.body_lt _ (List.mem_map.2 ⟨d', hd'', rfl⟩)) hlt h2
        have e6 := hw.body_inj d' hd'' d hd e5
        rw [e6] at hd'
        exact hdp hd'

theorem defsLoop_vars {names : List String} (hw : A.Wf names) (hpl : A.Placed) {s0 : S T} : ∀ (ds : List Nat) {s s' : S T}
    {P : List Nat} {cs cs' : List (Chg T)} {b b' : Bool}, Vars A I E m s D H → Fresh s → s.tg = s0.tg →
    NewParams A s0 D P cs → (∀ d ∈ ds, d ∈ A.defs) → ds.Nodup → (∀ d ∈ ds, d ∉ P) → defsLoop A ds s cs b = .ok (s', cs', b') →
    Vars A I E m s' D H ∧ s'.tg = s0.tg ∧ NewParams A s0 D (P ++ ds) cs'
  | [], s, s', P, cs, cs', b, b', hv, hf, ht, hp, _, _, _, h => by
    cases h
    rw [List.append_nil]
    exact ⟨hv, ht, hp⟩
  | d :: ds, s, s', P, cs, cs', b, b', hv, hf, ht, hp, hds, hnd, hdp, h => by
    have hd := hds d (by simp)
    have hp' := hp.append hw hpl hf hv.locs ht hd (hdp d (by simp))
    have h1 : ∀ x ∈ ds, x ∈ A.defs := fun x hx => hds x (List.mem_cons_of_mem _ hx)
    have h2 : ∀ x ∈ ds, x ∉ P ++ [d] := fun x hx hm => by
      rcases List.mem_append.1 hm with hm | hm
      · exact hdp x (List.mem_cons_of_mem _ hx) hm
      · rw [List.mem_singleton.1 hm] at hx; exact (List.nodup_cons.1 hnd).1 hx
    unfold defsLoop at h
    cases e : mapDef A s d with
    | mk cs1 r =>
      rw [e] at h hp'
      cases r with
      | fail e' => cases h
      | later =>
        have := defsLoop_vars hw hpl ds hv hf ht hp' h1 (List.nodup_cons.1 hnd).2 h2 h
        rw [List.append_assoc] at this
        exact this
      | success ps =>
        dsimp only at h
        have hB := boundTo_ok hw hpl hv.locs hd e
        have hv' : Vars A I E m { s with
            callsite := s.callsite ++ [(d, ps)], binds := s.binds ++ [(d, boundTo A s d)],
            lg := Loc.apply A.places s.lg (.sealExpr (A.place (A.body d))) } D H := by
          have := hv.step hw hpl (s' := { s with
              callsite := s.callsite ++ [(d, ps)], binds := s.binds ++ [(d, boundTo A s d)],
              lg := Loc.apply A.places s.lg (.sealExpr (A.place (A.body d))) }) (N := [])
            ⟨Ty.Keeps.refl _, fun _ _ h => h, fun _ h => h, fun _ h => h, Nat.le_refl _, fun x hx => List.mem_append_left _ hx⟩ (by
              simp only [List.map_nil, List.append_nil]
              exact hv.locs.congr rfl rfl rfl rfl) (by simp) rfl rfl (by simp [hv.keys]) (fun x hx => by
              rcases List.mem_append.1 hx with hx | hx
              · exact .inl hx
              · rw [List.mem_singleton.1 hx]; exact .inr hB) (fun _ h => (by cases h)) (fun _ h => (by cases h)) (by simp)
            (fun _ h => (by cases h)) (fun _ h => (by cases h))
          simpa using this
        have := defsLoop_vars hw hpl ds hv' ⟨hf.single, hf.idle⟩ ht hp' h1 (List.nodup_cons.1 hnd).2 h2 h
        rw [List.append_assoc] at this
        exact this

theorem filterMap_nodup {α β : Type} {f : α → Option β} {l : List α} (h : l.Nodup) (hinj : ∀ a ∈ l, ∀ b ∈ l, ∀ x, f a = some x → f b = some x → a = b) :
    (l.filterMap f).Nodup := by
  induction l with
  | nil => simp
  | cons a l ih =>
    obtain ⟨h1, h2⟩ := List.nodup_cons.1 h
    have ih := ih h2 fun b hb c hc => hinj b (List.mem_cons_of_mem _ hb) c (List.mem_cons_of_mem _ hc)
    rw [List.filterMap_cons]
    split
    · exact ih
    · rename_i x hx
      refine List.nodup_cons.2 ⟨fun hm => ?_, ih⟩
      obtain ⟨b, hb, e⟩ := List.mem_filterMap.1 hm
      exact h1 (by rw [hinj a (by simp) b (List.mem_cons_of_mem _ hb) x hx e]; exact hb)

theorem predict_mem {op d : Nat} (h : predict A s op = some d) : ∃ k, (k, Cmd.defn d) ∈ A.cmds op := by
  unfold predict at h
  split at h
  · obtain ⟨c, h1, h2⟩ := Option.bind_eq_some_iff.1 h
    cases c with
    | intrinsic i => cases h2
    | defn d' => cases h2; exact getImpl_mem h1
  · split at h
    · rename_i c hc
      obtain ⟨k, c⟩ := c
      cases c with
      | intrinsic i => cases h
      | defn d' => cases h; exact ⟨k, by rw [hc]; simp⟩
    · cases h

theorem knownPaths_nodup {names : List String} (hw : A.Wf names) : (knownPaths A s).Nodup := by
  refine filterMap_nodup hw.ops_nodup fun a ha b hb d h1 h2 => ?_
  obtain ⟨k, h3⟩ := predict_mem h1
  obtain ⟨k', h4⟩ := predict_mem h2
  rw [← hw.owner a ha _ h3 d rfl, ← hw.owner b hb _ h4 d rfl]

theorem defLocals_vars {names : List String} (hw : A.Wf names) (hpl : A.Placed) (hv : Vars A I E m s D H) (hf : Fresh s) (hi : Inv A s') (hg : Later s s')
    {b : Bool} (h : defLocals A s = .ok (s', b)) : ∃ D', Vars A I E m s' D' H := by
  unfold defLocals at h
  split at h
  · cases h
  rename_i s1 cs b1 hd
  have hds : ∀ d ∈ (knownPaths A s).filter fun d => d ∉ s.callsite.map (·.1), d ∈ A.defs := fun d hd =>
    (knownPaths_spec hw hf.single (List.mem_filter.1 hd).1).2.1
  obtain ⟨hv1, ht, hp⟩ := defsLoop_vars hw hpl (s0 := s) _ (P := []) hv hf rfl ⟨fun _ h => (by cases h), by simp [newDefs]⟩ hds
    ((knownPaths_nodup hw).filter _) (fun _ _ h => (by cases h)) hd
  rw [List.nil_append] at hp
  obtain ⟨hl, hs⟩ := applyAll_locs (hpl.ok hw) hv1.locs (cs := cs) (fun c hc => by
    rcases hp.each c hc with ⟨x, e⟩ | ⟨d, _, _, j, name, p, a, u, e, _⟩ <;> rw [e] <;> rfl) (fun name t n hc => by
    rcases hp.each _ hc with ⟨x, e⟩ | ⟨d, _, hd, j, name, p, a, u, e, _⟩
    · cases e
    · cases e; exact Ast.place_mem (hw.body_lt _ (List.mem_map.2 ⟨d, hd, rfl⟩))) h
  have hre := applyAll_rest h
  have hl1 : Later s1 s' := ⟨hre.2, by
    have := hg.edges
    rw [← ht] at this
    exact this, by rw [hre.1.steps]; exact fun _ h => h, by rw [hre.1.exprs]; exact fun _ h => h, by rw [hre.1.depth]; exact Nat.le_refl _,
    by rw [hre.1.callsite]; exact fun _ h => h⟩
  have each : ∀ x ∈ newDefs A cs, ∃ d ∈ (knownPaths A s).filter fun d => d ∉ s.callsite.map (·.1), d ∈ A.defs ∧
      ∃ (j : Nat) (name : String) (p : Blk.PTy T) (a : Nat) (u : T),
      x = ((A.place (A.body d), name), u) ∧ (A.params d)[j]? = some (name, p) ∧ (A.args (A.owner d))[j]? = some a ∧
      Ty.Settled (s.tg.kn a .out) u ∧ (A.place (A.body d), name) ∉ D := by
    intro x hx
    obtain ⟨c, hc, e⟩ := List.mem_filterMap.1 hx
    rcases hp.each c hc with ⟨y, e1⟩ | ⟨d, hd, hdd, j, name, p, a, u, e1, hr⟩
    · rw [e1] at e; cases e
    · rw [e1] at e
      cases e
      exact ⟨d, hd, hdd, j, name, p, a, u, rfl, hr⟩
  refine ⟨_, hv1.step hw hpl hl1 hl hs hre.1.codes hre.1.steps (by rw [hre.1.binds, hre.1.callsite]; exact hv1.keys)
    (fun x hx => .inl (by rw [hre.1.binds] at hx; exact hx)) (fun x hx i => ?_) (fun x hx => ?_) hp.nodup (fun x hx op ho n hn hnear => ?_)
    fun x hx K hK d hd hdK e => ?_⟩
  · obtain ⟨d, _, hdd, j, name, p, a, u, e, h1, h2, h3, _⟩ := each x hx
    rw [e]
    exact .param d j p a hdd rfl h1 h2 (hg.keeps _ _ _ h3)
  · obtain ⟨d, _, hdd, j, name, p, a, u, e, _, _, _, h4⟩ := each x hx
    rw [e]
    exact h4
  · obtain ⟨d, _, hdd, j, name, p, a, u, e, _⟩ := each x hx
    rw [e] at hn
    have ho' : op ∈ A.ops := by
      obtain ⟨y, hy, e1⟩ := List.mem_map.1 ho
      rw [← hre.1.steps] at hy
      rw [← e1]
      exact (hi.steps y hy).1
    exact hnear.not_body hw hpl ho' hdd hn.symm
  · obtain ⟨d', hd', hdd, j, name, p, a, u, e1, _⟩ := each x hx
    rw [e1] at e
    have e2 := hw.body_inj d' hdd d hd (place_inj hw.places (hw.body_lt _ (List.mem_map.2 ⟨d', hdd, rfl⟩)) (hw.body_lt _ (List.mem_map.2 ⟨d, hd, rfl⟩)) e)
    have h1 := (List.mem_filter.1 hd').2
    simp only [decide_eq_true_eq] at h1
    rw [e2] at h1
    exact h1 (hv.seen K hK d hdK)

theorem Vars.kin {names : List String} (hw : A.Wf names) (hpl : A.Placed) (h : Vars A I E m s D H) (hk : Kin A s s') :
    ∃ D', Vars A I E m s' D' H := by
  obtain ⟨s1, s2, g1, k1, h2, g3, k3⟩ := hk
  have h1 := h.still hw hpl g1.later k1
  have : ∃ D', Vars A I E m s2 D' H := by
    rcases h2 with e | ⟨hf, g2, b, hd⟩
    · rw [e]; exact ⟨D, h1⟩
    · exact defLocals_vars hw hpl h1 hf g2.inv g2.later hd
  obtain ⟨D', h2⟩ := this
  exact ⟨D', h2.still hw hpl g3.later k3⟩

/-! ### Blocks -/

theorem foldl_steps (A : Ast T) (I : Builtins T) (s : S T) : ∀ (xs : List (Nat × T)) (r : Tried T),
    ∃ ys, (xs.foldl (tryBlock A I s) r).steps = r.steps ++ ys ∧ (ys.map (·.1)).Sublist (xs.map (·.1))
  | [], r => ⟨[], by simp, .refl _⟩
  | x :: xs, r => by
    obtain ⟨ys, h1, h2⟩ := foldl_steps A I s xs (tryBlock A I s r x)
    rw [List.foldl_cons, h1]
    unfold tryBlock
    dsimp only
    split
    · rename_i u hu
      exact ⟨(x.1, x.2, u) :: ys, by simp, h2.cons_cons x.1⟩
    · exact ⟨ys, rfl, h2.cons x.1⟩

theorem candidates_nodup {names : List String} (hw : A.Wf names) : ((candidates A s).map (·.1)).Nodup := by
  have key : ∀ l : List Nat, ((l.filterMap fun op => (s.tg.kn op .inp).ty.map fun t => (op, t)).map (·.1)).Sublist l := by
    intro l
    induction l with
    | nil => exact .refl _
    | cons a l ih =>
      rw [List.filterMap_cons]
      cases (s.tg.kn a .inp).ty with
      | none => exact ih.cons a
      | some t => exact ih.cons_cons a
  exact (key _).nodup (hw.ops_nodup.filter _)

/-- The blocks compiled in one round. -/
theorem Vars.compiled {names : List String} (hw : A.Wf names) (hpl : A.Placed) (hst : I.Steady A) (hE : E.Sound A I) (hi : Inv A s) (hf : Fresh s)
    (h : Vars A I E m s D H) (outs : List Nat) :
    ∃ H', Vars A I E m { s with
      steps := s.steps ++ (tryAll A I s).steps
      outs := outs
      codes := s.codes ++ (tryAll A I s).steps.map fun x => (x.1, x.2.1, x.2.2, codeOf A I s x.1 x.2.1) } D H' ∧
      ∀ K ∈ H', ∀ d ∈ K, d ∈ s.callsite.map (·.1) := by
  have hfrom := (tryAll_from A I s).1
  have hsub : ((tryAll A I s).steps.map (·.1)).Sublist ((candidates A s).map (·.1)) := by
    obtain ⟨ys, h1, h2⟩ := foldl_steps A I s (candidates A s) ⟨[], [], [], none⟩
    unfold tryAll
    rw [h1]
    exact h2
  generalize hZ : (tryAll A I s).steps = Z at hfrom hsub ⊢
  have hZs : ∀ x ∈ Z, (x.1, x.2.1) ∈ candidates A s ∧ (compileBlock A I s x.1 x.2.1).res = .ok x.2.2 := fun x hx => hfrom.steps x (by rw [hZ]; exact hx)
  have W := h.world
  have hl : Later s { s with
      steps := s.steps ++ Z, outs := outs, codes := s.codes ++ Z.map fun x => (x.1, x.2.1, x.2.2, codeOf A I s x.1 x.2.1) } :=
    ⟨Ty.Keeps.refl _, fun _ _ h => h, fun x hx => List.mem_append_left _ hx, fun _ h => h, Nat.le_refl _, fun _ h => h⟩
  have seen : ∀ K ∈ H ++ List.replicate Z.length (s.callsite.map (·.1)), ∀ d ∈ K, d ∈ s.callsite.map (·.1) := by
    intro K hK d hd
    rcases List.mem_append.1 hK with hK | hK
    · exact h.seen K hK d hd
    · rw [List.eq_of_mem_replicate hK] at hd; exact hd
  refine ⟨H ++ List.replicate Z.length (s.callsite.map (·.1)), ⟨?_, h.uniq, ?_, h.keys, h.binds, seen, ?_, h.called.later hl, h.inputs, h.literals⟩, seen⟩
  · exact h.locs.congr rfl rfl rfl rfl
  · exact fun i q name u h1 h2 => (h.src i q name u h1 h2).later hl
  · refine ⟨?_, ?_, ?_, ?_, ?_, W.first⟩
    · simp only [List.map_append, W.codes, List.map_map]
      congr 1
      exact List.map_id' Z
    · rw [List.map_append]
      refine List.nodup_append.2 ⟨W.nodup, hsub.nodup (candidates_nodup hw), fun a ha b hb e => ?_⟩
      subst e
      obtain ⟨x, hx, e⟩ := List.mem_map.1 (hsub.subset hb)
      have := (mem_candidates.1 hx).2.1
      rw [e] at this
      exact this ha
    · simp [W.hist]
    · intro k k' K K' hk h1 h2 d hd
      rcases append_cases h2 with h3 | ⟨j, e, h3⟩
      · rcases append_cases h1 with h4 | ⟨j', e', _⟩
        · exact W.mono k k' K K' hk h4 h3 d hd
        · have := (List.getElem?_eq_some_iff.1 h3).1
          omega
      · rw [List.eq_of_mem_replicate (List.mem_of_getElem? h3)]
        exact seen K (List.mem_of_getElem? h1) d hd
    · intro k x K hx hK
      have pri : ∀ op ∈ s.prior k, op ∈ (({ s with
          steps := s.steps ++ Z, outs := outs, codes := s.codes ++ Z.map fun x => (x.1, x.2.1, x.2.2, codeOf A I s x.1 x.2.1) } : S T).prior k) := by
        intro op ho
        obtain ⟨y, hy, e⟩ := List.mem_map.1 ho
        refine List.mem_map.2 ⟨y, ?_, e⟩
        dsimp only
        rw [List.take_append]
        exact List.mem_append_left _ hy
      rcases append_cases hx with h3 | ⟨j, e, h3⟩
      · have hlt := (List.getElem?_eq_some_iff.1 h3).1
        rw [List.getElem?_append_left (by rw [W.hist]; exact hlt)] at hK
        exact (W.ok k x K h3 hK).mono hl (fun _ _ h => h) (fun _ _ h => h) pri fun _ _ h => .inl h
      · rw [List.getElem?_append_right (by rw [W.hist]; omega)] at hK
        have e1 := List.eq_of_mem_replicate (List.mem_of_getElem? hK)
        subst e1
        rw [List.getElem?_map] at h3
        obtain ⟨y, h4, h5⟩ := Option.map_eq_some_iff.1 h3
        subst h5
        obtain ⟨h6, h7⟩ := hZs y (List.mem_of_getElem? h4)
        obtain ⟨h8, _, h9⟩ := mem_candidates.1 h6
        refine (codeOf_ok hw hpl hst hE hi hf h h8 (settled_of_ty hf h9) h7).mono hl (fun _ _ h => h) (fun _ _ h => h) (fun op ho => ?_) fun _ _ h => .inl h
        rw [← W.ops] at ho
        obtain ⟨y, hy, e2⟩ := List.mem_map.1 ho
        refine List.mem_map.2 ⟨y, ?_, e2⟩
        dsimp only
        rw [List.take_append, List.take_of_length_le (by omega)]
        exact List.mem_append_left _ hy

theorem flatMap_nodup {α β : Type} {f : α → List β} : ∀ {l : List α}, l.Nodup → (∀ a ∈ l, (f a).Nodup) →
    (∀ a ∈ l, ∀ b ∈ l, ∀ x, x ∈ f a → x ∈ f b → a = b) → (l.flatMap f).Nodup
  | [], _, _, _ => by simp
  | a :: l, h, h1, h2 => by
    obtain ⟨h3, h4⟩ := List.nodup_cons.1 h
    rw [List.flatMap_cons]
    refine List.nodup_append.2 ⟨h1 a (by simp), flatMap_nodup h4 (fun b hb => h1 b (List.mem_cons_of_mem _ hb))
      (fun b hb c hc => h2 b (List.mem_cons_of_mem _ hb) c (List.mem_cons_of_mem _ hc)), fun x hx y hy e => ?_⟩
    subst e
    obtain ⟨b, hb, hxb⟩ := List.mem_flatMap.1 hy
    rw [h2 a (by simp) b (List.mem_cons_of_mem _ hb) x hx hxb] at h3
    exact h3 hb

theorem Vars.blocks {names : List String} (hw : A.Wf names) (hn : I.Named names) (hpl : A.Placed) (hst : I.Steady A) (hE : E.Sound A I)
    (hi : Inv A s) (hf : Fresh s) (h : Vars A I E m s D H)
    (hb : compileBlocks A I s = .again s' ∨ ∃ e, compileBlocks A I s = .failed s' e) : ∃ D' H', Vars A I E m s' D' H' := by
  have hg : Grows A s s' := by
    rcases hb with h | ⟨e, h⟩
    · exact ((blocks_stage hw hn hi hf).1 _ h).1
    · exact ((blocks_stage hw hn hi hf).2 _ _ h).1
  obtain ⟨H', h1, hseen⟩ := h.compiled hw hpl hst hE hi hf (s.outs ++ (tryAll A I s).outs)
  have hfrom := (tryAll_from A I s).1
  unfold compileBlocks at hb
  dsimp only at hb
  split at hb
  · rcases hb with h | ⟨_, h⟩ <;> cases h
  split at hb
  · rcases hb with h | ⟨_, h⟩ <;> cases h
  rename_i s1 b hx
  have e : s' = s1 := by
    split at hb
    · rcases hb with h | ⟨_, h⟩ <;> cases h; rfl
    · split at hb
      · rcases hb with h | ⟨_, h⟩ <;> cases h; rfl
      · rcases hb with h | ⟨_, h⟩ <;> cases h
  subst e
  obtain ⟨hdefs, hchgs⟩ := tryAll_defs A I s
  have hnp := h.locs.noPtr
  have each : ∀ x ∈ newDefs A (tryAll A I s).chgs, ∃ y ∈ candidates A s, x ∈ newDefs A (compileBlock A I s y.1 y.2).chgs ∧ Added A I s y.1 y.2 x := by
    intro x hx
    rw [hdefs] at hx
    obtain ⟨y, hy, hx⟩ := List.mem_flatMap.1 hx
    rcases (compileBlock_adds (I := I) hw hnp (op := y.1) (t := y.2)).1 with e | ⟨z, e, hz⟩
    · rw [e] at hx; cases hx
    · have e1 : x = z := by rw [e] at hx; exact List.mem_singleton.1 hx
      subst e1
      exact ⟨y, hy, hx, hz⟩
  obtain ⟨hl, hs⟩ := applyAll_locs (hpl.ok hw) h1.locs (cs := (tryAll A I s).chgs) (fun c hc => by
    rcases hchgs c hc with ⟨x, hx, hc⟩ | ⟨_, hc⟩
    · exact (compileBlock_adds hw hnp).2 c hc
    · exact hc) (fun name t n hc => by
    obtain ⟨y, hy, _, hz⟩ := each _ (newDefs_var hc)
    obtain ⟨i, n', _, _, e1, e2, _⟩ := hz.at_
    rw [show A.place n = A.place n' from e1]
    exact Ast.place_mem (e2.lt hw)) hx
  have hre := applyAll_rest hx
  have hl1 : Later { s with
      steps := s.steps ++ (tryAll A I s).steps
      outs := s.outs ++ (tryAll A I s).outs
      codes := s.codes ++ (tryAll A I s).steps.map fun x => (x.1, x.2.1, x.2.2, codeOf A I s x.1 x.2.1) } s' :=
    ⟨hre.2, hg.later.edges, by rw [hre.1.steps]; exact fun _ h => h, by rw [hre.1.exprs]; exact fun _ h => h, by rw [hre.1.depth]; exact Nat.le_refl _,
    by rw [hre.1.callsite]; exact fun _ h => h⟩
  refine ⟨_, H', h1.step hw hpl hl1 hl hs hre.1.codes hre.1.steps (by rw [hre.1.binds, hre.1.callsite]; exact h.keys)
    (fun x hx => .inl (by rw [hre.1.binds] at hx; exact hx)) (fun x hx i => ?_) (fun x hx => ?_) ?_ (fun x hx op ho n hn hnear => ?_)
    fun x hx K hK d hd hdK => ?_⟩
  · obtain ⟨y, hy, _, hz⟩ := each x hx
    obtain ⟨j, n, h2, h3, h4, h5, _⟩ := hz.at_
    obtain ⟨h6, _, h7⟩ := mem_candidates.1 hy
    exact .builtin s j y.1 y.2 n h6 (h.locs.sane hf) ((Within.refl s).later hg.later) (hg.later.keeps _ _ _ (settled_of_ty hf h7)) h2 h3 h4 h5
  · obtain ⟨y, hy, _, hz⟩ := each x hx
    obtain ⟨j, n, h2, h3, h4, h5, h6⟩ := hz.at_
    have := h.locs.absent (h5.lt hw) h6
    rw [← h4] at this
    exact this
  · have hcand : (candidates A s).Nodup := List.Pairwise.of_map _ (fun _ _ hne e => hne (by rw [e])) (candidates_nodup (s := s) hw)
    rw [hdefs, List.map_flatMap]
    refine flatMap_nodup hcand (fun y _ => ?_) fun y hy z hz x hx hx' => ?_
    · rcases (compileBlock_adds (I := I) hw hnp (op := y.1) (t := y.2)).1 with e | ⟨w, e, _⟩ <;> rw [e] <;> simp
    · have key : ∀ y ∈ candidates A s, x ∈ (newDefs A (compileBlock A I s y.1 y.2).chgs).map (·.1) → ∃ n, x.1 = A.place n ∧ Near A y.1 n := by
        intro y _ hm
        rcases (compileBlock_adds (I := I) hw hnp (op := y.1) (t := y.2)).1 with e | ⟨w, e, hw'⟩
        · rw [e] at hm; cases hm
        · rw [e] at hm
          have e1 := List.mem_singleton.1 hm
          obtain ⟨j, n, _, _, h4, h5, _⟩ := hw'.at_
          exact ⟨n, by rw [e1]; exact h4, h5⟩
      obtain ⟨n, h2, h3⟩ := key y hy hx
      obtain ⟨n', h4, h5⟩ := key z hz hx'
      rw [h2] at h4
      have e := place_inj hw.places (h3.lt hw) (h5.lt hw) h4
      subst e
      obtain ⟨h6, _, h7⟩ := mem_candidates.1 hy
      obtain ⟨h8, _, h9⟩ := mem_candidates.1 hz
      have e := h3.inj hw hpl h6 h8 h5
      obtain ⟨y1, y2⟩ := y
      obtain ⟨z1, z2⟩ := z
      dsimp only at e h7 h9
      subst e
      rw [h7] at h9
      injection h9 with h9
      rw [h9]
  · obtain ⟨y, hy, _, hz⟩ := each x hx
    obtain ⟨j, n', h2, h3, h4, h5, _⟩ := hz.at_
    obtain ⟨h6, h6', h7⟩ := mem_candidates.1 hy
    rw [h4] at hn
    have e := place_inj hw.places (h5.lt hw) (hnear.lt hw) hn
    subst e
    obtain ⟨z, hz', e⟩ := List.mem_map.1 ho
    rcases List.mem_append.1 hz' with hz' | hz'
    · have h8 : op ∈ A.ops := by rw [← e]; exact (hi.steps z hz').1
      have e1 := h5.inj hw hpl h6 h8 hnear
      exact h6' (by rw [e1, ← e]; exact List.mem_map.2 ⟨z, hz', rfl⟩)
    · obtain ⟨h8, h9⟩ := hfrom.steps z hz'
      obtain ⟨h10, _, h11⟩ := mem_candidates.1 h8
      have e1 := h5.inj hw hpl h6 (by rw [← e]; exact h10) hnear
      obtain ⟨e2, herr⟩ := hz.err
      rw [e] at h9 h11
      rw [e1] at herr h7
      rw [h7] at h11
      injection h11 with h11
      rw [h11, h9] at herr
      cases herr
  · obtain ⟨y, hy, _, hz⟩ := each x hx
    obtain ⟨j, n, h2, h3, h4, h5, _⟩ := hz.at_
    rw [h4]
    exact h5.not_body hw hpl (mem_candidates.1 hy).1 hd

theorem vars_kept {names : List String} (hw : A.Wf names) (hn : I.Named names) (hpl : A.Placed) (hst : I.Steady A) (hE : E.Sound A I) :
    Kept A I (fun s => ∃ D H, Vars A I E m s D H) where
  quiet s s' _ hp hq := by
    obtain ⟨D, H, h⟩ := hp
    obtain ⟨D', h⟩ := h.kin hw hpl hq.kin
    exact ⟨D', H, h⟩
  blocks s s' hi hf hp h := by
    obtain ⟨D, H, hv⟩ := hp
    exact hv.blocks hw hn hpl hst hE hi hf h

end

end Verif.Comp
