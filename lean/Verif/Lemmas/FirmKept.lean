import Verif.Lemmas.Firm
import Verif.Spec.Names
/-! Every move of the compiler keeps what it has found out about names. -/
namespace Verif.Comp
open Verif
set_option linter.unusedSectionVars false
variable {T V : Type} [DecidableEq T]

/-- An earlier state of the compiler. -/
structure Past (A : Ast T) (s0 s : S T) : Prop where
  sane : Sane s0
  within : Within s0 s
  onward : Onward A s0 s
  locs : ∃ D, Locs A s0 D

/-- The command of the block was taken to have announced its variables. -/
def SealedBy (A : Ast T) (I : Builtins T) (s : S T) (op : Nat) : Prop :=
  ∃ s0 t, Past A s0 s ∧ Ty.Settled (s.tg.kn op .inp) t ∧ ∀ i, A.getImpl op t = some (.intrinsic i) → (runBuiltin A I s0 i op t).Seals op

/-- The argument was freed by the command of its block. -/
def FreedBy (A : Ast T) (I : Builtins T) (s : S T) (op a : Nat) : Prop :=
  ∃ s0 t i, Past A s0 s ∧ Ty.Settled (s.tg.kn op .inp) t ∧ A.getImpl op t = some (.intrinsic i) ∧ ∃ o, Chg.breakEdge o a ∈ (runBuiltin A I s0 i op t).chgs

/-- The parameters of a call. -/
def ParamsFor (A : Ast T) (s : S T) (op d : Nat) (params : List ((Nat × T) × Argument T)) : Prop :=
  params = [] ∨ params.length = (A.params d).length ∧ ∀ (j : Nat) slot u a, params[j]? = some ((slot, u), a) →
    ∃ name p, (A.params d)[j]? = some (name, p) ∧ (A.args op)[j]? = some a.node ∧ variableAt A s name (A.body d) = some (slot, u)

/-- Where a compiled block comes from. -/
structure Origin (A : Ast T) (I : Builtins T) (s : S T) (x : Nat × T × T × Code T) : Prop where
  op : x.1 ∈ A.ops
  inp : Ty.Settled (s.tg.kn x.1 .inp) x.2.1
  run : ∃ s0, Past A s0 s ∧ (compileBlock A I s0 x.1 x.2.1).res = .ok x.2.2.1 ∧ x.2.2.2 = codeOf A I s0 x.1 x.2.1
  holds : ∀ a ∈ x.2.2.2.arguments, holdOf A s a.node = some a.hold ∧ a.node ∈ A.args x.1
  bound : ∀ d params, x.2.2.2 = .call d params → ParamsFor A s x.1 d params

/-- What is kept, from the state `b0` on. -/
structure Firm (A : Ast T) (I : Builtins T) (b0 s : S T) : Prop where
  begun : Onward A b0 s
  edges : Loc.EdgesOk s.lg
  ops : ∀ op ∈ A.ops, s.lg.isSealed (A.place op) = true → SealedBy A I s op
  args : ∀ op ∈ A.ops, ∀ a ∈ A.args op, A.place op ∉ s.lg.seals (A.place a) → FreedBy A I s op a
  bodies : ∀ d ∈ A.defs, s.lg.isSealed (A.place (A.body d)) = true → d ∈ s.callsite.map (·.1)
  codes : ∀ x ∈ s.codes, Origin A I s x

section
variable {A : Ast T} {I : Builtins T} {E : Exec T V} {m : Nat} {b0 s s' : S T} {D D' : List Scope.DefAt} {H : List (List Nat)}

theorem Past.on {s0 : S T} (h : Past A s0 s) (hl : Later s s') (ho : Onward A s s') : Past A s0 s' := ⟨h.sane, h.within.later hl, h.onward.trans ho, h.locs⟩

theorem Past.refl (h : Sane s) (hl : Locs A s D) : Past A s s := ⟨h, .refl s, .refl A s, D, hl⟩

theorem SealedBy.on {op : Nat} (h : SealedBy A I s op) (hl : Later s s') (ho : Onward A s s') : SealedBy A I s' op := by
  obtain ⟨s0, t, h1, h2, h3⟩ := h
  exact ⟨s0, t, h1.on hl ho, hl.keeps _ _ _ h2, h3⟩

theorem FreedBy.on {op a : Nat} (h : FreedBy A I s op a) (hl : Later s s') (ho : Onward A s s') : FreedBy A I s' op a := by
  obtain ⟨s0, t, i, h1, h2, h3⟩ := h
  exact ⟨s0, t, i, h1.on hl ho, hl.keeps _ _ _ h2, h3⟩

theorem Origin.on {names : List String} (hw : A.Wf names) (hd : ∀ op ∈ A.ops, ∀ t d, A.getImpl op t = some (.defn d) → d ∈ A.defs) {x : Nat × T × T × Code T}
    (h : Origin A I s x) (hl : Later s s') (ho : Onward A s s') : Origin A I s' x := by
  obtain ⟨s0, h1, h2, h3⟩ := h.run
  refine ⟨h.op, hl.keeps _ _ _ h.inp, ⟨s0, h1.on hl ho, h2, h3⟩, fun a ha => ?_, fun d params e => ?_⟩
  · obtain ⟨h4, h5⟩ := h.holds a ha
    exact ⟨ho.holdOf (hw.arg_lt _ _ h5) h4, h5⟩
  · have hdd : d ∈ A.defs := by
      rw [e] at h3
      unfold codeOf at h3
      split at h3
      · cases h3
      · rename_i d' hg
        injection h3 with h3 _
        rw [h3]
        exact hd _ h.op _ _ hg
      · cases h3
    rcases h.bound d params e with e1 | ⟨e1, h4⟩
    · exact .inl e1
    · refine .inr ⟨e1, fun j slot u a hj => ?_⟩
      obtain ⟨name, p, h5, h6, h7⟩ := h4 j slot u a hj
      exact ⟨name, p, h5, h6, ho.variableAt (hw.body_lt _ (List.mem_map.2 ⟨d, hdd, rfl⟩)) h7⟩

theorem impl_def {op : Nat} (ho : op ∈ A.ops) {t : T} {d : Nat} (h : A.getImpl op t = some (.defn d)) : d ∈ A.defs := by
  obtain ⟨k, hm⟩ := getImpl_mem h
  exact (def_mem ho hm).1

/-- A move that compiles nothing and seals nothing. -/
theorem Firm.still {names : List String} (hw : A.Wf names) (h : Firm A I b0 s) (hl : Later s s') (hst : Still s s') : Firm A I b0 s' := by
  have ho : Onward A s s' := .still hst.lg hst.slots
  refine ⟨h.begun.trans ho, by rw [hst.lg]; exact h.edges, fun op hop hs => ?_, fun op hop a ha hs => ?_, fun d hd hs => ?_, fun x hx => ?_⟩
  · rw [hst.lg] at hs
    exact (h.ops op hop hs).on hl ho
  · rw [hst.lg] at hs
    exact (h.args op hop a ha hs).on hl ho
  · rw [hst.lg] at hs
    rw [hst.callsite]
    exact h.bodies d hd hs
  · rw [hst.codes] at hx
    exact (h.codes x hx).on hw (fun op hop t d hg => impl_def hop hg) hl ho

/-! ### Parameters -/

theorem mapDef_full (hpl : A.Placed) (hl : Locs A s D) (hf : Fresh s) {d : Nat} (hd : d ∈ A.defs)
    {cs : List (Chg T)} {ps : List (Option T × Nat)} (h : mapDef A s d = (cs, .success ps)) : ∀ name u n, Chg.var name u n ∉ cs := by
  intro name u n hm
  unfold mapDef at h
  split at h
  · cases h
  · have ht := mapLoop_there hl d _ (hpl.values d hd) _ _ _ _ _ (congrArg (·.2) h)
    have hm' : Chg.var name u n ∈ (mapLoop A s d 0 (A.params d) (A.args (A.owner d)) [] false).1 := by rw [h]; exact hm
    rcases (mapLoop_defs hf d _ (hpl.values d hd) _ _ _ _).1 _ hm' with ⟨x, e⟩ | ⟨j, name', p, a, u', e, h1, _, _, h2⟩
    · cases e
    · cases e
      obtain ⟨x, hx⟩ := ht _ (List.mem_of_getElem? h1)
      unfold variableAt at hx
      dsimp only at hx
      rw [h2] at hx
      cases hx

/-- While the parameters are put in place. -/
theorem defsLoop_firm {names : List String} (hw : A.Wf names) (hpl : A.Placed) {s0 : S T} : ∀ (ds : List Nat) {s s' : S T} {P : List Nat}
    {cs cs' : List (Chg T)} {b b' : Bool}, Vars A I E m s D H → Firm A I b0 s → Fresh s → s.tg = s0.tg → NewParams A s0 D P cs → (∀ d ∈ ds, d ∈ A.defs) → ds.Nodup →
    (∀ d ∈ ds, d ∉ P) → (∀ d ∈ ds, d ∉ s.callsite.map (·.1)) →
    (∀ name u n, Chg.var name u n ∈ cs → ∃ d ∈ A.defs, n = A.body d ∧ d ∉ s.callsite.map (·.1) ∧ d ∉ ds) → defsLoop A ds s cs b = .ok (s', cs', b') →
    Firm A I b0 s' ∧ Onward A s s' ∧ ∀ name u n, Chg.var name u n ∈ cs' → ∃ d ∈ A.defs, n = A.body d ∧ d ∉ s'.callsite.map (·.1)
  | [], s, s', P, cs, cs', b, b', hv, hfi, hf, ht, hp, _, _, _, _, hvar, h => by
    cases h
    refine ⟨hfi, .refl A s, fun name u n hm => ?_⟩
    obtain ⟨d, h1, h2, h3, _⟩ := hvar name u n hm
    exact ⟨d, h1, h2, h3⟩
  | d :: ds, s, s', P, cs, cs', b, b', hv, hfi, hf, ht, hp, hds, hnd, hdp, hcs, hvar, h => by
    have hd := hds d (by simp)
    have hp' := hp.append hw hpl hf hv.locs ht hd (hdp d (by simp))
    have h1 : ∀ x ∈ ds, x ∈ A.defs := fun x hx => hds x (List.mem_cons_of_mem _ hx)
    have h2 : ∀ x ∈ ds, x ∉ P ++ [d] := fun x hx hm => by
      rcases List.mem_append.1 hm with hm | hm
      · exact hdp x (List.mem_cons_of_mem _ hx) hm
      · rw [List.mem_singleton.1 hm] at hx; exact (List.nodup_cons.1 hnd).1 hx
    have hdds := (List.nodup_cons.1 hnd).1
    unfold defsLoop at h
    cases e : mapDef A s d with
    | mk cs1 r =>
      rw [e] at h hp'
      cases r with
      | fail e' => cases h
      | later =>
        refine defsLoop_firm hw hpl ds hv hfi hf ht hp' h1 (List.nodup_cons.1 hnd).2 h2 (fun x hx => hcs x (List.mem_cons_of_mem _ hx)) (fun name u n hm => ?_) h
        rcases List.mem_append.1 hm with hm | hm
        · obtain ⟨d', h3, h4, h5, h6⟩ := hvar name u n hm
          exact ⟨d', h3, h4, h5, fun hx => h6 (List.mem_cons_of_mem _ hx)⟩
        · refine ⟨d, hd, ?_, hcs d (by simp), hdds⟩
          have hm' : Chg.var name u n ∈ (mapDef A s d).1 := by rw [e]; exact hm
          unfold mapDef at hm'
          split at hm'
          · cases hm'
          · rcases (mapLoop_defs hf d _ (hpl.values d hd) _ _ _ _).1 _ hm' with ⟨x, e⟩ | ⟨j, name', p, a, u', e, _⟩
            · cases e
            · cases e; rfl
      | success ps =>
        dsimp only at h
        have hB := boundTo_ok hw hpl hv.locs hd e
        have hlater : Later s { s with
            callsite := s.callsite ++ [(d, ps)], binds := s.binds ++ [(d, boundTo A s d)],
            lg := Loc.apply A.places s.lg (.sealExpr (A.place (A.body d))) } :=
          ⟨Ty.Keeps.refl _, fun _ _ h => h, fun _ h => h, fun _ h => h, Nat.le_refl _, fun x hx => List.mem_append_left _ hx⟩
        have hon : Onward A s { s with
            callsite := s.callsite ++ [(d, ps)], binds := s.binds ++ [(d, boundTo A s d)],
            lg := Loc.apply A.places s.lg (.sealExpr (A.place (A.body d))) } :=
          ⟨fun n hn k r hr => get_apply_same (nodes := A.places) (c := .sealExpr (A.place (A.body d))) rfl rfl hr, fun _ _ _ _ h => h, fun _ _ h => h⟩
        have hv' : Vars A I E m { s with
            callsite := s.callsite ++ [(d, ps)], binds := s.binds ++ [(d, boundTo A s d)],
            lg := Loc.apply A.places s.lg (.sealExpr (A.place (A.body d))) } D H := by
          have := hv.step hw hpl (s' := { s with
              callsite := s.callsite ++ [(d, ps)], binds := s.binds ++ [(d, boundTo A s d)],
              lg := Loc.apply A.places s.lg (.sealExpr (A.place (A.body d))) }) (N := []) hlater (by
              simp only [List.map_nil, List.append_nil]
              exact hv.locs.congr rfl rfl rfl rfl) (by simp) rfl rfl (by simp [hv.keys]) (fun x hx => by
              rcases List.mem_append.1 hx with hx | hx
              · exact .inl hx
              · rw [List.mem_singleton.1 hx]; exact .inr hB) (fun _ h => (by cases h)) (fun _ h => (by cases h)) (by simp)
            (fun _ h => (by cases h)) (fun _ h => (by cases h))
          simpa using this
        have hseal : ∀ p, (Loc.apply A.places s.lg (.sealExpr (A.place (A.body d)))).isSealed p = true → p = A.place (A.body d) ∨ s.lg.isSealed p = true := by
          intro p hp
          simpa [Loc.apply] using hp
        have hfi' : Firm A I b0 { s with
            callsite := s.callsite ++ [(d, ps)], binds := s.binds ++ [(d, boundTo A s d)],
            lg := Loc.apply A.places s.lg (.sealExpr (A.place (A.body d))) } := by
          refine ⟨hfi.begun.trans hon, Loc.apply_edges A.places s.lg (.sealExpr (A.place (A.body d))) (fun _ _ e => by cases e) hfi.edges, fun op hop hs => ?_,
            fun op hop a ha hs => (hfi.args op hop a ha hs).on hlater hon, fun d' hd' hs => ?_, fun x hx =>
            (hfi.codes x hx).on hw (fun op hop t d hg => impl_def hop hg) hlater hon⟩
          · rcases hseal _ hs with e1 | hs
            · obtain ⟨k, p, hb⟩ := hpl.body d hd
              obtain ⟨j, hj⟩ := List.getElem?_of_mem (hpl.parent op hop)
              rw [hpl.blk _ (hw.parent op hop) j op hj, hb] at e1
              cases e1
            · exact (hfi.ops op hop hs).on hlater hon
          · rw [List.map_append]
            rcases hseal _ hs with e1 | hs
            · have e2 := hw.body_inj d' hd' d hd (place_inj hw.places (hw.body_lt _ (List.mem_map.2 ⟨d', hd', rfl⟩)) (hw.body_lt _ (List.mem_map.2 ⟨d, hd, rfl⟩)) e1)
              rw [e2]; simp
            · exact List.mem_append_left _ (hfi.bodies d' hd' hs)
        have hcall : ∀ x, x ∉ s.callsite.map (·.1) → x ≠ d → x ∉ (s.callsite ++ [(d, ps)]).map (·.1) := by
          intro x hx hne hm
          rw [List.map_append] at hm
          rcases List.mem_append.1 hm with hm | hm
          · exact hx hm
          · exact hne (List.mem_singleton.1 hm)
        obtain ⟨h3, h4, h5⟩ := defsLoop_firm hw hpl ds hv' hfi' ⟨hf.single, hf.idle⟩ ht hp' h1 (List.nodup_cons.1 hnd).2 h2
          (fun x hx => hcall x (hcs x (List.mem_cons_of_mem _ hx)) fun e => hdds (e ▸ hx)) (fun name u n hm => by
            rcases List.mem_append.1 hm with hm | hm
            · obtain ⟨d', h3, h4, h5, h6⟩ := hvar name u n hm
              exact ⟨d', h3, h4, hcall d' h5 fun e => h6 (by rw [e]; simp), fun hx => h6 (List.mem_cons_of_mem _ hx)⟩
            · exact absurd hm (mapDef_full hpl hv.locs hf hd e name u n)) h
        exact ⟨h3, hon.trans h4, h5⟩

theorem defLocals_firm {names : List String} (hw : A.Wf names) (hpl : A.Placed) (hv : Vars A I E m s D H) (hfi : Firm A I b0 s) (hf : Fresh s) (hg : Later s s')
    {b : Bool} (h : defLocals A s = .ok (s', b)) : Firm A I b0 s' := by
  unfold defLocals at h
  split at h
  · cases h
  rename_i s1 cs b1 hd
  have hds : ∀ d ∈ (knownPaths A s).filter fun d => d ∉ s.callsite.map (·.1), d ∈ A.defs := fun d hd =>
    (knownPaths_spec hw hf.single (List.mem_filter.1 hd).1).2.1
  have hP : NewParams A s D [] ([] : List (Chg T)) := ⟨fun _ h => (by cases h), by simp [newDefs]⟩
  obtain ⟨hv1, ht, hp⟩ := defsLoop_vars hw hpl (s0 := s) _ (P := []) hv hf rfl hP hds ((knownPaths_nodup hw).filter _) (fun _ _ h => (by cases h)) hd
  obtain ⟨hfi1, hon, hvar⟩ := defsLoop_firm hw hpl (s0 := s) _ (P := []) hv hfi hf rfl hP hds ((knownPaths_nodup hw).filter _) (fun _ _ h => (by cases h))
    (fun d hd => by simpa using (List.mem_filter.1 hd).2) (fun _ _ _ h => (by cases h)) hd
  rw [List.nil_append] at hp
  have lt : ∀ d ∈ A.defs, A.body d < A.count := fun d hd => hw.body_lt _ (List.mem_map.2 ⟨d, hd, rfl⟩)
  have only : ∀ c ∈ cs, (∃ x, c = .ty x) ∨ ∃ name u d, d ∈ A.defs ∧ c = .var name u (A.body d) ∧ (A.place (A.body d), name) ∉ D := fun c hc => by
    rcases hp.each c hc with h | ⟨d, _, hd, j, name, p, a, u, e, _, _, _, h⟩
    · exact .inl h
    · exact .inr ⟨name, u, d, hd, e, h⟩
  have hfo := applyAll_forth (hpl.ok hw) hpl.args hv1.locs hfi1.edges (cs := cs) (fun c hc => by
      rcases only c hc with ⟨x, e⟩ | ⟨_, _, _, _, e, _⟩ <;> rw [e] <;> rfl) (fun name t n hc => by
      rcases only _ hc with ⟨x, e⟩ | ⟨_, _, d, hd, e, h⟩
      · cases e
      · cases e; exact ⟨Ast.place_mem (lt d hd), h⟩) (fun name t n hc => by
      obtain ⟨d, hd, e, hnot⟩ := hvar name t n hc
      obtain ⟨k, p, hb⟩ := hpl.body d hd
      refine ⟨?_, ⟨fun m hm => ?_, fun o x hm => ?_⟩⟩
      · have h1 : s1.lg.isSealed (A.place n) = false := by
          rw [e]
          cases hs : s1.lg.isSealed (A.place (A.body d)) with
          | false => rfl
          | true => exact absurd (hfi1.bodies d hd hs) hnot
        rw [e, hb] at h1 ⊢
        exact h1
      · rcases only _ hm with ⟨x, e⟩ | ⟨_, _, _, _, e, _⟩ <;> cases e
      · rcases only _ hm with ⟨x, e⟩ | ⟨_, _, _, _, e, _⟩ <;> cases e) hp.nodup (fun o x hm => by
      rcases only _ hm with ⟨x, e⟩ | ⟨_, _, _, _, e, _⟩ <;> cases e) h
  have hre := applyAll_rest h
  have hl1 : Later s1 s' := ⟨hre.2, by
    have := hg.edges
    rw [← ht] at this
    exact this, by rw [hre.1.steps]; exact fun _ h => h, by rw [hre.1.exprs]; exact fun _ h => h, by rw [hre.1.depth]; exact Nat.le_refl _,
    by rw [hre.1.callsite]; exact fun _ h => h⟩
  refine ⟨hfi1.begun.trans hfo.onward, hfo.edges, fun op hop hs => ?_, fun op hop a ha hs => ?_, fun d hd hs => ?_, fun x hx => ?_⟩
  · rcases hfo.sealed_ _ hs with hs | ⟨m, hm, _⟩
    · exact (hfi1.ops op hop hs).on hl1 hfo.onward
    · rcases only _ hm with ⟨x, e⟩ | ⟨_, _, _, _, e, _⟩ <;> cases e
  · refine (hfi1.args op hop a ha fun hm => ?_).on hl1 hfo.onward
    rcases hfo.seals _ _ hm with h1 | ⟨o, x, h1, _⟩
    · exact hs h1
    · rcases only _ h1 with ⟨x, e⟩ | ⟨_, _, _, _, e, _⟩ <;> cases e
  · rw [hre.1.callsite]
    rcases hfo.sealed_ _ hs with hs | ⟨m, hm, _⟩
    · exact hfi1.bodies d hd hs
    · rcases only _ hm with ⟨x, e⟩ | ⟨_, _, _, _, e, _⟩ <;> cases e
  · rw [hre.1.codes] at hx
    exact (hfi1.codes x hx).on hw (fun op hop t d hg => impl_def hop hg) hl1 hfo.onward

theorem Firm.kin {names : List String} (hw : A.Wf names) (hpl : A.Placed) (hv : Vars A I E m s D H) (h : Firm A I b0 s) (hk : Kin A s s') : Firm A I b0 s' := by
  obtain ⟨s1, s2, g1, k1, h2, g3, k3⟩ := hk
  have h1 := h.still hw g1.later k1
  refine Firm.still hw ?_ g3.later k3
  rcases h2 with e | ⟨hf, g2, b, hd⟩
  · rw [e]; exact h1
  · exact defLocals_firm hw hpl (hv.still hw hpl g1.later k1) h1 hf g2.later hd

/-! ### Blocks -/

theorem Vars.variableAt (hc : Loc.Closed A.places) (h : Vars A I E m s D H) {n i : Nat} {name : String} {u : T} (hn : n < A.count) (hne : A.place n ≠ [])
    (hi : D[i]? = some (A.place n, name)) (hu : s.slots[i]? = some u) : variableAt A s name n = some (i, u) := by
  obtain ⟨j, hj⟩ := Option.isSome_iff_exists.1 ((Loc.lastIdx_isSome D (A.place n) name).2 (List.mem_of_getElem? hi))
  have h1 := h.locs.lex _ (Ast.place_mem hn) name
  rw [hj] at h1
  dsimp only at h1
  have h2 := (h.locs.lex.defined hc _ _ (Nat.le_refl _) (Ast.place_mem hn) _ _ h1).2
  dsimp only at h2
  have e := h.same hne h2 hi
  subst e
  have h3 : s.lg.locals[j]? = some (.var j) := by
    have := (List.getElem?_eq_some_iff.1 hi).1
    rw [h.locs.locals, List.getElem?_map, List.getElem?_range this]; rfl
  unfold Comp.variableAt
  rw [show Loc.newVar s.lg (A.place n) name = some (some (.var j)) by simp [Loc.newVar, h1]; exact ⟨_, ⟨rfl, rfl⟩, h3⟩]
  dsimp only
  rw [hu]; rfl

theorem codeOf_origin {names : List String} (hw : A.Wf names) (hpl : A.Placed) (hi : Inv A s) (hf : Fresh s) (h : Vars A I E m s D H) {op : Nat} {t u : T}
    (ho : op ∈ A.ops) (ht : Ty.Settled (s.tg.kn op .inp) t) (hr : (compileBlock A I s op t).res = .ok u) :
    Origin A I s (op, t, u, codeOf A I s op t) := by
  have key : (∀ a ∈ (codeOf A I s op t).arguments, holdOf A s a.node = some a.hold ∧ a.node ∈ A.args op) ∧
      ∀ d params, codeOf A I s op t = .call d params → ParamsFor A s op d params := by
    cases hg : A.getImpl op t with
    | none => simp only [compileBlock, hg] at hr; cases hr
    | some c =>
      cases c with
      | intrinsic i =>
        simp only [compileBlock, hg] at hr
        simp only [codeOf, hg]
        refine ⟨fun a ha => ?_, fun d params e => by cases e⟩
        obtain ⟨r, hq⟩ := runBuiltin_requests hr
        obtain ⟨b, hb⟩ := madeArgs_spec hi.tg.any hf h.locs.noPtr (start_where op) (by trivial) hq a ha
        obtain ⟨h1, _, _, h2⟩ := argument_some hb.made
        rw [h1]
        exact ⟨h2, hb.node⟩
      | defn d =>
        simp only [compileBlock, hg] at hr
        simp only [codeOf, hg]
        obtain ⟨k, hm⟩ := getImpl_mem hg
        have hd := (def_mem ho hm).1
        have hown := hw.owner op ho _ hm d rfl
        unfold runDef at hr
        split at hr
        case isFalse => cases hr
        split at hr
        · cases hr
        rename_i cs hc
        rw [hown] at hc ⊢
        by_cases hk : d ∈ s.callsite.map (·.1)
        · obtain ⟨ps, h4, h5⟩ := callsiteOf_mem hk
          obtain ⟨h6, h7⟩ := hi.call.calls _ h4
          dsimp only at h6 h7
          have hB := h.binds _ (bindsOf_mem (by rw [h.keys]; exact hk))
          have hall := callsiteArgs_met hc
          have hgiven := fun p hp => let ⟨_, hx⟩ := hall p hp; callsiteArg_given hi.tg.any hf h.locs.noPtr hx
          have some_ : ∀ p ∈ s.callsiteOf d, ∃ a, callArgument A s t (A.args op) p = some a := fun p hp => by
            obtain ⟨_, _, a, _, _, _, ha, _⟩ := hgiven p hp
            exact ⟨a, ha⟩
          have hat : ∀ j : Nat, ((s.callsiteOf d).filterMap (callArgument A s t (A.args op)))[j]? =
              ((A.params d)[j]?.map fun p => (ptyOf p.2, j % 256)).bind (callArgument A s t (A.args op)) := by
            intro j
            rw [filterMap_at some_, h5, h7, mappedParams_at (hpl.values d hd) j]
            simp
          have hpos : ∀ (j : Nat) q, (A.params d)[j]? = some q → j % 256 = j ∧ (ptyOf q.2, j) ∈ s.callsiteOf d := by
            intro j q hq
            have hlt := (List.getElem?_eq_some_iff.1 hq).1
            have := hpl.few d hd
            have e : j % 256 = j := Nat.mod_eq_of_lt (by omega)
            refine ⟨e, ?_⟩
            have hz := mappedParams_at (i := 0) (hpl.values d hd) j
            rw [hq, Nat.zero_add, e] at hz
            rw [h5, h7]
            exact List.mem_of_getElem? hz
          have each : ∀ (j : Nat) slot w a, ((s.bindsOf d).zip ((s.callsiteOf d).filterMap (callArgument A s t (A.args op))))[j]? = some ((slot, w), a) →
              ∃ name p, (A.params d)[j]? = some (name, p) ∧ (A.args op)[j]? = some a.node ∧ variableAt A s name (A.body d) = some (slot, w) ∧
                holdOf A s a.node = some a.hold := by
            intro j slot w a hj
            obtain ⟨h8, h9⟩ := List.getElem?_zip_eq_some.1 hj
            have hlt : j < (A.params d).length := by
              rw [← hB.length]; exact (List.getElem?_eq_some_iff.1 h8).1
            obtain ⟨q, hq⟩ : ∃ q, (A.params d)[j]? = some q := ⟨_, List.getElem?_eq_getElem hlt⟩
            obtain ⟨e3, h10⟩ := hpos j q hq
            rw [hat, hq, Option.map_some, e3, Option.bind_some] at h9
            obtain ⟨n, b, a', h11, h12, h13, h14, h15⟩ := hgiven _ h10
            rw [h14] at h9
            injection h9 with h9
            subst h9
            obtain ⟨slot', w', h16, h17, h18⟩ := hB.vars j q.1 q.2 hq
            dsimp only at h16 h17
            rw [h8] at h16
            cases h16
            obtain ⟨e4, _, _, e5⟩ := argument_some h13.made
            refine ⟨q.1, q.2, hq, by rw [e4, h12]; exact h11, h.variableAt (hpl.ok hw) (hw.body_lt _ (List.mem_map.2 ⟨d, hd, rfl⟩)) (by
              obtain ⟨k, p, hb⟩ := hpl.body d hd; rw [hb]; simp) h17 h18, by rw [e4]; exact e5⟩
          refine ⟨fun a ha => ?_, fun d' params e => ?_⟩
          · obtain ⟨p, hp, rfl⟩ := List.mem_map.1 ha
            obtain ⟨j, hj⟩ := List.getElem?_of_mem hp
            obtain ⟨⟨slot, w⟩, a⟩ := p
            obtain ⟨_, _, _, h8, _, h9⟩ := each j slot w a hj
            exact ⟨h9, List.mem_of_getElem? h8⟩
          · cases e
            refine .inr ⟨?_, fun j slot w a hj => ?_⟩
            · have hlen : ((s.callsiteOf d).filterMap (callArgument A s t (A.args op))).length = (A.params d).length := by
                apply Nat.le_antisymm
                · apply Nat.le_of_not_lt
                  intro hlt
                  have := List.getElem?_eq_getElem hlt
                  rw [hat, List.getElem?_eq_none (Nat.le_refl _)] at this
                  cases this
                · apply Nat.le_of_not_lt
                  intro hlt
                  obtain ⟨h8, h9⟩ := hpos _ _ (List.getElem?_eq_getElem hlt)
                  obtain ⟨a, ha⟩ := some_ _ h9
                  have := hat ((s.callsiteOf d).filterMap (callArgument A s t (A.args op))).length
                  rw [List.getElem?_eq_none (Nat.le_refl _), List.getElem?_eq_getElem hlt, Option.map_some, h8, Option.bind_some, ha] at this
                  cases this
              rw [List.length_zip, hlen, hB.length, Nat.min_self]
            · obtain ⟨name, p, h8, h9, h10, _⟩ := each j slot w a hj
              exact ⟨name, p, h8, h9, h10⟩
        · have e3 := bindsOf_none (s := s) (d := d) (by rw [h.keys]; exact hk)
          rw [e3]
          refine ⟨fun a ha => (by cases ha), fun d' params e => ?_⟩
          cases e
          exact .inl rfl
  exact ⟨ho, ht, ⟨s, .refl (h.locs.sane hf) h.locs, hr, rfl⟩, key.1, key.2⟩

theorem Firm.blocks {names : List String} (hw : A.Wf names) (hn : I.Named names) (hpl : A.Placed) (hst : I.Prompt A)
    (hi : Inv A s) (hf : Fresh s) (hv : Vars A I E m s D H) (h : Firm A I b0 s)
    (hb : compileBlocks A I s = .again s' ∨ ∃ e, compileBlocks A I s = .failed s' e) : Firm A I b0 s' := by
  have hg : Grows A s s' := by
    rcases hb with h | ⟨e, h⟩
    · exact ((blocks_stage hw hn hi hf).1 _ h).1
    · exact ((blocks_stage hw hn hi hf).2 _ _ h).1
  have hfrom := (tryAll_from A I s).1
  unfold compileBlocks at hb
  dsimp only at hb
  split at hb
  · rcases hb with h | ⟨_, h⟩ <;> cases h
  split at hb
  · rcases hb with h | ⟨_, h⟩ <;> cases h
  rename_i s1 b hx
  have e : s' = s1 := by
    split at hb
    · rcases hb with h | ⟨_, h⟩ <;> cases h; rfl
    · split at hb
      · rcases hb with h | ⟨_, h⟩ <;> cases h; rfl
      · rcases hb with h | ⟨_, h⟩ <;> cases h
  subst e
  obtain ⟨hdefs, hchgs⟩ := tryAll_defs A I s
  have hcases := tryAll_chgs A I s
  have hnp := hv.locs.noPtr
  have hsane := hv.locs.sane hf
  have each : ∀ x ∈ newDefs A (tryAll A I s).chgs, ∃ y ∈ candidates A s, Added A I s y.1 y.2 x := by
    intro x hx
    rw [hdefs] at hx
    obtain ⟨y, hy, hx⟩ := List.mem_flatMap.1 hx
    rcases (compileBlock_adds (I := I) hw hnp (op := y.1) (t := y.2)).1 with e | ⟨z, e, hz⟩
    · rw [e] at hx; cases hx
    · have e1 : x = z := by rw [e] at hx; exact List.mem_singleton.1 hx
      subst e1
      exact ⟨y, hy, hz⟩
  -- which block has this to say
  have opof : ∀ {y z : Nat × T}, y ∈ candidates A s → z ∈ candidates A s → y.1 = z.1 → y = z := by
    intro y z hy hz e
    obtain ⟨_, _, h1⟩ := mem_candidates.1 hy
    obtain ⟨_, _, h2⟩ := mem_candidates.1 hz
    rw [e, h2] at h1
    injection h1 with h1
    exact Prod.ext e h1.symm
  have blockMine : ∀ x ∈ candidates A s, ∀ c ∈ (compileBlock A I s x.1 x.2).chgs, Mine A x.1 c ∧ ((∃ o a, c = .breakEdge o a) ∨ (∃ m, c = .sealOp m) →
      ∃ i, A.getImpl x.1 x.2 = some (.intrinsic i) ∧ c ∈ (runBuiltin A I s i x.1 x.2).chgs) := by
    intro x _ c hc
    cases hgi : A.getImpl x.1 x.2 with
    | none => simp only [compileBlock, hgi] at hc; cases hc
    | some cmd =>
      cases cmd with
      | intrinsic i =>
        simp only [compileBlock, hgi] at hc
        exact ⟨runBuiltin_mine hw hnp c hc, fun _ => ⟨i, rfl, hc⟩⟩
      | defn d =>
        simp only [compileBlock, hgi] at hc
        obtain ⟨z, e⟩ := runDef_ty c hc
        subst e
        refine ⟨trivial, fun h => ?_⟩
        rcases h with ⟨_, _, h⟩ | ⟨_, h⟩ <;> cases h
  have seals : ∀ m, Chg.sealOp m ∈ (tryAll A I s).chgs → ∃ x ∈ candidates A s, x.1 = m ∧ ∀ i, A.getImpl x.1 x.2 = some (.intrinsic i) →
      (runBuiltin A I s i x.1 x.2).Seals x.1 := by
    intro m hm
    rcases hcases _ hm with ⟨x, hx, hc⟩ | ⟨y, e⟩ | ⟨x, hx, e, ha⟩
    · obtain ⟨h1, h2⟩ := blockMine x hx _ hc
      obtain ⟨i, h3, h4⟩ := h2 (.inr ⟨m, rfl⟩)
      refine ⟨x, hx, h1.symm, fun j hj => ?_⟩
      rw [h3] at hj
      cases hj
      rw [← show m = x.1 from h1] at h4 ⊢
      exact .inr h4
    · cases e
    · cases e
      refine ⟨x, hx, rfl, fun i hgi => .inl ?_⟩
      simp only [compileBlock, hgi] at ha
      exact ha
  have breaks : ∀ o a, Chg.breakEdge o a ∈ (tryAll A I s).chgs → ∃ x ∈ candidates A s, x.1 = o ∧ a ∈ A.args o ∧
      ∃ i, A.getImpl x.1 x.2 = some (.intrinsic i) ∧ Chg.breakEdge o a ∈ (runBuiltin A I s i x.1 x.2).chgs := by
    intro o a hm
    rcases hcases _ hm with ⟨x, hx, hc⟩ | ⟨y, e⟩ | ⟨x, hx, e, ha⟩
    · obtain ⟨h1, h2⟩ := blockMine x hx _ hc
      obtain ⟨e, h3⟩ : o = x.1 ∧ a ∈ A.args x.1 := h1
      refine ⟨x, hx, e.symm, by rw [e]; exact h3, h2 (.inl ⟨o, a, rfl⟩)⟩
    · cases e
    · cases e
  -- a variable to be made
  have notThere : ∀ {s0 : S T} {name : String} {n : Nat}, n < A.count → Past A s0 s → Loc.newVar s.lg (A.place n) name = none →
      ∀ x, Comp.variableAt A s0 name n ≠ some x := by
    intro s0 name n hlt hpast hnone x hx
    have := hpast.onward.variableAt hlt hx
    unfold Comp.variableAt at this
    rw [hnone] at this
    cases this
  have vars : ∀ name t n, Chg.var name t n ∈ (tryAll A I s).chgs → ∃ y ∈ candidates A s, ∃ i, A.getImpl y.1 y.2 = some (.intrinsic i) ∧
      Chg.var name t n ∈ (runBuiltin A I s i y.1 y.2).chgs ∧ Near A y.1 n ∧ Loc.newVar s.lg (A.place n) name = none := by
    intro name t n hm
    rcases hcases _ hm with ⟨x, hx, hc⟩ | ⟨y, e⟩ | ⟨x, hx, e, ha⟩
    · rcases (compileBlock_adds (I := I) hw hnp (op := x.1) (t := x.2)).1 with e | ⟨z, e, hz⟩
      · have := newDefs_var (A := A) hc
        rw [e] at this; cases this
      · have := newDefs_var (A := A) hc
        rw [e] at this
        have e1 := List.mem_singleton.1 this
        obtain ⟨i, n', h1, h2, h3, h4, h5⟩ := hz.at_
        simp only [compileBlock, h1] at hc
        subst e1
        refine ⟨x, hx, i, h1, hc, ?_, ?_⟩
        all_goals
          have hlt : n < A.count := by
            rcases (runBuiltin_adds (I := I) hw hnp (i := i) (op := x.1) (t := x.2)).1 with e2 | ⟨_, name', u', n'', _, e2, h6, _⟩
            · have := newDefs_var (A := A) hc
              rw [e2] at this; cases this
            · exact Classical.byContradiction fun hge => by
                have e0 : A.place n = [] := by
                  unfold Ast.place
                  rw [List.getElem?_eq_none (by unfold Ast.count at hge; omega)]; rfl
                exact h4.not_root hw hpl (mem_candidates.1 hx).1 (h3.symm.trans e0)
          have e2 : n = n' := place_inj hw.places hlt (h4.lt hw) h3
          subst e2
          first | exact h4 | exact h5
    · cases e
    · cases e
  have allowed : ∀ name t n, Chg.var name t n ∈ (tryAll A I s).chgs → Loc.Allowed s.lg (A.place n) ∧ Spares A (tryAll A I s).chgs (A.place n) := by
    intro name t n hm
    obtain ⟨y, hy, i, h1, h2, h3, h4⟩ := vars name t n hm
    obtain ⟨h5, _, h6⟩ := mem_candidates.1 hy
    have hset := settled_of_ty hf h6
    have hlt := h3.lt hw
    have hops : s.lg.isSealed (A.place y.1) = false := by
      cases hs : s.lg.isSealed (A.place y.1) with
      | false => rfl
      | true =>
        obtain ⟨s0, t0, h7, h8, h9⟩ := h.ops y.1 h5 hs
        have e := settled_eq hset h8
        subst e
        obtain ⟨x, hx⟩ := hst.all s0 s i y.1 y.2 h5 h1 h7.sane hsane h7.within (h9 i h1) name t n h2
        exact absurd hx (notThere hlt h7 h4 x)
    have hseal : ∀ m, Chg.sealOp m ∈ (tryAll A I s).chgs → A.place m ≠ A.place y.1 := by
      intro m hm e
      obtain ⟨x, hx, e1, h7⟩ := seals m hm
      have e2 : x.1 = y.1 := by
        rw [e1]
        exact place_inj hw.places (by rw [← e1]; exact hw.ops_lt _ (mem_candidates.1 hx).1) (hw.ops_lt _ h5) e
      have e3 := opof hx hy e2
      subst e3
      obtain ⟨z, hz⟩ := hst.all s s i x.1 x.2 h5 h1 hsane hsane (.refl s) (h7 i h1) name t n h2
      exact absurd hz (notThere hlt (.refl hsane hv.locs) h4 z)
    rcases h3.place hw hpl h5 with ⟨k, hp⟩ | ⟨j, p, hp, hp'⟩
    · have hseals : A.place y.1 ∈ s.lg.seals (A.place n) := by
        apply Classical.byContradiction
        intro hnot
        have harg : n ∈ A.args y.1 := by
          rcases h3 with h3 | h3
          · exact h3
          · exfalso
            rcases Near.place hw hpl h5 (.inr h3) with _ | ⟨j, p, _, hp'⟩
            · obtain ⟨jj, hj⟩ := List.getElem?_of_mem (hpl.parent y.1 h5)
              have he := hw.parent y.1 h5
              rw [hpl.next_block hw he hj] at h3
              rw [hpl.blk _ he (jj + 1) n h3] at hp
              cases hp
            · rw [hp'] at hp; cases hp
        obtain ⟨s0, t0, i0, h7, h8, h9, o, h10⟩ := h.args y.1 h5 n harg hnot
        have e := settled_eq hset h8
        subst e
        rw [h1] at h9
        cases h9
        exact hst.apart s0 s i y.1 y.2 h5 h1 h7.sane hsane h7.within o n h10 name t h2
      rw [hp] at hseals ⊢
      refine ⟨⟨hops, hseals⟩, ⟨fun m hm l hl => ?_, fun o x hm l hl => ?_⟩⟩
      · obtain ⟨l1, l2⟩ := hl
        refine ⟨?_, l2⟩
        simp only [Loc.apply, Bool.or_eq_false_iff, decide_eq_false_iff_not]
        exact ⟨fun e => hseal m hm e.symm, l1⟩
      · obtain ⟨l1, l2⟩ := hl
        refine ⟨l1, ?_⟩
        simp only [Loc.apply]
        split
        · rename_i e
          exfalso
          obtain ⟨z, hz, e1, ha, i', h7, h8⟩ := breaks o x hm
          have e2 : n = x := by
            refine place_inj hw.places hlt (hw.arg_lt _ _ ha) ?_
            rw [hp]; exact e
          subst e2
          have e3 : z.1 = y.1 := (by
            have : Near A z.1 n := .inl (by rw [e1]; exact ha)
            exact this.inj hw hpl (mem_candidates.1 hz).1 h5 h3)
          have e4 := opof hz hy e3
          subst e4
          rw [h1] at h7
          cases h7
          exact hst.apart s s i z.1 z.2 h5 h1 hsane hsane (.refl s) o n h8 name t h2
        · exact l2
    · rw [hp'] 
      rw [hp] at hops hseal
      refine ⟨hops, ⟨fun m hm l hl => ?_, fun o x hm l hl => hl⟩⟩
      have l1 : l.isSealed (.blk j :: p) = false := hl
      show (Loc.apply A.places l (.seal (A.place m))).isSealed (.blk j :: p) = false
      simp only [Loc.apply, Bool.or_eq_false_iff, decide_eq_false_iff_not]
      exact ⟨fun e => hseal m hm e.symm, l1⟩
  have hlocs1 : Locs A ({ s with
      steps := s.steps ++ (tryAll A I s).steps
      outs := s.outs ++ (tryAll A I s).outs
      codes := s.codes ++ (tryAll A I s).steps.map fun x => (x.1, x.2.1, x.2.2, codeOf A I s x.1 x.2.1) } : S T) D := hv.locs.congr rfl rfl rfl rfl
  have hfo := applyAll_forth (hpl.ok hw) hpl.args hlocs1 h.edges (cs := (tryAll A I s).chgs) (fun c hc => by
      rcases hchgs c hc with ⟨x, hx, hc⟩ | ⟨_, hc⟩
      · exact (compileBlock_adds hw hnp).2 c hc
      · exact hc) (fun name t n hc => by
      obtain ⟨y, hy, i, _, _, h3, h4⟩ := vars name t n hc
      exact ⟨Ast.place_mem (h3.lt hw), hv.locs.absent (h3.lt hw) h4⟩) allowed (by
      have hcand : (candidates A s).Nodup := List.Pairwise.of_map _ (fun _ _ hne e => hne (by rw [e])) (candidates_nodup (s := s) hw)
      rw [hdefs, List.map_flatMap]
      refine flatMap_nodup hcand (fun y _ => ?_) fun y hy z hz x hx hx' => ?_
      · rcases (compileBlock_adds (I := I) hw hnp (op := y.1) (t := y.2)).1 with e | ⟨w, e, _⟩ <;> rw [e] <;> simp
      · have key : ∀ y ∈ candidates A s, x ∈ (newDefs A (compileBlock A I s y.1 y.2).chgs).map (·.1) → ∃ n, x.1 = A.place n ∧ Near A y.1 n := by
          intro y _ hm
          rcases (compileBlock_adds (I := I) hw hnp (op := y.1) (t := y.2)).1 with e | ⟨w, e, hw'⟩
          · rw [e] at hm; cases hm
          · rw [e] at hm
            have e1 := List.mem_singleton.1 hm
            obtain ⟨j, n, _, _, h4, h5, _⟩ := hw'.at_
            exact ⟨n, by rw [e1]; exact h4, h5⟩
        obtain ⟨n, h2, h3⟩ := key y hy hx
        obtain ⟨n', h4, h5⟩ := key z hz hx'
        rw [h2] at h4
        have e := place_inj hw.places (h3.lt hw) (h5.lt hw) h4
        subst e
        exact opof hy hz (h3.inj hw hpl (mem_candidates.1 hy).1 (mem_candidates.1 hz).1 h5)) (fun o x hm => by
      obtain ⟨_, _, _, ha, _⟩ := breaks o x hm
      exact hw.arg_place o x ha) hx
  have hon : Onward A s s' := ⟨hfo.onward.get, hfo.onward.there, hfo.onward.slots⟩
  have hre := applyAll_rest hx
  refine ⟨h.begun.trans hon, hfo.edges, fun op hop hs => ?_, fun op hop a ha hs => ?_, fun d hd hs => ?_, fun x hx => ?_⟩
  · rcases hfo.sealed_ _ hs with hs | ⟨m, hm, e⟩
    · exact (h.ops op hop hs).on hg.later hon
    · obtain ⟨x, hx, e1, h1⟩ := seals m hm
      obtain ⟨h2, _, h3⟩ := mem_candidates.1 hx
      have e2 : op = x.1 := place_inj hw.places (hw.ops_lt _ hop) (hw.ops_lt _ h2) (by rw [e1]; exact e)
      rw [e2]
      exact ⟨s, x.2, (Past.refl hsane hv.locs).on hg.later hon, hg.later.keeps _ _ _ (settled_of_ty hf h3), h1⟩
  · by_cases hin : A.place op ∈ s.lg.seals (A.place a)
    · rcases hfo.seals _ _ hin with h1 | ⟨o, x, h1, e1, e2⟩
      · exact absurd h1 hs
      · obtain ⟨z, hz, e3, h2, i, h3, h4⟩ := breaks o x h1
        obtain ⟨h5, _, h6⟩ := mem_candidates.1 hz
        have e4 : op = o := place_inj hw.places (hw.ops_lt _ hop) (by rw [← e3]; exact hw.ops_lt _ h5) e2
        have e5 : a = x := place_inj hw.places (hw.arg_lt _ _ ha) (hw.arg_lt _ _ h2) e1
        rw [e4, ← e3]
        exact ⟨s, z.2, i, (Past.refl hsane hv.locs).on hg.later hon, hg.later.keeps _ _ _ (settled_of_ty hf h6), h3, o, by rw [e5]; exact h4⟩
    · exact (h.args op hop a ha hin).on hg.later hon
  · rw [hre.1.callsite]
    rcases hfo.sealed_ _ hs with hs | ⟨m, hm, e⟩
    · exact h.bodies d hd hs
    · obtain ⟨x, hx, e1, _⟩ := seals m hm
      have h2 := (mem_candidates.1 hx).1
      obtain ⟨k, p, hb⟩ := hpl.body d hd
      obtain ⟨j, hj⟩ := List.getElem?_of_mem (hpl.parent _ h2)
      rw [hb, ← e1, hpl.blk _ (hw.parent _ h2) j _ hj] at e
      cases e
  · rw [hre.1.codes] at hx
    refine Origin.on hw (fun op hop t d hg => impl_def hop hg) ?_ hg.later hon
    rcases List.mem_append.1 hx with hx | hx
    · exact h.codes x hx
    · obtain ⟨y, hy, rfl⟩ := List.mem_map.1 hx
      obtain ⟨h6, h7⟩ := hfrom.steps y hy
      obtain ⟨h8, _, h9⟩ := mem_candidates.1 h6
      exact codeOf_origin hw hpl hi hf hv h8 (settled_of_ty hf h9) h7

/-- Variables and names together. -/
theorem firm_kept {names : List String} (hw : A.Wf names) (hn : I.Named names) (hpl : A.Placed) (hst : I.Steady A) (hpr : I.Prompt A) (hE : E.Sound A I) :
    Kept A I (fun s => ∃ D H, Vars A I E m s D H ∧ Firm A I b0 s) where
  quiet := fun s s' _ ⟨D, H, h, hfi⟩ hq => by
    obtain ⟨D', h'⟩ := h.kin hw hpl hq.kin
    exact ⟨D', H, h', hfi.kin hw hpl h hq.kin⟩
  blocks := fun s s' hi hf ⟨D, H, h, hfi⟩ hb => by
    obtain ⟨D', H', h'⟩ := h.blocks hw hn hpl hst hE hi hf hb
    exact ⟨D', H', h', hfi.blocks hw hn hpl hpr hi hf h hb⟩

end

end Verif.Comp
