import Verif.Lemmas.Map
import Verif.Spec.Defs
namespace Verif.Defs

structure Defs.Wf (d : Defs) : Prop where
  impls : AMap.Wf d.impls
  keys : ∀ n k, AMap.get d.impls n = some k → AMap.Wf k.tys ∧ k.isEmpty = false
  types : AMap.Wf d.types
  names : ∀ n td, AMap.get d.types n = some (.def_ td) → td.name = n

theorem entry_types (m : AMap String Keys) (a b : AMap String TyEntry) (n : String) (k : Option Ty) :
    (Defs.mk m a).entry n k = (Defs.mk m b).entry n k := by cases k <;> rfl

theorem entry_set (m : AMap String Keys) (ts us : AMap String TyEntry) (op op' : String) (t t' : Option Ty)
    (i : Impl) : (Defs.mk (setImpl m op t i) ts).entry op' t' =
      if op = op' ∧ t = t' then some i else (Defs.mk m us).entry op' t' := by
  by_cases h : op = op'
  · subst h
    cases t' with
    | none =>
      cases t with
      | none => simp [Defs.entry, setImpl, AMap.get_insert]
      | some t =>
        simp only [Defs.entry, setImpl, AMap.get_insert, if_true, Option.bind_some]
        cases AMap.get m op <;> simp
    | some t' =>
      cases t with
      | none =>
        simp only [Defs.entry, setImpl, AMap.get_insert, if_true, Option.bind_some]
        cases AMap.get m op <;> simp [AMap.get]
      | some t =>
        simp only [Defs.entry, setImpl, AMap.get_insert, if_true, Option.bind_some, true_and,
          Option.some.injEq]
        by_cases e : t = t'
        · simp [e]
        · simp only [e, if_false]
          cases AMap.get m op <;> simp [AMap.get]
  · rw [if_neg (fun e => h e.1)]
    cases t' <;> simp [Defs.entry, setImpl, AMap.get_insert, h]

theorem wf_set {d : Defs} (h : d.Wf) (op : String) (t : Option Ty) (i : Impl) :
    ({ d with impls := setImpl d.impls op t i } : Defs).Wf := by
  refine ⟨AMap.wf_insert h.impls _ _, ?_, h.types, h.names⟩
  intro n k hk
  simp only [setImpl, AMap.get_insert] at hk
  by_cases e : op = n
  · rw [if_pos e] at hk
    have h0 : AMap.Wf ((AMap.get d.impls op).getD ⟨[], none⟩).tys := by
      cases hg : AMap.get d.impls op with
      | none => exact AMap.wf_nil
      | some k => exact (h.keys _ _ hg).1
    cases t with
    | none => cases hk; exact ⟨h0, by simp [Keys.isEmpty]⟩
    | some t =>
      cases hk
      refine ⟨AMap.wf_insert h0 _ _, ?_⟩
      simp only [Keys.isEmpty]
      have : AMap.get (AMap.insert ((AMap.get d.impls op).getD ⟨[], none⟩).tys t i) t = some i := by
        simp [AMap.get_insert]
      cases hl : AMap.insert ((AMap.get d.impls op).getD ⟨[], none⟩).tys t i with
      | nil => rw [hl] at this; simp [AMap.get] at this
      | cons x xs => simp
  · rw [if_neg e] at hk; exact h.keys n k hk

theorem containsOp_iff {d : Defs} (h : d.Wf) (op : String) :
    d.containsOp op = true ↔ ∃ k i, d.entry op k = some i := by
  rw [Defs.containsOp, AMap.has_iff]
  constructor
  · rintro ⟨k, hk⟩
    have he := (h.keys _ _ hk).2
    cases ha : k.agnostic with
    | some i => exact ⟨none, i, by simp [Defs.entry, hk, ha]⟩
    | none =>
      cases ht : k.tys with
      | nil => simp [Keys.isEmpty, ha, ht] at he
      | cons x xs =>
        obtain ⟨t, i⟩ := x
        exact ⟨some t, i, by simp [Defs.entry, hk, ht, AMap.get]⟩
  · rintro ⟨k, i, hi⟩
    cases hg : AMap.get d.impls op with
    | some k => exact ⟨k, rfl⟩
    | none => cases k <;> simp [Defs.entry, hg] at hi

theorem getImpl_entry (d : Defs) (op : String) (t : Ty) :
    d.getImpl op t = (match d.entry op (some t) with | some i => some i | none => d.entry op none) := by
  unfold Defs.getImpl Defs.entry
  cases AMap.get d.impls op with
  | none => rfl
  | some k => rfl

/-! ### Clearing -/

theorem wf_clear {d : Defs} (h : d.Wf) (b : Bool) : (d.clear b).Wf := by
  have hm := AMap.wf_mapVals h.impls fun k => k.retain fun i => i.loc.kept b
  refine ⟨AMap.wf_retain hm fun _ k => !k.isEmpty, ?_, (by simp only [Defs.clear, clearTypes]; exact AMap.wf_retain h.types _), ?_⟩
  · intro n k hk
    simp only [Defs.clear, clearImpls] at hk
    rw [AMap.get_retain hm, AMap.get_mapVals] at hk
    cases hg : AMap.get d.impls n with
    | none => simp [hg] at hk
    | some k0 =>
      rw [hg, Option.map_some] at hk
      have := Option.filter_eq_some_iff.1 hk
      obtain ⟨e, hne⟩ := this
      cases e
      refine ⟨AMap.wf_retain (h.keys _ _ hg).1 fun _ i => i.loc.kept b, by simpa using hne⟩
  · intro n td htd
    simp only [Defs.clear, clearTypes] at htd
    rw [AMap.get_retain h.types] at htd
    exact h.names n td (Option.filter_eq_some_iff.1 htd).1

theorem entry_clear {d : Defs} (h : d.Wf) (b : Bool) (n : String) (k : Option Ty) :
    (d.clear b).entry n k = (d.entry n k).filter fun i => i.loc.kept b := by
  have hm := AMap.wf_mapVals h.impls fun k => k.retain fun i => i.loc.kept b
  have hg : AMap.get (d.clear b).impls n =
      ((AMap.get d.impls n).map fun k => k.retain fun i => i.loc.kept b).filter fun k => !k.isEmpty := by
    simp only [Defs.clear, clearImpls]
    rw [AMap.get_retain hm, AMap.get_mapVals]
  cases hk : AMap.get d.impls n with
  | none =>
    rw [hk] at hg
    cases k <;> simp [Defs.entry, hk, hg]
  | some k0 =>
    rw [hk, Option.map_some] at hg
    have hwf := (h.keys _ _ hk).1
    have key : ∀ t, AMap.get (k0.retain fun i => i.loc.kept b).tys t =
        (AMap.get k0.tys t).filter fun i => i.loc.kept b := by
      intro t
      exact AMap.get_retain hwf (fun _ i => i.loc.kept b) t
    by_cases he : (k0.retain fun i => i.loc.kept b).isEmpty = true
    · have hg' : AMap.get (d.clear b).impls n = none := by rw [hg]; simp [Option.filter, he]
      have ht : (k0.retain fun i => i.loc.kept b).tys = [] := by
        simp only [Keys.isEmpty, Bool.and_eq_true, List.isEmpty_iff] at he; exact he.1
      have ha : (k0.retain fun i => i.loc.kept b).agnostic = none := by
        simp only [Keys.isEmpty, Bool.and_eq_true, Option.isNone_iff_eq_none] at he; exact he.2
      cases k with
      | none => simp only [Defs.entry, hg', hk, Option.bind_none, Option.bind_some]; exact ha.symm
      | some t =>
        simp only [Defs.entry, hg', hk, Option.bind_none, Option.bind_some]
        rw [← key, ht]; rfl
    · have hg' : AMap.get (d.clear b).impls n = some (k0.retain fun i => i.loc.kept b) := by
        rw [hg]; simp [Option.filter, he]
      cases k with
      | none => simp only [Defs.entry, hg', hk, Option.bind_some]; rfl
      | some t => simp only [Defs.entry, hg', hk, Option.bind_some]; exact key t

def TyEntry.kept (b : Bool) : TyEntry → Bool
  | .def_ d => d.loc.kept b
  | .prim _ => true

theorem types_clear {d : Defs} (h : d.Wf) (b : Bool) (n : String) :
    AMap.get (d.clear b).types n = (AMap.get d.types n).filter (TyEntry.kept b) := by
  simp only [Defs.clear, clearTypes]
  rw [AMap.get_retain h.types]
  rfl

/-! ### Defining types -/

theorem addCtors_spec (checked : Bool) (loc : Loc) (ty : String) (cs : List (String × Nat)) :
    ∀ (d d' : Defs), d.Wf → addCtors checked d loc ty cs = some d' →
      d'.Wf ∧ d'.types = d.types ∧
      (∀ n t, d'.entry n (some t) = d.entry n (some t)) ∧
      (∀ n, n ∉ cs.map (·.1) → d'.entry n none = d.entry n none) ∧
      (∀ n, n ∈ cs.map (·.1) → ∃ i, (n, i) ∈ cs ∧ d'.entry n none = some (.intrinsic loc (.ctor ty i))) := by
  induction cs with
  | nil =>
    intro d d' hw h
    simp only [addCtors] at h; cases h
    exact ⟨hw, rfl, fun _ _ => rfl, fun _ _ => rfl, by simp⟩
  | cons c cs ih =>
    obtain ⟨op, i⟩ := c
    intro d d' hw h
    simp only [addCtors, insertIntrinsic] at h
    split at h
    · cases h
    · simp only [Option.bind_some] at h
      obtain ⟨h1, h2, h3, h4, h5⟩ := ih _ _ (wf_set hw op none (.intrinsic loc (.ctor ty i))) h
      refine ⟨h1, h2, ?_, ?_, ?_⟩
      · intro n t; rw [h3, entry_set (us := d.types)]; simp
      · intro n hn
        simp only [List.map_cons, List.mem_cons, not_or] at hn
        rw [h4 n hn.2, entry_set (us := d.types), if_neg (fun e => hn.1 e.1.symm)]
      · intro n hn
        by_cases hc : n ∈ cs.map (·.1)
        · obtain ⟨j, hj, he⟩ := h5 n hc
          exact ⟨j, by simp [hj], he⟩
        · simp only [List.map_cons, List.mem_cons] at hn
          have hn : n = op := by
            rcases hn with hn | hn
            · exact hn
            · exact absurd hn hc
          subst hn
          exact ⟨i, by simp, by rw [h4 n hc, entry_set (us := d.types)]; simp⟩

theorem insertType_ok {checked : Bool} {d d' : Defs} {loc : Loc} {name : String} {sh : Shape RawField}
    (hw : d.Wf) (h : insertType checked d loc name sh = .ok d') :
    ∃ sh', parsedShape d.types sh = some sh' ∧ AMap.get d.types name = none ∧ d'.Wf ∧
      d'.types = AMap.insert d.types name (.def_ ⟨loc, name, sh'⟩) ∧
      (∀ n t, d'.entry n (some t) = d.entry n (some t)) ∧
      (∀ n, n ∉ (ctors ⟨loc, name, sh'⟩).map (·.1) → d'.entry n none = d.entry n none) ∧
      (∀ n, n ∈ (ctors ⟨loc, name, sh'⟩).map (·.1) → ∃ i, (n, i) ∈ ctors ⟨loc, name, sh'⟩ ∧
        d'.entry n none = some (.intrinsic loc (.ctor name i))) := by
  unfold insertType at h
  split at h
  · cases h
  · rename_i sh' hsh
    split at h
    · cases h
    · rename_i hhas
      simp only at h
      split at h
      · rename_i d1 hc
        cases h
        have hn : AMap.get d.types name = none := by
          cases hg : AMap.get d.types name with
          | none => rfl
          | some e => exact absurd (AMap.has_iff.2 ⟨e, hg⟩) hhas
        have hw' : ({ d with types := AMap.insert d.types name (.def_ ⟨loc, name, sh'⟩) } : Defs).Wf := by
          refine ⟨hw.impls, hw.keys, AMap.wf_insert hw.types _ _, ?_⟩
          intro n td htd
          simp only [AMap.get_insert] at htd
          by_cases e : name = n
          · rw [if_pos e] at htd; cases htd; exact e
          · rw [if_neg e] at htd; exact hw.names n td htd
        obtain ⟨h1, h2, h3, h4, h5⟩ := addCtors_spec checked loc name _ _ _ hw' hc
        refine ⟨sh', hsh, hn, h1, h2, ?_, ?_, h5⟩
        · intro n t; rw [h3]; exact entry_types _ _ _ _ _
        · intro n hn; rw [h4 n hn]; exact entry_types _ _ _ _ _
      · cases h

theorem insertImpl_ok {d d' : Defs} {op : String} {t : Option Ty} {loc : Loc} {src : String}
    (hw : d.Wf) (h : insertImpl d op t loc src = .ok d') :
    d'.Wf ∧ d'.types = d.types ∧ (∀ i, d.entry op t = some i → i.fixed = false) ∧
      ∀ n k, d'.entry n k = if op = n ∧ t = k then some (.definition loc src) else d.entry n k := by
  unfold insertImpl at h
  split at h
  · cases h
  · rename_i hf
    cases h
    refine ⟨wf_set hw _ _ _, rfl, ?_, fun n k => entry_set _ _ _ _ _ _ _ _⟩
    intro i hi
    rw [hi] at hf
    cases hx : i.fixed with
    | false => rfl
    | true => simp [Option.filter, hx] at hf

/-- A request that succeeds does one of these things. -/
theorem process_ok {checked : Bool} {d d' : Defs} {loc : Loc} {r : Req} (h : process checked d loc r = .ok d') :
    (d' = d) ∨ (d' = d.clear false) ∨
    (∃ n t ops src k, r = .impl n t ops src ∧ (∀ o ∈ ops, d.containsOp o = true) ∧
      (match t with | none => k = none | some t => ∃ ty, tyOf d.types t = some ty ∧ k = some ty) ∧
      insertImpl d n k loc src = .ok d') ∨
    (∃ n sh, r = .type_ n sh ∧ insertType checked d loc n sh = .ok d') := by
  cases r with
  | help => cases h
  | list => cases h; exact Or.inl rfl
  | clear => cases h; exact Or.inr (Or.inl rfl)
  | malformed => cases h
  | impl n t ops src =>
    refine Or.inr (Or.inr (Or.inl ?_))
    simp only [process] at h
    split at h
    · cases h
    · rename_i hops
      have hops : ∀ o ∈ ops, d.containsOp o = true := by simpa using hops
      split at h
      · exact ⟨n, none, ops, src, none, rfl, hops, rfl, h⟩
      · rename_i t'
        split at h
        · cases h
        · rename_i ty hty
          exact ⟨n, some t', ops, src, some ty, rfl, hops, ⟨ty, hty, rfl⟩, h⟩
  | type_ n sh => exact Or.inr (Or.inr (Or.inr ⟨n, sh, rfl, h⟩))

/-- A request that fails changes nothing. -/
theorem process_err {checked : Bool} {d d' : Defs} {loc : Loc} {r : Req}
    (h : process checked d loc r = .err d') : d' = d := by
  cases r with
  | help => cases h; rfl
  | list => cases h
  | clear => cases h
  | malformed => cases h; rfl
  | impl n t ops src =>
    have hi : ∀ k, insertImpl d n k loc src = .err d' → d' = d := by
      intro k hk
      unfold insertImpl at hk
      split at hk
      · cases hk; rfl
      · cases hk
    simp only [process] at h
    split at h
    · cases h; rfl
    · split at h
      · exact hi _ h
      · split at h
        · cases h; rfl
        · exact hi _ h
  | type_ n sh =>
    simp only [process, insertType] at h
    split at h
    · cases h; rfl
    · split at h
      · cases h; rfl
      · split at h <;> cases h

/-! ### Sessions are sequences of requests and clears -/

theorem addFile_reach (P : Req → Prop) (C : Bool → Prop) (checked : Bool) (path : String) (d0 : Defs)
    (is : List (Nat × Req)) : ∀ (d d' : Defs), Reach P C checked d0 d → (∀ x ∈ is, P x.2) →
      (addFile checked path d is = .ok d' ∨ addFile checked path d is = .err d') →
      Reach P C checked d0 d' := by
  induction is with
  | nil =>
    intro d d' hr _ h
    rcases h with h | h
    · cases h; exact hr
    · cases h
  | cons x is ih =>
    obtain ⟨line, r⟩ := x
    intro d d' hr hp h
    simp only [addFile] at h
    cases hpr : process checked d (.file path line) r with
    | ok d1 =>
      rw [hpr] at h
      exact ih d1 d' (.request hr (by simp) (hp (line, r) (by simp)) hpr) (fun y hy => hp y (by simp [hy])) h
    | err d1 =>
      rw [hpr] at h
      have := process_err hpr
      subst this
      rcases h with h | h
      · cases h
      · cases h; exact hr
    | panic =>
      rw [hpr] at h
      rcases h with h | h <;> cases h

theorem run_reach (P : Req → Prop) (C : Bool → Prop) (checked : Bool) (d0 : Defs) (os : List Op) :
    ∀ (d d' : Defs), Reach P C checked d0 d → (∀ o ∈ os, ∀ r ∈ o.reqs, P r) →
      (∀ o ∈ os, ∀ b ∈ o.clears, C b) → run checked d os = some d' → Reach P C checked d0 d' := by
  induction os with
  | nil => intro d d' hr _ _ h; cases h; exact hr
  | cons o os ih =>
    intro d d' hr hp hc h
    have hp' : ∀ o ∈ os, ∀ r ∈ o.reqs, P r := fun o ho => hp o (by simp [ho])
    have hc' : ∀ o ∈ os, ∀ b ∈ o.clears, C b := fun o ho => hc o (by simp [ho])
    have hstep : ∀ d1, step checked d o = .ok d1 ∨ step checked d o = .err d1 → Reach P C checked d0 d1 := by
      intro d1 h1
      cases o with
      | shell r =>
        rcases h1 with h1 | h1
        · exact .request hr (by simp) (hp (.shell r) (by simp) r (by simp [Op.reqs])) h1
        · have := process_err h1; subst this; exact hr
      | load p is =>
        exact addFile_reach P C checked p d0 is d d1 hr
          (fun x hx => hp (.load p is) (by simp) x.2 (List.mem_map.2 ⟨x, hx, rfl⟩)) h1
      | clear b =>
        rcases h1 with h1 | h1
        · cases h1; exact .clear hr (hc (.clear b) (by simp) b (by simp [Op.clears]))
        · cases h1
    simp only [run] at h
    split at h
    · rename_i d1 h1; exact ih d1 d' (hstep d1 (Or.inl h1)) hp' hc' h
    · rename_i d1 h1; exact ih d1 d' (hstep d1 (Or.inr h1)) hp' hc' h
    · cases h

theorem reach_wf {P : Req → Prop} {C : Bool → Prop} {checked : Bool} {d d' : Defs} (hw : d.Wf)
    (h : Reach P C checked d d') : d'.Wf := by
  induction h with
  | refl => exact hw
  | request _ _ _ hp ih =>
    rcases process_ok hp with e | e | ⟨n, t, ops, src, k, _, _, _, hi⟩ | ⟨n, sh, _, hi⟩
    · rw [e]; exact ih
    · rw [e]; exact wf_clear ih _
    · exact (insertImpl_ok ih hi).1
    · obtain ⟨_, _, _, h, _⟩ := insertType_ok ih hi; exact h
  | clear _ _ ih => exact wf_clear ih _

/-! ### The initial store -/

theorem base_impls_list : ∀ x ∈ base.impls, (x.2.tys.map (·.1)).Nodup ∧ x.2.isEmpty = false ∧
    (∀ y ∈ x.2.tys, y.2.fixed = true ∧ y.2.loc = .ogma) ∧
    (∀ i, x.2.agnostic = some i → i.fixed = true ∧ i.loc = .ogma) ∧
    (':' ∈ x.1.toList → x.1.toList.takeWhile (· ≠ ':') = "Ord".toList) := by
  decide +kernel

theorem base_wf : base.Wf := by
  refine ⟨by unfold AMap.Wf; decide +kernel, ?_, by unfold AMap.Wf; decide +kernel, ?_⟩
  · intro n k h
    have := base_impls_list _ (AMap.mem_of_get h)
    exact ⟨this.1, this.2.1⟩
  · intro n td h
    have hm := AMap.mem_of_get h
    have : ∀ x ∈ base.types, ∀ td, x.2 = .def_ td → td.name = x.1 := by
      intro x hx td e
      simp only [base, baseTypes, List.mem_cons, List.not_mem_nil, or_false] at hx
      rcases hx with rfl | rfl | rfl | rfl | rfl | rfl | rfl <;> cases e
      rfl
    exact this _ hm td rfl

theorem base_entry {n : String} {k : Option Ty} {i : Impl} (h : base.entry n k = some i) :
    i.fixed = true ∧ i.loc = .ogma ∧ (':' ∈ n.toList → n.toList.takeWhile (· ≠ ':') = "Ord".toList) := by
  unfold Defs.entry at h
  cases hg : AMap.get base.impls n with
  | none => cases k <;> simp [hg] at h
  | some ks =>
    obtain ⟨_, _, h1, h2, h3⟩ := base_impls_list _ (AMap.mem_of_get hg)
    cases k with
    | none =>
      rw [hg] at h
      have := h2 i h
      exact ⟨this.1, this.2, h3⟩
    | some t =>
      rw [hg] at h
      have := h1 _ (AMap.mem_of_get h)
      exact ⟨this.1, this.2, h3⟩


theorem base_type {n : String} {td : TypeDef} (h : AMap.get base.types n = some (.def_ td)) :
    td = ⟨.ogma, "Ord", .sum [("Lt", []), ("Eq", []), ("Gt", [])]⟩ := by
  have hx := AMap.mem_of_get h
  simp only [base, baseTypes, List.mem_cons, List.not_mem_nil, or_false, Prod.mk.injEq, reduceCtorEq,
    and_false, false_or, TyEntry.def_.injEq] at hx
  exact hx.2

theorem base_type_kept {n : String} {e : TyEntry} (h : AMap.get base.types n = some e) (b : Bool) :
    e.kept b = true := by
  cases e with
  | prim t => rfl
  | def_ td => rw [base_type h]; rfl

theorem base_types_stay {P : Req → Prop} {C : Bool → Prop} {checked : Bool} {d : Defs}
    (h : Reach P C checked base d) (n : String) (e : TyEntry) (hn : AMap.get base.types n = some e) :
    AMap.get d.types n = some e := by
  induction h with
  | refl => exact hn
  | request hr _ _ hp ih =>
    have hw := reach_wf base_wf hr
    rcases process_ok hp with e | e | ⟨n, t, ops, src, k, _, _, _, hi⟩ | ⟨m, sh, _, hi⟩
    · rw [e]; exact ih
    · rw [e, types_clear hw, ih]; simp [Option.filter, base_type_kept hn]
    · rw [(insertImpl_ok hw hi).2.1]; exact ih
    · obtain ⟨_, _, hm, _, ht, _⟩ := insertType_ok hw hi
      rw [ht, AMap.get_insert, if_neg]
      · exact ih
      · rintro rfl; rw [hm] at ih; cases ih
  | clear hr _ ih =>
    rw [types_clear (reach_wf base_wf hr), ih]; simp [Option.filter, base_type_kept hn]

/-- The names of the constructors of a type. -/
theorem mem_ctors {td : TypeDef} {n : String} (h : n ∈ (ctors td).map (·.1)) :
    (∃ fs, td.shape = .product fs ∧ n = td.name) ∨
    (∃ vs v, td.shape = .sum vs ∧ v ∈ vs ∧ n = td.name ++ "::" ++ v.1) := by
  unfold ctors at h
  cases hs : td.shape with
  | product fs => rw [hs] at h; simp at h; exact Or.inl ⟨fs, rfl, h⟩
  | sum vs =>
    rw [hs] at h
    obtain ⟨⟨n', i⟩, hx, e⟩ := List.mem_map.1 h
    obtain ⟨⟨v, j⟩, hv, e2⟩ := List.mem_map.1 hx
    cases e
    simp only [Prod.mk.injEq] at e2
    exact Or.inr ⟨vs, v, rfl, by
      have := List.mem_zipIdx hv
      obtain ⟨_, h1, h2⟩ := this
      rw [h2]; exact List.getElem_mem _, e2.1.symm⟩

theorem parsedShape_product {m : AMap String TyEntry} {sh : Shape RawField} {fs : List Field}
    (h : parsedShape m sh = some (.product fs)) : ∃ rs, sh = .product rs := by
  cases sh with
  | product rs => exact ⟨rs, rfl⟩
  | sum vs =>
    simp only [parsedShape] at h
    cases hx : allSome (fun v : String × List RawField => (parsedFields m v.2).map fun fs => (v.1, fs)) vs with
    | none => rw [hx] at h; cases h
    | some y => rw [hx] at h; cases h

theorem takeWhile_colon (a b : List Char) (h : ':' ∉ a) :
    (a ++ [':', ':'] ++ b).takeWhile (· ≠ ':') = a := by
  induction a with
  | nil => simp
  | cons x a ih =>
    simp only [List.mem_cons, not_or] at h
    have : x ≠ ':' := fun e => h.1 e.symm
    simp only [List.cons_append, List.takeWhile_cons]
    rw [if_pos (by simpa using this), ih h.2]

/-- Only a record type can have a constructor with the name of a built-in. -/
theorem ctor_not_builtin {P : Req → Prop} {C : Bool → Prop} {checked : Bool} {d d' : Defs} {loc : Loc}
    {name : String} {sh : Shape RawField} {n : String} {i : Impl}
    (hr : Reach P C checked base d) (hid : (Req.type_ name sh).Ident) (hcl : ¬ (Req.type_ name sh).Clash)
    (h : insertType checked d loc name sh = .ok d') (hb : base.entry n none = some i) :
    d'.entry n none = d.entry n none := by
  obtain ⟨sh', hsh, hfresh, _, _, _, h4, _⟩ := insertType_ok (reach_wf base_wf hr) h
  apply h4
  intro hm
  rcases mem_ctors hm with ⟨fs, hs, e⟩ | ⟨vs, v, hs, _, e⟩
  · simp only at hs e
    subst hs
    obtain ⟨rs, rfl⟩ := parsedShape_product hsh
    subst e
    exact hcl ⟨i, hb⟩
  · simp only at hs e
    have hcol := (base_entry hb).2.2
    have e' : n.toList = name.toList ++ [':', ':'] ++ v.1.toList := by
      rw [e, String.toList_append, String.toList_append]; rfl
    rw [e', takeWhile_colon _ _ hid.1] at hcol
    have := hcol (by simp)
    have hname : name = "Ord" := String.toList_inj.1 this
    subst hname
    have := base_types_stay hr "Ord" (.def_ ⟨.ogma, "Ord", .sum [("Lt", []), ("Eq", []), ("Gt", [])]⟩)
      (by decide +kernel)
    rw [hfresh] at this
    cases this

theorem fixed_false_ne {d : Defs} {n : String} {k : Option Ty} {i : Impl} {op : String} {t : Option Ty}
    (hf : ∀ j, d.entry op t = some j → j.fixed = false) (h : d.entry n k = some i) (hi : i.fixed = true) :
    ¬ (op = n ∧ t = k) := by
  rintro ⟨rfl, rfl⟩
  rw [hf i h] at hi
  cases hi

theorem kept_ogma {i : Impl} (h : i.loc = .ogma) (b : Bool) : i.loc.kept b = true := by rw [h]; rfl

theorem typed_stay {P : Req → Prop} {C : Bool → Prop} {checked : Bool} {d : Defs}
    (h : Reach P C checked base d) (n : String) (t : Ty) (i : Impl) (hn : base.entry n (some t) = some i) :
    d.entry n (some t) = some i := by
  have hb := base_entry hn
  induction h with
  | refl => exact hn
  | request hr _ _ hp ih =>
    have hw := reach_wf base_wf hr
    rcases process_ok hp with e | e | ⟨m, u, ops, src, k, _, _, _, hi⟩ | ⟨m, sh, _, hi⟩
    · rw [e]; exact ih
    · rw [e, entry_clear hw, ih]; simp [Option.filter, kept_ogma hb.2.1]
    · obtain ⟨_, _, hf, he⟩ := insertImpl_ok hw hi
      rw [he, if_neg (fixed_false_ne hf ih hb.1)]; exact ih
    · obtain ⟨_, _, _, _, _, h3, _⟩ := insertType_ok hw hi
      rw [h3]; exact ih
  | clear hr _ ih =>
    rw [entry_clear (reach_wf base_wf hr), ih]; simp [Option.filter, kept_ogma hb.2.1]

theorem generic_stay {P : Req → Prop} {C : Bool → Prop} {checked : Bool} {d : Defs}
    (hP : ∀ r, P r → r.Ident ∧ ¬ r.Clash)
    (h : Reach P C checked base d) (n : String) (i : Impl) (hn : base.entry n none = some i) :
    d.entry n none = some i := by
  have hb := base_entry hn
  induction h with
  | refl => exact hn
  | request hr _ hq hp ih =>
    have hw := reach_wf base_wf hr
    rcases process_ok hp with e | e | ⟨m, u, ops, src, k, _, _, _, hi⟩ | ⟨m, sh, e, hi⟩
    · rw [e]; exact ih
    · rw [e, entry_clear hw, ih]; simp [Option.filter, kept_ogma hb.2.1]
    · obtain ⟨_, _, hf, he⟩ := insertImpl_ok hw hi
      rw [he, if_neg (fixed_false_ne hf ih hb.1)]; exact ih
    · subst e
      have := hP _ hq
      rw [ctor_not_builtin hr this.1 this.2 hi hn]; exact ih
  | clear hr _ ih =>
    rw [entry_clear (reach_wf base_wf hr), ih]; simp [Option.filter, kept_ogma hb.2.1]

/-- Every entry that came with the program is one of the initial ones. -/
theorem ogma_entries {P : Req → Prop} {C : Bool → Prop} {checked : Bool} {d : Defs}
    (h : Reach P C checked base d) :
    (∀ n k i, d.entry n k = some i → i.loc = .ogma → base.entry n k = some i) ∧
    (∀ n e, AMap.get d.types n = some e → (∀ td, e = .def_ td → td.loc = .ogma) → AMap.get base.types n = some e) := by
  induction h with
  | refl => exact ⟨fun n k i h _ => h, fun n e h _ => h⟩
  | @request d1 d2 loc r hr hloc _ hp ih =>
    have hw := reach_wf base_wf hr
    have hclear : ∀ b, (∀ n k i, (d1.clear b).entry n k = some i → i.loc = .ogma → base.entry n k = some i) ∧
        (∀ n e, AMap.get (d1.clear b).types n = some e → (∀ td, e = .def_ td → td.loc = .ogma) →
          AMap.get base.types n = some e) := by
      intro b
      refine ⟨fun n k i h hl => ?_, fun n e h hl => ?_⟩
      · rw [entry_clear hw] at h
        exact ih.1 n k i (Option.filter_eq_some_iff.1 h).1 hl
      · rw [types_clear hw] at h
        exact ih.2 n e (Option.filter_eq_some_iff.1 h).1 hl
    rcases process_ok hp with e | e | ⟨m, u, ops, src, k, _, _, _, hi⟩ | ⟨m, sh, e, hi⟩
    · rw [e]; exact ih
    · rw [e]; exact hclear false
    · obtain ⟨_, ht, _, he⟩ := insertImpl_ok hw hi
      refine ⟨fun n k i h hl => ?_, by rw [ht]; exact ih.2⟩
      rw [he] at h
      split at h
      · cases h; exact absurd hl hloc
      · exact ih.1 n k i h hl
    · obtain ⟨sh', _, _, _, ht, h3, h4, h5⟩ := insertType_ok hw hi
      refine ⟨fun n k i h hl => ?_, fun n e h hl => ?_⟩
      · cases k with
        | some t => rw [h3] at h; exact ih.1 n _ i h hl
        | none =>
          by_cases hm : n ∈ (ctors ⟨loc, m, sh'⟩).map (·.1)
          · obtain ⟨j, _, he⟩ := h5 n hm
            rw [he] at h; cases h; exact absurd hl hloc
          · rw [h4 n hm] at h; exact ih.1 n _ i h hl
      · rw [ht, AMap.get_insert] at h
        split at h
        · cases h; exact absurd (hl _ rfl) hloc
        · exact ih.2 n e h hl
  | @clear d1 b hr _ ih =>
    have hw := reach_wf base_wf hr
    refine ⟨fun n k i h hl => ?_, fun n e h hl => ?_⟩
    · rw [entry_clear hw] at h
      exact ih.1 n k i (Option.filter_eq_some_iff.1 h).1 hl
    · rw [types_clear hw] at h
      exact ih.2 n e (Option.filter_eq_some_iff.1 h).1 hl

/-! ### Known types -/

theorem allSome_mem {α β : Type} {f : α → Option β} : ∀ {l : List α} {r : List β}, allSome f l = some r →
    ∀ b ∈ r, ∃ a ∈ l, f a = some b := by
  intro l
  induction l with
  | nil => intro r h b hb; cases h; cases hb
  | cons a l ih =>
    intro r h b hb
    simp only [allSome] at h
    cases hf : f a with
    | none => rw [hf] at h; cases h
    | some x =>
      rw [hf, Option.bind_some] at h
      cases hl : allSome f l with
      | none => rw [hl] at h; cases h
      | some xs =>
        rw [hl] at h
        cases h
        rcases List.mem_cons.1 hb with e | hb
        · exact ⟨a, by simp, by rw [hf, e]⟩
        · obtain ⟨a', ha, e⟩ := ih hl b hb
          exact ⟨a', by simp [ha], e⟩

theorem tyOf_known {d : Defs} {n : String} {t : Ty} (h : tyOf d.types n = some t) : d.Known t := by
  unfold tyOf at h
  cases hg : AMap.get d.types n with
  | none => rw [hg] at h; cases h
  | some e => rw [hg] at h; cases h; exact ⟨n, e, hg, rfl⟩

theorem parsedFields_known {d : Defs} {rs : List RawField} {fs : List Field}
    (h : parsedFields d.types rs = some fs) : ∀ f ∈ fs, ∀ t ∈ f.ty :: f.params, d.Known t := by
  intro f hf t ht
  obtain ⟨r, _, e⟩ := allSome_mem h f hf
  cases h1 : tyOf d.types r.ty with
  | none => rw [h1] at e; cases e
  | some u =>
    rw [h1, Option.bind_some] at e
    cases h2 : allSome (tyOf d.types) r.params with
    | none => rw [h2] at e; cases e
    | some ps =>
      rw [h2] at e
      cases e
      rcases List.mem_cons.1 ht with e | ht
      · rw [e]; exact tyOf_known h1
      · obtain ⟨n, _, e⟩ := allSome_mem h2 t ht
        exact tyOf_known e

theorem parsedShape_known {d : Defs} {sh : Shape RawField} {sh' : Shape Field}
    (h : parsedShape d.types sh = some sh') : ∀ t ∈ sh'.mentions, d.Known t := by
  intro t ht
  cases sh with
  | product rs =>
    simp only [parsedShape] at h
    cases hp : parsedFields d.types rs with
    | none => rw [hp] at h; cases h
    | some fs =>
      rw [hp] at h; cases h
      simp only [Shape.mentions, List.mem_flatMap] at ht
      obtain ⟨f, hf, ht⟩ := ht
      exact parsedFields_known hp f hf t ht
  | sum vs =>
    simp only [parsedShape] at h
    cases hp : allSome (fun v : String × List RawField => (parsedFields d.types v.2).map fun fs => (v.1, fs)) vs with
    | none => rw [hp] at h; cases h
    | some ws =>
      rw [hp] at h; cases h
      simp only [Shape.mentions, List.mem_flatMap] at ht
      obtain ⟨w, hw, f, hf, ht⟩ := ht
      obtain ⟨v, _, e⟩ := allSome_mem hp w hw
      cases hv : parsedFields d.types v.2 with
      | none => rw [hv] at e; cases e
      | some fs =>
        rw [hv] at e; cases e
        exact parsedFields_known hv f hf t ht

end Verif.Defs
