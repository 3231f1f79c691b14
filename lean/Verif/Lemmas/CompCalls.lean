import Verif.Lemmas.CompTrace
/-! What is known of the arguments of a call of a definition. -/
namespace Verif.Comp
open Verif
set_option linter.unusedSectionVars false
variable {T : Type} [DecidableEq T]

/-! ### Sealed expressions -/

theorem sealedIn_here {l : Loc.State} {f : Nat} {n : Loc.Node} (h : Loc.sealedIn l f n = true) : l.isSealed n = true := by
  cases f with
  | zero => exact h
  | succ f => simp only [Loc.sealedIn, Bool.and_eq_true] at h; exact h.1

theorem sealedIn_up {l : Loc.State} {f : Nat} {n m : Loc.Node} (h : Loc.sealedIn l (f + 1) n = true) (hm : m ∈ l.seals n) :
    Loc.sealedIn l f m = true := by
  simp only [Loc.sealedIn, Bool.and_eq_true, List.all_eq_true] at h
  exact h.2 m hm

section
variable {A : Ast T} {s : S T}

theorem CallInv.blk (hc : CallInv A s) {p : Loc.Node} : ∀ (j f : Nat), Loc.size (.blk j :: p) ≤ f →
    Loc.sealedIn s.lg f (.blk j :: p) = true → ∃ f', Loc.size p ≤ f' ∧ Loc.sealedIn s.lg f' p = true
  | j, 0, hf, _ => by simp only [Loc.size] at hf; omega
  | 0, f + 1, hf, h => by
    refine ⟨f, by simp only [Loc.size] at hf; omega, sealedIn_up h ?_⟩
    exact Classical.byContradiction fun hn => by
      obtain ⟨i, e⟩ := hc.seals (.blk 0 :: p) p (by simp [Loc.sealEdges]) hn
      cases e
  | j + 1, f + 1, hf, h => by
    refine hc.blk j f (by simp only [Loc.size] at hf ⊢; omega) (sealedIn_up h ?_)
    exact Classical.byContradiction fun hn => by
      obtain ⟨i, e⟩ := hc.seals (.blk (j + 1) :: p) (.blk j :: p) (by simp [Loc.sealEdges]) hn
      cases e

theorem CallInv.nested (hc : CallInv A s) {e p : Loc.Node} (hn : Nested e p) : ∀ f, Loc.size p ≤ f → Loc.sealedIn s.lg f p = true →
    s.lg.isSealed e = true := by
  induction hn with
  | here => exact fun f _ h => sealedIn_here h
  | @arg p i j _ ih =>
    intro f hf h
    cases f with
    | zero => simp only [Loc.size] at hf; omega
    | succ f =>
      cases j with
      | zero =>
        have hm : p ∈ s.lg.seals (.arg i :: .blk 0 :: p) := Classical.byContradiction fun hn => by
          obtain ⟨k, e⟩ := hc.seals (.arg i :: .blk 0 :: p) p (by simp [Loc.sealEdges, Loc.par]) hn
          injection e with _ e
          exact absurd (congrArg List.length e) (by simp)
        exact ih f (by simp only [Loc.size] at hf; omega) (sealedIn_up h hm)
      | succ j =>
        have hm : .blk j :: p ∈ s.lg.seals (.arg i :: .blk (j + 1) :: p) := Classical.byContradiction fun hn => by
          obtain ⟨k, e⟩ := hc.seals (.arg i :: .blk (j + 1) :: p) (.blk j :: p) (by simp [Loc.sealEdges, Loc.par]) hn
          injection e with _ e
          injection e with e _
          injection e with e
          omega
        obtain ⟨f', h1, h2⟩ := hc.blk j f (by simp only [Loc.size] at hf ⊢; omega) (sealedIn_up h hm)
        exact ih f' h1 h2

/-- A variable that can be evaluated is sealed. -/
theorem Ready.sealed {n : Nat} {v : String} (hv : A.var n = some v) (h : Ready A s n) : Loc.isSealedAt s.lg (A.place n) = true := by
  have key : ∀ {x}, Loc.get s.lg (A.place n) v = some x → Loc.isSealedAt s.lg (A.place n) = true := by
    intro x hx
    unfold Loc.get at hx
    split at hx
    · assumption
    · cases hx
  obtain ⟨m, u, hp, _, hh⟩ := h
  cases hp with
  | here =>
    rcases hh with ⟨v', slot, h1, h2, _⟩ | ⟨h1, _⟩
    · rw [hv] at h1; cases h1; exact key h2
    · rw [hv] at h1; cases h1
  | there h1 h2 => rw [hv] at h1; cases h1; exact key h2

/-- A variable in a definition can be evaluated only if the parameters are in place. -/
theorem Ready.mapped {names : List String} (hw : A.Wf names) (hc : CallInv A s) {d op a : Nat} (hd : d ∈ A.defs) (hin : Inside A d op)
    (ha : a ∈ A.args op) {v : String} (hv : A.var a = some v) (h : Ready A s a) : d ∈ s.callsite.map (·.1) := by
  obtain ⟨p, j, hn, e⟩ := hin
  obtain ⟨i, ei⟩ := hw.arg_place op a ha
  rw [e] at ei
  have := h.sealed hv
  rw [ei] at this
  exact hc.bodies d hd (hc.nested (.arg hn) _ (Nat.le_refl _) this)

theorem asked_mem : ∀ {qs : List (Req T)} {as : List Nat} {n : Option Nat} {a : Nat} {q : Req T}, (a, q) ∈ asked as n qs → a ∈ as ∨ n = some a
  | [], _, _, _, _, h => by unfold asked at h; cases h
  | q' :: qs, as, n, a, q, h => by
    cases hq : isNext q' with
    | true =>
      obtain rfl : q' = .next := by cases q' <;> first | rfl | cases hq
      cases as with
      | nil => cases h
      | cons b as =>
        have h' : (a, q) ∈ asked as (some b) qs := h
        rcases asked_mem h' with h | h
        · exact .inl (by simp [h])
        · cases h; exact .inl (by simp)
    | false =>
      cases n with
      | none => rw [asked_none hq] at h; exact asked_mem h
      | some b =>
        rw [asked_some hq] at h
        rcases List.mem_cons.1 h with e | h
        · cases e; exact .inr rfl
        · exact asked_mem h

/-! ### Arguments of a call -/

theorem callsiteArg_met (hany : ∀ n, s.tg.kn n .inp = .any → n ∈ A.lits) (hf : Fresh s) {t : T} {args : List Nat} {p : Option T × Nat}
    {cs : List (Chg T)} (h : callsiteArg A s t args p = (cs, none)) {a : Nat} (ha : args[p.2]? = some a) :
    (a ∈ A.lits ∨ Ty.Settled (s.tg.kn a .inp) t) ∧ Ready A s a ∧ ∀ v, p.1 = some v → Ty.Settled (s.tg.kn a .out) v := by
  unfold callsiteArg at h
  rw [ha] at h
  dsimp only at h
  split at h
  · cases h
  · rename_i b hb
    obtain ⟨h1, h2⟩ := supplied_met hany hf (newArg_cur A s a) hb
    split at h
    · rename_i e
      injection h with _ h
      exact ⟨h2, concrete_met hf h1 h, fun v hv => by rw [e] at hv; cases hv⟩
    · rename_i u e
      split at h
      · cases h
      · rename_i b' hb'
        obtain ⟨h3, h4⟩ := returns_met hf h1 hb'
        injection h with _ h
        refine ⟨h2, concrete_met hf h3 h, fun v hv => ?_⟩
        rw [e] at hv; cases hv; exact h4

theorem callsiteArgs_met {t : T} {args : List Nat} : ∀ {ps : List (Option T × Nat)} {cs : List (Chg T)},
    callsiteArgs A s t args ps = (cs, none) → ∀ p ∈ ps, ∃ cs, callsiteArg A s t args p = (cs, none)
  | [], _, _, _, h => by cases h
  | q :: ps, cs, h, p, hp => by
    unfold callsiteArgs at h
    split at h
    · cases h
    · rename_i cs1 h1
      injection h with _ h2
      rcases List.mem_cons.1 hp with e | hp
      · rw [e]; exact ⟨_, h1⟩
      · exact callsiteArgs_met (Prod.ext rfl h2) p hp

theorem mappedParams_mem : ∀ {ps : List (String × Blk.PTy T)} {i j : Nat} {name : String} {p : Blk.PTy T}, ps[j]? = some (name, p) →
    p ≠ .expr → (ptyOf p, (i + j) % 256) ∈ mappedParams i ps
  | [], _, _, _, _, h, _ => by cases h
  | q :: ps, i, 0, name, p, h, hp => by
    simp only [List.getElem?_cons_zero, Option.some.injEq] at h
    subst h
    have : atCall p = true := by cases p <;> first | rfl | exact absurd rfl hp
    simp [mappedParams, this]
  | q :: ps, i, j + 1, name, p, h, hp => by
    simp only [List.getElem?_cons_succ] at h
    have := mappedParams_mem (i := i + 1) h hp
    rw [show i + 1 + j = i + (j + 1) by omega] at this
    exact List.mem_append_right _ this

theorem callsiteOf_mem {d : Nat} (h : d ∈ s.callsite.map (·.1)) : ∃ ps, (d, ps) ∈ s.callsite ∧ s.callsiteOf d = ps := by
  obtain ⟨x, hx, e⟩ := List.mem_map.1 h
  cases hf : s.callsite.find? fun x => x.1 = d with
  | none => exact absurd (by simpa using e) (List.find?_eq_none.1 hf x hx)
  | some y =>
    have h1 : y.1 = d := by simpa using List.find?_some hf
    refine ⟨y.2, ?_, by simp [S.callsiteOf, hf]⟩
    rw [← h1]; exact List.mem_of_find?_eq_some hf

/-- With the parameters in place a call that succeeds is in keeping with the declaration. -/
theorem runDef_bound (hi : Inv A s) (hf : Fresh s) {d op : Nat} {t : T} {cs : List (Chg T)} (ho : A.owner d = op)
    (hd : d ∈ s.callsite.map (·.1)) (h : callsiteArgs A s t (A.args (A.owner d)) (s.callsiteOf d) = (cs, none))
    (hl : (A.params d).length ≤ 256) : Bound A s d op t := by
  obtain ⟨ps, h1, h2⟩ := callsiteOf_mem hd
  obtain ⟨h3, h4⟩ := hi.call.calls _ h1
  dsimp only at h3 h4
  rw [ho] at h3 h
  refine ⟨h3, fun j name p a hp hne ha => ?_⟩
  have hj : j < (A.params d).length := (List.getElem?_eq_some_iff.1 hp).1
  have hm := mappedParams_mem (i := 0) hp hne
  rw [Nat.zero_add, Nat.mod_eq_of_lt (by omega), ← h4, ← h2] at hm
  obtain ⟨cs', hc⟩ := callsiteArgs_met h _ hm
  obtain ⟨h5, h6, h7⟩ := callsiteArg_met hi.tg.any hf hc ha
  exact ⟨h5, h6, fun v hv => h7 v (by rw [hv]; rfl)⟩

end

/-! ### Steps -/

/-- The calls are as they should be, and in a definition whose parameters are not in place no variable is used. -/
def CallStep (A : Ast T) (I : Builtins T) (s : S T) (op : Nat) (t u : T) : Prop :=
  (∃ i, Chosen A op t (.intrinsic i) ∧ ∀ d ∈ A.defs, Inside A d op → d ∈ s.callsite.map (·.1) ∨ NoVariable A I op t u) ∨
  CallOk A I s op t

theorem CallStep.later {A : Ast T} {I : Builtins T} {s s' : S T} (hl : Later s s') {op : Nat} {t u : T} (h : CallStep A I s op t u) :
    CallStep A I s' op t u := by
  rcases h with ⟨i, h1, h2⟩ | ⟨d, s0, h1, h2, h3⟩
  · refine .inl ⟨i, h1, fun d hd hin => (h2 d hd hin).imp_left fun h => ?_⟩
    obtain ⟨x, hx, e⟩ := List.mem_map.1 h
    exact List.mem_map.2 ⟨x, hl.callsite x hx, e⟩
  · exact .inr ⟨d, s0, h1, h2.later hl, h3⟩

theorem compileBlock_call {A : Ast T} {I : Builtins T} {names : List String} (hw : A.Wf names) {s : S T} (hi : Inv A s) (hf : Fresh s)
    (hs : ∀ x ∈ s.steps, CallStep A I s x.1 x.2.1 x.2.2) {op : Nat} {t u : T} (ho : op ∈ A.ops)
    (h : (compileBlock A I s op t).res = .ok u) : CallStep A I s op t u := by
  unfold compileBlock at h
  split at h
  · cases h
  · rename_i i hg
    refine .inl ⟨i, getImpl_chosen hg, fun d hd hin => ?_⟩
    by_cases hm : d ∈ s.callsite.map (·.1)
    · exact .inl hm
    · obtain ⟨anon, h1, _, h2⟩ := runBuiltin_here hi.tg.any hf h
      refine .inr (.inr ⟨i, s, anon, getImpl_chosen hg, h1, fun a ha => ?_⟩)
      cases hv : A.var a with
      | none => rfl
      | some v =>
        rcases asked_mem ha with h3 | h3
        · exact absurd (Ready.mapped hw hi.call hd hin h3 hv (h2 a _ ha)) hm
        · cases h3
  · rename_i d hg
    obtain ⟨k, hk⟩ := getImpl_mem hg
    have hd := (def_mem ho hk).1
    have hown := hw.owner op ho _ hk d rfl
    refine .inr ⟨d, s, getImpl_chosen hg, Within.refl s, ?_⟩
    unfold runDef at h
    split at h
    · rename_i hb
      refine ⟨hb, fun hl => ?_⟩
      split at h
      · cases h
      · rename_i cs hc
        by_cases hm : d ∈ s.callsite.map (·.1)
        · exact .inl (runDef_bound hi hf hown hm hc hl)
        · refine .inr fun x hx hin => ?_
          rcases hs x hx with ⟨_, _, h1⟩ | ⟨d', _, h1, _⟩
          · exact (h1 d hd hin).resolve_left hm
          · exact .inl ⟨d', h1⟩
    · cases h

theorem calls_kept {A : Ast T} {I : Builtins T} {names : List String} (hw : A.Wf names) (hn : I.Named names) :
    Kept A I (fun s => ∀ x ∈ s.steps, CallStep A I s x.1 x.2.1 x.2.2) where
  quiet s s' _ hp hq := fun x hx => by
    rw [hq.steps] at hx; exact (hp x hx).later hq.grows.later
  blocks s s' hi hf hp h := by
    have hg : Grows A s s' := by
      rcases h with h | ⟨e, h⟩
      · exact ((blocks_stage hw hn hi hf).1 _ h).1
      · exact ((blocks_stage hw hn hi hf).2 _ _ h).1
    intro x hx
    rcases (blocks_steps h).2.2 x hx with h | ⟨h1, h2⟩
    · exact (hp x h).later hg.later
    · exact (compileBlock_call hw hi hf hp (mem_candidates.1 h1).1 h2).later hg.later

end Verif.Comp
