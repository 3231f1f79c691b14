import Verif.Lemmas.EvalKept
/-! Commands that ask for their variables steadily. -/
namespace Verif.Comp
open Verif
set_option linter.unusedSectionVars false
variable {T V : Type} [DecidableEq T]

section
variable {A : Ast T} {I : Builtins T} {s s' : S T}

theorem Sane.noPtr (h : Sane s) : ∀ p, Loc.Local.ptr p ∉ s.lg.locals := fun p hp => by
  obtain ⟨_, e, _⟩ := h.vars _ hp
  cases e

def isVarReq : Req T → Bool
  | .createVar _ => true
  | .inject _ _ => true
  | _ => false

theorem put_var {r r' : Run T} {e : Option Err} {x : Except (List (Chg T)) (Arg T)} (hx : ∀ cs, x = .error cs → ∀ c ∈ cs, ∃ y, c = .ty y)
    (h : r.put x = (r', e)) {name : String} {v : T} {m : Nat} (hm : Chg.var name v m ∈ r'.chgs) : Chg.var name v m ∈ r.chgs := by
  unfold Run.put at h
  split at h
  · rename_i cs
    cases h
    rcases List.mem_append.1 hm with hm | hm
    · exact hm
    · obtain ⟨y, e⟩ := hx cs rfl _ hm
      cases e
  · cases h; exact hm

theorem need_var {r r' : Run T} {e : Option Err} {name : String} {v : T} {n : Nat} (h : r.need (newVar A s name v n) = (r', e)) {name' : String}
    {v' : T} {m : Nat} (hm : Chg.var name' v' m ∈ r'.chgs) : Chg.var name' v' m ∈ r.chgs ∨ (m, name', v') = (n, name, v) := by
  unfold Run.need at h
  split at h
  · cases h; exact .inl hm
  · cases h; exact .inl hm
  · rename_i c hc
    cases h
    rcases List.mem_append.1 hm with hm | hm
    · exact .inl hm
    · have := (newVar_some hc).1
      rw [← List.mem_singleton.1 hm] at this
      cases this
      exact .inr rfl

/-- The variables a call adds. -/
theorem request_var {names : List String} (hw : A.Wf names) {op : Nat} {r r' : Run T} {n : Option Nat} (hwh : Where A op r n) {q : Req T}
    {e : Option Err} (h : request A s op r q = (r', e)) {name : String} {v : T} {m : Nat} (hm : Chg.var name v m ∈ r'.chgs) :
    Chg.var name v m ∈ r.chgs ∨ (isVarReq q = true ∧ (m, name, v) ∈ introduces1 A op r.args n q) := by
  cases q with
  | output t => cases h; simp [Run.push] at hm; exact .inl hm
  | infer => cases h; exact .inl hm
  | obligeArgs t => cases h; simp [Run.push] at hm; exact .inl hm
  | addsVars b =>
    cases h
    cases b <;> simp [Run.push] at hm <;> exact .inl hm
  | varsAdded => cases h; simp [Run.push] at hm; exact .inl hm
  | next =>
    simp only [request] at h
    split at h <;> cases h <;> exact .inl hm
  | supplied t =>
    simp only [request] at h
    split at h
    · cases h; exact .inl hm
    · exact .inl (put_var (fun cs => supplied_ty) h hm)
  | returns t =>
    simp only [request] at h
    split at h
    · cases h; exact .inl hm
    · exact .inl (put_var (fun cs => returns_ty) h hm)
  | concrete =>
    simp only [request] at h
    split at h <;> cases h <;> exact .inl hm
  | decouple =>
    simp only [request] at h
    split at h
    · cases h; exact .inl hm
    · cases h; simp [Run.push] at hm; exact .inl hm
  | createVar t =>
    simp only [request] at h
    split at h
    · cases h; exact .inl hm
    · rename_i a ha
      split at h
      · cases h; exact .inl hm
      · rename_i w hv
        split at h
        · cases h; exact .inl hm
        · rename_i k hk
          have hn : n = some a.node := by rw [← hwh.cur, ha]; rfl
          have hop : A.opOf a.node = op := hw.arg_op op _ (hwh.node a.node hn)
          rcases need_var h hm with h1 | h1
          · exact .inl h1
          · rw [hop] at hk
            exact .inr ⟨rfl, by simp [introduces1, hn, hv, hk, h1]⟩
  | inject name' t =>
    simp only [request] at h
    split at h
    · cases h; exact .inl hm
    · rename_i a as ha
      rcases need_var h hm with h1 | h1
      · exact .inl h1
      · exact .inr ⟨rfl, by simp [introduces1, ha, h1]⟩

/-- As far as the calls of the first list go, those of the second are the same, up to one that fails and is not for a variable. -/
inductive Follows (A : Ast T) (s : S T) (op : Nat) : Run T → List (Req T) → List (Req T) → Prop
  | nil (r : Run T) (qs : List (Req T)) : Follows A s op r [] qs
  | same (r : Run T) (q : Req T) (qs qs' : List (Req T)) (h : ∀ r', request A s op r q = (r', none) → Follows A s op r' qs qs') :
      Follows A s op r (q :: qs) (q :: qs')
  | stops (r : Run T) (q : Req T) (qs qs' : List (Req T)) (hq : isVarReq q = false) (h : ∀ r', request A s op r q ≠ (r', none)) :
      Follows A s op r (q :: qs) qs'

theorem Follows.refl (A : Ast T) (s : S T) (op : Nat) : ∀ (r : Run T) (qs : List (Req T)), Follows A s op r qs qs
  | r, [] => .nil r []
  | r, q :: qs => .same r q qs qs fun r' _ => Follows.refl A s op r' qs

theorem Follows.var {names : List String} (hw : A.Wf names) (hs : Sane s) {op : Nat} : ∀ {qs qs' : List (Req T)} {r r' : Run T} {n : Option Nat} {e : Option Err},
    Follows A s op r qs qs' → Where A op r n → requests A s op r qs = (r', e) → ∀ {name : String} {v : T} {m : Nat}, Chg.var name v m ∈ r'.chgs →
    Chg.var name v m ∈ r.chgs ∨ (m, name, v) ∈ introduces A op r.args n qs' := by
  intro qs
  induction qs with
  | nil =>
    intro qs' r r' n e _ _ h name v m hm
    cases h
    exact .inl hm
  | cons q qs ih =>
    intro qs' r r' n e hf hwh h name v m hm
    cases hf with
    | stops _ _ _ _ hv hn =>
      unfold requests at h
      cases hq : request A s op r q with
      | mk r1 e1 =>
        rw [hq] at h
        cases e1 with
        | none => exact absurd hq (hn r1)
        | some e1 =>
          dsimp only at h
          cases h
          refine (request_var hw hwh hq hm).imp_right fun h1 => ?_
          rw [hv] at h1
          cases h1.1
    | same _ _ _ qs'' hf =>
      unfold requests at h
      cases hq : request A s op r q with
      | mk r1 e1 =>
        rw [hq] at h
        cases e1 with
        | some e1 =>
          dsimp only at h
          cases h
          refine (request_var hw hwh hq hm).imp_right fun h1 => ?_
          unfold introduces
          exact List.mem_append_left _ h1.2
        | none =>
          dsimp only at h
          cases hn : isNext q with
          | false =>
            obtain ⟨h1, h2⟩ := request_where hwh hn hq
            rcases ih (hf r1 hq) h1 h hm with h3 | h3
            · refine (request_var hw hwh hq h3).imp_right fun h1 => ?_
              unfold introduces
              exact List.mem_append_left _ h1.2
            · rw [h2] at h3
              right
              unfold introduces
              rw [hn]
              exact List.mem_append_right _ h3
          | true =>
            cases q <;> first | cases hn | skip
            simp only [request] at hq
            split at hq
            · cases hq
            · rename_i a as ha
              cases hq
              have h1 := next_where hs.noPtr hwh ha
              rcases ih (hf _ (by simp only [request, ha])) h1 h hm with h3 | h3
              · exact .inl h3
              · right
                unfold introduces
                rw [ha]
                exact List.mem_append_right _ h3

theorem finish_var {r : Run T} {fin : Fin T} {name : String} {v : T} {m : Nat} (h : Chg.var name v m ∈ (finish r fin).chgs) :
    Chg.var name v m ∈ r.chgs := by
  unfold finish at h
  split at h
  · exact h
  · split at h
    · exact h
    · simpa using h

theorem again_of_follows {names : List String} (hw : A.Wf names)
    (h : ∀ s s' i op t u, op ∈ A.ops → A.getImpl op t = some (.intrinsic i) → Sane s → Sane s' → Within s s' → (runBuiltin A I s' i op t).res = .ok u →
      Follows A s op (.start (A.args op)) (I s i op t).1 (I s' i op t).1) :
    ∀ s s' i op t u, op ∈ A.ops → A.getImpl op t = some (.intrinsic i) → Sane s → Sane s' → Within s s' → (runBuiltin A I s' i op t).res = .ok u → ∀ name v n,
      .var name v n ∈ (runBuiltin A I s i op t).chgs → (n, name, v) ∈ I.introduces A s' i op t := by
  intro s s' i op t u ho hg hs hs' hw' hr name v n hm
  have hf := h s s' i op t u ho hg hs hs' hw' hr
  cases hq : requests A s op (.start (A.args op)) (I s i op t).1 with
  | mk r e =>
    have hm' : Chg.var name v n ∈ r.chgs := by
      unfold runBuiltin at hm
      dsimp only at hm
      rw [show (⟨A.args op, none, [], false, false⟩ : Run T) = .start (A.args op) from rfl, hq] at hm
      cases e with
      | some e => exact hm
      | none => exact finish_var hm
    rcases hf.var hw hs (start_where op) hq hm' with h1 | h1
    · cases h1
    · exact h1

/-! ### Calls that succeed -/

theorem asked_cons {op : Nat} {r r' : Run T} {q : Req T} {qs : List (Req T)} (h : requests A s op r (q :: qs) = (r', none)) :
    ∃ r1, request A s op r q = (r1, none) ∧ requests A s op r1 qs = (r', none) := by
  unfold requests at h
  split at h
  · rename_i r1 h1; exact ⟨r1, h1, h⟩
  · cases h

theorem asked_next {op : Nat} {r r' : Run T} (h : request A s op r .next = (r', none)) :
    ∃ a as, r.args = a :: as ∧ r' = { r with args := as, cur := some (newArg A s a) } := by
  simp only [request] at h
  split at h
  · cases h
  · rename_i a as ha; cases h; exact ⟨a, as, ha, rfl⟩

theorem asked_supplied {op : Nat} {r r' : Run T} {t : T} (h : request A s op r (.supplied t) = (r', none)) :
    ∃ a b, r.cur = some a ∧ supplied t a = .ok b ∧ r' = { r with cur := some b } := by
  simp only [request] at h
  split at h
  · cases h
  · rename_i a ha
    unfold Run.put at h
    split at h
    · cases h
    · rename_i b hb; cases h; exact ⟨a, b, ha, hb, rfl⟩

theorem asked_returns {op : Nat} {r r' : Run T} {t : T} (h : request A s op r (.returns t) = (r', none)) :
    ∃ a, r.cur = some a ∧ a.out.ty = some t ∧ r' = r := by
  simp only [request] at h
  split at h
  · cases h
  · rename_i a ha
    unfold Run.put at h
    split at h
    · cases h
    · rename_i b hb
      have e := returns_same hb
      subst e
      cases h
      refine ⟨b, ha, ?_, by rw [← ha]⟩
      unfold returns at hb
      repeat' split at hb
      all_goals first | (cases hb; done) | (rename_i h1 h2; rw [h1]; simp [Ty.Kn.ty, h2]) | skip

theorem asked_concrete {op : Nat} {r r' : Run T} (h : request A s op r .concrete = (r', none)) :
    ∃ b a, r.cur = some b ∧ argument A s b = some a ∧ madeArg A s r .concrete = [a] ∧ r' = r := by
  simp only [request] at h
  split at h
  · cases h
  · rename_i b hb
    injection h with h1 h2
    obtain ⟨a, ha⟩ := concrete_argument h2
    exact ⟨b, a, hb, ha, by simp [madeArg, hb, ha], h1.symm⟩

theorem varThere_one (hs : Sane s) {r r' : Run T} {name : String} {t : T} {n : Nat} (h : r.need (newVar A s name t n) = (r', none)) :
    r' = r ∧ ∃ x, varThere A s name t n = [x] ∧ x.want = t ∧ ∃ slot, x.site = some (n, slot) := by
  unfold Run.need at h
  split at h
  · cases h
  · rename_i hv
    cases h
    refine ⟨rfl, ?_⟩
    unfold newVar at hv
    split at hv
    · cases hv
    · rename_i slot hl
      have hlt : slot < s.slots.length := by
        unfold Loc.newVar at hl
        obtain ⟨l, _, h4⟩ := Option.map_eq_some_iff.1 hl
        obtain ⟨slot', e, h5⟩ := hs.vars _ (List.mem_of_getElem? h4)
        cases e
        exact h5
      exact ⟨⟨some (n, slot), s.slots[slot], t⟩, by simp [varThere, variableAt, hl, hlt], rfl, slot, rfl⟩
    · cases hv
  · cases h

theorem asked_createVar (hs : Sane s) {op : Nat} {r r' : Run T} {t : T} (h : request A s op r (.createVar t) = (r', none)) :
    r' = r ∧ ∃ b v, r.cur = some b ∧ A.var b.node = some v ∧ ∃ x, madeVar A s r (.createVar t) = [x] ∧ x.want = t ∧
      ∀ n slot, x.site = some (n, slot) → A.next (A.opOf b.node) = some n := by
  simp only [request] at h
  split at h
  · cases h
  · rename_i b hb
    split at h
    · cases h
    · rename_i v hv
      split at h
      · rename_i hn
        cases h
        exact ⟨rfl, b, v, hb, hv, ⟨none, t, t⟩, by simp [madeVar, hb, hv, hn], rfl, fun _ _ h => (by cases h)⟩
      · rename_i n hn
        obtain ⟨e, x, h1, h2, slot, h3⟩ := varThere_one hs h
        exact ⟨e, b, v, hb, hv, x, by simp [madeVar, hb, hv, hn, h1], h2, fun n' slot' e => by rw [h3] at e; cases e; exact hn⟩

theorem asked_inject (hs : Sane s) {op : Nat} {r r' : Run T} {name : String} {t : T} (h : request A s op r (.inject name t) = (r', none)) :
    r' = r ∧ ∃ a as, r.args = a :: as ∧ ∃ x, madeVar A s r (.inject name t) = [x] ∧ x.want = t ∧ ∃ slot, x.site = some (a, slot) := by
  simp only [request] at h
  split at h
  · cases h
  · rename_i a as ha
    obtain ⟨e, x, h1, h2, h3⟩ := varThere_one hs h
    exact ⟨e, a, as, ha, x, by simp [madeVar, ha, h1], h2, h3⟩

/-- The output type of an argument once it is known. -/
theorem argument_out (hs : Sane s) (hw : Within s s') {b : Arg T} {n : Nat} (hb : b.out = view (s.tg.kn n .out)) {a : Argument T} (h : argument A s b = some a) :
    (s.tg.kn n .out).ty = some a.out ∧ (s'.tg.kn n .out).ty = some a.out := by
  have h1 := (argument_some h).2.2.1
  rw [hb, view_ty] at h1
  refine ⟨h1, ty_of_settled (hw.2.2 n .out a.out ?_)⟩
  cases hk : s.tg.kn n .out with
  | any => rw [hk] at h1; cases h1
  | known t => rw [hk] at h1; cases h1; exact .inl rfl
  | obliged t => rw [hk] at h1; cases h1; exact .inr rfl
  | inferred ts =>
    rw [hk] at h1
    match ts, h1 with
    | [t], _ => exact absurd hk (hs.sets n .out t)

end

end Verif.Comp
