import Verif.Lemmas.Talk
import Verif.Lemmas.MeanRun
/-! What a command was compiled to is what it does on its block. -/
namespace Verif.Comp
open Verif
set_option linter.unusedSectionVars false
variable {T V : Type} [DecidableEq T]

section
variable {A : Ast T} {s : S T} {names : List String} {op : Nat} {D : List Scope.DefAt} {τ : Nat → Ty.Side → Option T}

theorem varThere_single {name : String} {t : T} {n : Nat} {x : Variable T} (h : varThere A s name t n = [x]) :
    ∃ slot w, x.site = some (n, slot) ∧ variableAt A s name n = some (slot, w) := by
  unfold varThere at h
  cases hv : variableAt A s name n with
  | none => rw [hv] at h; cases h
  | some y =>
    rw [hv] at h
    cases h
    exact ⟨y.1, y.2, rfl, rfl⟩

/-- When a conversation was successful, it is what the plan says. -/
theorem Talk.planned (hs : Sane s) (hw : A.Wf names) (hτ : ∀ n sd u, (s.tg.kn n sd).ty = some u → τ n sd = some u)
    (hthere : ∀ name n slot w, Near A op n → variableAt A s name n = some (slot, w) → D[slot]? = some (A.place n, name)) :
    ∀ (k : Talk T V) (as : List Nat) {r r' : Run T} {u : T} {an : List T}, r.args = as → (∀ a ∈ as, a ∈ A.args op) →
    requests A s op r (k.run A s op as).1 = (r', none) → r'.args = [] → (k.run A s op as).2 = .ok u an → τ op .out = some u →
    ∃ p, k.plan A τ op as = some p ∧ p.reads = (madeArgs A s op r (k.run A s op as).1).map (·.node) ∧
      p.act = k.closure u (madeArgs A s op r (k.run A s op as).1) ∧ VarsFor A D op (madeVars A s op r (k.run A s op as).1) p.vars
  | .fail _, _, _, _, _, _, _, _, _, _, hf, _ => by cases hf
  | .done .., _, _, _, _, _, hr, _, h, he, hf, _ => by
    cases hf
    cases h
    rw [he] at hr
    subst hr
    exact ⟨_, rfl, rfl, rfl, .nil⟩
  | .given f, as, r, r', u, _, hr, _, h, he, hf, hu => by
    obtain ⟨r1, h1, h2⟩ := asked_cons h
    cases h2
    have e : r'.args = r.args := by
      simp only [request] at h1
      cases h1
      rfl
    have e' : as = [] := by rw [← hr, ← e, he]
    subst e'
    refine ⟨⟨[], [], f u⟩, ?_, ?_, ?_, ?_⟩
    · unfold Talk.plan
      rw [hu]; rfl
    · simp only [Talk.run, madeArgs, madeArg, List.nil_append, List.map_nil]
    · rfl
    · simp only [Talk.run, madeVars, madeVar, List.nil_append]
      exact .nil
  | .tell q k, as, r, r', _, _, hr, ha, h, he, hf, hu => by
    obtain ⟨r1, e1, h1, p1, p2⟩ := took_plain (by cases q <;> rfl) h
    have := Talk.planned hs hw hτ hthere k as (e1.trans hr) ha h1 he hf hu
    rw [← p1, ← p2] at this
    exact this
  | .read .., [], _, _, _, _, _, _, _, _, hf, _ => by cases hf
  | .read l t u k, a :: as, r, r', _, _, hr, ha, h, he, hf, hu => by
    rcases run_read (A := A) (s := s) (op := op) k l t u a as with ⟨i, o, hi, ho, e⟩ | ⟨hn, e⟩
    · rw [e] at h hf ⊢
      obtain ⟨b, r1, e1, e2, e3, e4, h1, p1, p2⟩ := took_takes hs h
      rw [hr] at e1
      injection e1 with e1 e1'
      subst e1
      rw [hi] at e2
      rw [ho] at e3
      cases e2
      cases e3
      obtain ⟨p, b1, b2, b3, b4⟩ := Talk.planned hs hw hτ hthere (k b.inp b.out) as e1'.symm (fun x hx => ha x (by simp [hx])) h1 he hf hu
      rw [p1, p2]
      refine ⟨p.read b.node, ?_, ?_, b3, b4⟩
      · unfold Talk.plan
        have h2 : (t <|> τ b.node .inp) = some b.inp := by
          unfold inTy at hi
          cases t with
          | some x => exact hi
          | none => exact hτ _ _ _ hi
        rw [h2, hτ _ _ _ ho]
        dsimp only
        rw [b1]; rfl
      · show b.node :: p.reads = _
        rw [b2]; rfl
    · rw [e] at hf; cases hf
  | .inject name t k, as, r, r', _, _, hr, ha, h, he, hf, hu => by
    obtain ⟨a, as', x, e1, e2, e3, h1, p1, p2⟩ := took_inject hs h
    obtain ⟨slot, w, g1, g2⟩ : ∃ slot w, x.site = some (a, slot) ∧ variableAt A s name a = some (slot, w) := by
      obtain ⟨r1, h3, _⟩ := asked_cons h
      obtain ⟨_, a', as'', ha', x', m1, _⟩ := asked_inject hs h3
      rw [e1] at ha'
      injection ha' with e4 _
      subst e4
      have hx : x' = x := by
        have : madeVars A s op r (.inject name t :: (k.run A s op as).1) = x' :: madeVars A s op (request A s op r (.inject name t)).1 (k.run A s op as).1 := by
          simp only [madeVars, m1]; rfl
        rw [p2] at this
        injection this with this _
        exact this.symm
      subst hx
      unfold madeVar at m1
      rw [e1] at m1
      exact varThere_single m1
    have hr' : as = a :: as' := hr.symm.trans e1
    subst hr'
    obtain ⟨p, b1, b2, b3, b4⟩ := Talk.planned hs hw hτ hthere k (a :: as') hr ha h1 he hf hu
    have hn : Near A op a := .inl (ha a (by simp))
    refine ⟨p.var (some a) name, ?_, ?_, ?_, ?_⟩
    · unfold Talk.plan
      rw [b1]; rfl
    · simp only [Talk.run]
      rw [p1]; exact b2
    · simp only [Talk.run]
      rw [p1]; exact b3
    · simp only [Talk.run]
      rw [p2]
      exact .cons (.inr ⟨a, slot, g1, rfl, hthere _ _ _ _ hn g2, hn⟩) b4
  | .bind .., [], _, _, _, _, _, _, _, _, hf, _ => by cases hf
  | .bind t k, a :: as, r, r', _, _, hr, ha, h, he, hf, hu => by
    obtain ⟨b, x, r1, e1, e2, e3, h1, p1, p2⟩ := took_createVar hs hw h
    obtain ⟨v, g1, g2⟩ : ∃ v, A.var a = some v ∧ VarFor A D op x (A.next op, v) := by
      obtain ⟨r2, h3, h4⟩ := asked_cons h
      obtain ⟨a', as', ha', e4⟩ := asked_next h3
      obtain ⟨r3, h5, h6⟩ := asked_cons h4
      obtain ⟨e5, b', v, hb, hv, x', m1, _⟩ := asked_createVar hs h5
      rw [hr] at ha'
      injection ha' with e6 _
      subst e6
      rw [e4] at hb
      injection hb with hb
      have hn : b'.node = a := by rw [← hb]; exact follow_self hs.noPtr _ _
      have hx : x' = x := by
        have : madeVars A s op r (.next :: .createVar t :: (k.run A s op as).1) = x' :: madeVars A s op (request A s op r2 (.createVar t)).1 (k.run A s op as).1 := by
          simp only [madeVars, h3, m1]
          simp [madeVar]
        rw [p2] at this
        injection this with this _
        exact this.symm
      subst hx
      have hv' : A.var a = some v := hn ▸ hv
      refine ⟨v, hv', ?_⟩
      unfold madeVar at m1
      rw [e4] at m1
      simp only [hb, hn, hv', hw.arg_op op a (ha a (by simp))] at m1
      cases hnx : A.next op with
      | none =>
        rw [hnx] at m1
        cases m1
        exact .inl ⟨rfl, rfl⟩
      | some n =>
        rw [hnx] at m1
        obtain ⟨slot, w, g1, g2⟩ := varThere_single m1
        exact .inr ⟨n, slot, g1, rfl, hthere _ _ _ _ (.inr hnx) g2, .inr hnx⟩
    rw [hr] at e1
    injection e1 with e1 e1'
    obtain ⟨p, b1, b2, b3, b4⟩ := Talk.planned hs hw hτ hthere k as e1'.symm (fun x hx => ha x (by simp [hx])) h1 he hf hu
    refine ⟨p.var (A.next op) v, ?_, ?_, ?_, ?_⟩
    · unfold Talk.plan
      rw [g1]
      dsimp only
      rw [b1]; rfl
    · simp only [Talk.run]
      rw [p1]; exact b2
    · simp only [Talk.run]
      rw [p1]; exact b3
    · simp only [Talk.run]
      rw [p2]
      exact .cons g2 b4

end

end Verif.Comp
