import Verif.Lemmas.LangSim
import Verif.Spec.Meaning
/-! What a program means on well-formed values. -/
namespace Verif.Comp
open Verif
set_option linter.unusedSectionVars false
variable {T V : Type} [DecidableEq T] {ok : V → Bool}

def Plan.lift (ok : V → Bool) (p : Plan V) : Plan (Sub ok) := ⟨p.reads, p.vars, fun x => (p.act x.1).lift ok⟩

def Sense.lift (Q : Sense T V) (ok : V → Bool) (hl : ∀ n, ok (Q.lit n) = true) : Sense T (Sub ok) where
  ty := fun v => Q.ty v.1
  lit := fun n => ⟨Q.lit n, hl n⟩
  plan := fun i op t => (Q.plan i op t).map (.lift ok)
  skip := Q.skip

def lowVals (ρ : Vals (Sub ok)) : Vals V := fun k => (ρ k).map (·.1)

def lowLocal (σ : Local (Sub ok)) : Local V := fun n => lowVals (σ n)

/-- The same result. -/
def Res.map {α β : Type} (f : α → β) : Res α → Res β
  | .ok x => .ok (f x)
  | .err => .err
  | .stuck => .stuck
  | .more => .more

theorem lowVals_over (σ ρ : Vals (Sub ok)) : lowVals (σ.over ρ) = (lowVals σ).over (lowVals ρ) := by
  funext k
  unfold lowVals Vals.over
  dsimp only
  cases σ k <;> rfl

theorem lowVals_put (ρ : Vals (Sub ok)) (name : String) (v : Sub ok) : lowVals (ρ.put name v) = (lowVals ρ).put name v.1 := by
  funext k
  unfold lowVals Vals.put
  dsimp only
  split <;> rfl

theorem lowVals_none : lowVals (Vals.none : Vals (Sub ok)) = Vals.none := rfl

theorem lowLocal_put (σ : Local (Sub ok)) (n : Nat) (name : String) (v : Sub ok) : lowLocal (σ.put n name v) = (lowLocal σ).put n name v.1 := by
  funext m
  unfold lowLocal Local.put
  dsimp only
  split
  · exact lowVals_put ..
  · rfl

theorem assign_low {vars : List (Option Nat × String)} : ∀ {sets : List (Nat × V)} {σ σ' : Local (Sub ok)}, (sets.all fun p => ok p.2) = true →
    assign vars (liftSets ok sets) σ = some σ' → assign vars sets (lowLocal σ) = some (lowLocal σ')
  | [], _, _, _, h => by cases h; rfl
  | q :: sets, σ, σ', ha, h => by
    rw [List.all_cons, Bool.and_eq_true] at ha
    rw [liftSets_cons ha.1] at h
    obtain ⟨j, v⟩ := q
    unfold assign at h ⊢
    dsimp only at h ⊢
    cases hv : vars[j]? with
    | none => rw [hv] at h; cases h
    | some y =>
      obtain ⟨site, name⟩ := y
      cases site with
      | none =>
        rw [hv] at h
        exact assign_low ha.2 h
      | some n =>
        rw [hv] at h
        dsimp only at h ⊢
        have := assign_low ha.2 h
        rw [lowLocal_put] at this
        exact this

section
variable {A : Ast T} {Q : Sense T V} {hl : ∀ n, ok (Q.lit n) = true}

def LowM (M : Means V) (M' : Means (Sub ok)) : Prop := ∀ e x ρ, M' e x ρ ≠ .stuck → M e x.1 (lowVals ρ) = (M' e x ρ).map (·.1)

theorem argMeans_low {M : Means V} {M' : Means (Sub ok)} (hM : LowM M M') {a : Nat} {x : Sub ok} {ρ : Vals (Sub ok)}
    (h : argMeans A (Q.lift ok hl) M' a x ρ ≠ .stuck) : argMeans A Q M a x.1 (lowVals ρ) = (argMeans A (Q.lift ok hl) M' a x ρ).map (·.1) := by
  unfold argMeans at h ⊢
  cases hv : A.var a with
  | some v =>
    rw [hv] at h
    dsimp only at h ⊢
    cases hr : ρ v with
    | none => rw [hr] at h; exact absurd rfl h
    | some y => simp only [lowVals, hr]; rfl
  | none =>
    rw [hv] at h
    dsimp only at h ⊢
    by_cases h1 : a ∈ A.exprs
    · rw [if_pos h1] at h ⊢
      rw [if_pos h1]
      exact hM _ _ _ h
    · rw [if_neg h1, if_neg h1]
      by_cases h2 : a ∈ A.lits
      · rw [if_pos h2, if_pos h2]; rfl
      · rw [if_neg h2, if_neg h2]; rfl

theorem ne_stuck {α : Type} {r r' : Res α} (h : r = r') (hn : r' ≠ .stuck) : r ≠ .stuck := h ▸ hn

theorem actMeans_low {M : Means V} {M' : Means (Sub ok)} (hM : LowM M M') {p : Plan V} {ρ : Vals (Sub ok)} : ∀ (a : Act V) {σ : Local (Sub ok)},
    actMeans A (Q.lift ok hl) M' (p.lift ok) ρ (a.lift ok) σ ≠ .stuck →
    actMeans A Q M p (lowVals ρ) a (lowLocal σ) = (actMeans A (Q.lift ok hl) M' (p.lift ok) ρ (a.lift ok) σ).map fun r => (r.1.1, lowLocal r.2)
  | .done v, σ, h => by
    rw [Act.lift] at h ⊢
    split at h
    · rename_i hv
      rw [dif_pos hv]; rfl
    · exact absurd rfl h
  | .fail, _, _ => rfl
  | .wrong, _, _ => rfl
  | .set j v next, σ, h => by
    by_cases hv : ok v = true
    · rw [Act.lift, dif_pos hv] at h ⊢
      unfold actMeans at h ⊢
      cases hs : assign (p.lift ok).vars [(j, (⟨v, hv⟩ : Sub ok))] σ with
      | none => rw [hs] at h; exact absurd rfl h
      | some σ' =>
        rw [hs] at h
        have := assign_low (vars := p.vars) (sets := [(j, v)]) (σ := σ) (σ' := σ') (by simp [hv]) (by rw [liftSets_cons hv]; exact hs)
        rw [this]
        exact actMeans_low hM next h
    · rw [Act.lift, dif_neg hv] at h
      exact absurd rfl h
  | .resolve k sets x next, σ, h => by
    by_cases hc : ok x = true ∧ (sets.all fun p => ok p.2) = true
    · rw [Act.lift, dif_pos hc] at h ⊢
      unfold actMeans at h ⊢
      rw [show (p.lift ok).reads = p.reads from rfl] at h ⊢
      cases ha : p.reads[k]? with
      | none => rw [ha] at h; exact absurd rfl h
      | some a =>
        rw [ha] at h
        dsimp only at h ⊢
        cases hs : assign (p.lift ok).vars (liftSets ok sets) σ with
        | none => rw [hs] at h; exact absurd rfl h
        | some σ' =>
          rw [hs] at h
          rw [show assign p.vars sets (lowLocal σ) = some (lowLocal σ') from assign_low hc.2 hs]
          dsimp only at h ⊢
          have hlow : argMeans A (Q.lift ok hl) M' a ⟨x, hc.1⟩ ((σ' a).over ρ) ≠ .stuck →
              argMeans A Q M a x ((lowLocal σ' a).over (lowVals ρ)) = (argMeans A (Q.lift ok hl) M' a ⟨x, hc.1⟩ ((σ' a).over ρ)).map (·.1) := by
            intro hne
            have := argMeans_low hM hne
            rw [lowVals_over] at this
            exact this
          cases hr : argMeans A (Q.lift ok hl) M' a ⟨x, hc.1⟩ ((σ' a).over ρ) with
          | stuck => rw [hr] at h; exact absurd rfl h
          | ok v =>
            rw [hlow (by rw [hr]; exact fun h => by cases h), hr]
            rw [hr] at h
            exact actMeans_low hM (next (some v.1)) h
          | err =>
            rw [hlow (by rw [hr]; exact fun h => by cases h), hr]
            rw [hr] at h
            exact actMeans_low hM (next none) h
          | more =>
            rw [hlow (by rw [hr]; exact fun h => by cases h), hr]
            rfl
    · rw [Act.lift, dif_neg hc] at h
      exact absurd rfl h

theorem paramsMean_low {M : Means V} {M' : Means (Sub ok)} (hM : LowM M M') {x : Sub ok} {ρ : Vals (Sub ok)} : ∀ {ps : List (String × Nat)} {acc : Vals (Sub ok)},
    paramsMean A (Q.lift ok hl) M' x ρ ps acc ≠ .stuck →
    paramsMean A Q M x.1 (lowVals ρ) ps (lowVals acc) = (paramsMean A (Q.lift ok hl) M' x ρ ps acc).map lowVals
  | [], _, _ => rfl
  | (name, a) :: ps, acc, h => by
    unfold paramsMean at h ⊢
    cases hr : argMeans A (Q.lift ok hl) M' a x ρ with
    | stuck => rw [hr] at h; exact absurd rfl h
    | ok v =>
      rw [argMeans_low hM (by rw [hr]; exact fun h => by cases h), hr]
      rw [hr] at h
      dsimp only [Res.map] at h ⊢
      rw [← lowVals_put]
      exact paramsMean_low hM h
    | err => rw [argMeans_low hM (by rw [hr]; exact fun h => by cases h), hr]; rfl
    | more => rw [argMeans_low hM (by rw [hr]; exact fun h => by cases h), hr]; rfl

theorem after_low {op : Nat} {σ : Local (Sub ok)} {ρ : Vals (Sub ok)} : lowVals (after A op σ ρ) = after A op (lowLocal σ) (lowVals ρ) := by
  unfold after
  split
  · exact lowVals_over ..
  · rfl

theorem stepMeans_low {M : Means V} {M' : Means (Sub ok)} (hM : LowM M M') {op : Nat} {x : Sub ok} {ρ : Vals (Sub ok)}
    (h : stepMeans A (Q.lift ok hl) M' op x ρ ≠ .stuck) :
    stepMeans A Q M op x.1 (lowVals ρ) = (stepMeans A (Q.lift ok hl) M' op x ρ).map fun r => (r.1.1, lowVals r.2) := by
  unfold stepMeans at h ⊢
  rw [show (Q.lift ok hl).ty x = Q.ty x.1 from rfl] at h ⊢
  cases hg : A.getImpl op (Q.ty x.1) with
  | none => rw [hg] at h; exact absurd rfl h
  | some im =>
    rw [hg] at h
    cases im with
    | intrinsic i =>
      dsimp only at h ⊢
      rw [show (Q.lift ok hl).plan i op (Q.ty x.1) = (Q.plan i op (Q.ty x.1)).map (.lift ok) from rfl] at h ⊢
      cases hp : Q.plan i op (Q.ty x.1) with
      | none => rw [hp] at h; exact absurd rfl h
      | some p =>
        rw [hp] at h
        dsimp only [Option.map_some] at h ⊢
        rw [show (Plan.lift ok p).act x = (p.act x.1).lift ok from rfl] at h ⊢
        have hlow := actMeans_low (A := A) (Q := Q) (hl := hl) hM (p := p) (ρ := ρ) (p.act x.1) (σ := fun _ => Vals.none)
        rw [show lowLocal (fun _ => (Vals.none : Vals (Sub ok))) = fun _ => Vals.none from rfl] at hlow
        cases hr : actMeans A (Q.lift ok hl) M' (p.lift ok) ρ ((p.act x.1).lift ok) (fun _ => Vals.none) with
        | stuck => rw [hr] at h; exact absurd rfl h
        | ok r =>
          rw [hlow (by rw [hr]; exact fun h => by cases h), hr]
          dsimp only [Res.map]
          rw [after_low]
        | err => rw [hlow (by rw [hr]; exact fun h => by cases h), hr]; rfl
        | more => rw [hlow (by rw [hr]; exact fun h => by cases h), hr]; rfl
    | defn d =>
      dsimp only at h ⊢
      rw [show passed A (Q.lift ok hl) op d = passed A Q op d from rfl] at h ⊢
      have hlow := paramsMean_low (A := A) (Q := Q) (hl := hl) hM (x := x) (ρ := ρ) (ps := passed A Q op d) (acc := Vals.none)
      rw [lowVals_none] at hlow
      cases hr : paramsMean A (Q.lift ok hl) M' x ρ (passed A Q op d) Vals.none with
      | stuck => rw [hr] at h; exact absurd rfl h
      | ok acc =>
        rw [hlow (by rw [hr]; exact fun h => by cases h), hr]
        rw [hr] at h
        dsimp only [Res.map] at h ⊢
        cases hb : M' (A.body d) x acc with
        | stuck => rw [hb] at h; exact absurd rfl h
        | ok v => rw [hM _ _ _ (by rw [hb]; exact fun h => by cases h), hb]; rfl
        | err => rw [hM _ _ _ (by rw [hb]; exact fun h => by cases h), hb]; rfl
        | more => rw [hM _ _ _ (by rw [hb]; exact fun h => by cases h), hb]; rfl
      | err => rw [hlow (by rw [hr]; exact fun h => by cases h), hr]; rfl
      | more => rw [hlow (by rw [hr]; exact fun h => by cases h), hr]; rfl

theorem stepsMean_low {M : Means V} {M' : Means (Sub ok)} (hM : LowM M M') : ∀ {ops : List Nat} {x : Sub ok} {ρ : Vals (Sub ok)},
    stepsMean A (Q.lift ok hl) M' ops x ρ ≠ .stuck → stepsMean A Q M ops x.1 (lowVals ρ) = (stepsMean A (Q.lift ok hl) M' ops x ρ).map (·.1)
  | [], _, _, _ => rfl
  | op :: ops, x, ρ, h => by
    unfold stepsMean at h ⊢
    cases hr : stepMeans A (Q.lift ok hl) M' op x ρ with
    | stuck => rw [hr] at h; exact absurd rfl h
    | ok r =>
      rw [stepMeans_low hM (by rw [hr]; exact fun h => by cases h), hr]
      rw [hr] at h
      exact stepsMean_low hM h
    | err => rw [stepMeans_low hM (by rw [hr]; exact fun h => by cases h), hr]; rfl
    | more => rw [stepMeans_low hM (by rw [hr]; exact fun h => by cases h), hr]; rfl

theorem exprMeans_low : ∀ (f : Nat), LowM (exprMeans A Q f) (exprMeans A (Q.lift ok hl) f)
  | 0 => fun _ _ _ _ => rfl
  | f + 1 => fun _ _ _ h => stepsMean_low (exprMeans_low f) h

end

end Verif.Comp
