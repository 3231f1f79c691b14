import Verif.Props.Locals
/-! What a new variable leaves as it is. -/
namespace Verif.Loc
open Verif Verif.Scope

/-- Below another node, nothing changes. -/
theorem lexical_agree {nodes : List Node} (hc : Closed nodes) {m m' : Node → Map} {D : List DefAt} {d : DefAt} (h : Lexical nodes m D)
    (h' : Lexical nodes m' (D ++ [d])) (k : String) : ∀ (z : Nat) (n : Node), size n ≤ z → n ∈ nodes → ¬ Anc d.1 n → m' n k = m n k := by
  intro z
  induction z with
  | zero =>
    intro n hs hn ha
    have hpar : par n = none := by
      cases hp : par n with
      | none => rfl
      | some p => have := size_par hp; omega
    rw [h' n hn k, h n hn k, lastIdx_append_none _ _ _ _ (fun hm => ha (by rw [← List.mem_singleton.1 hm]; exact .refl _)), hpar]
    rfl
  | succ z ih =>
    intro n hs hn ha
    rw [h' n hn k, h n hn k, lastIdx_append_none _ _ _ _ (fun hm => ha (by rw [← List.mem_singleton.1 hm]; exact .refl _))]
    cases lastIdx D n k with
    | some i => rfl
    | none =>
      cases hp : par n with
      | none => rfl
      | some p =>
        have := size_par hp
        exact ih p (by omega) (hc.closed n hn p hp) fun hx => ha (.step hp hx)

theorem lexical_lt {nodes : List Node} (hc : Closed nodes) {m : Node → Map} {D : List DefAt} (h : Lexical nodes m D) {n : Node} (hn : n ∈ nodes)
    {k : String} {l : Loc} (hl : m n k = some l) : l.loc < D.length :=
  (List.getElem?_eq_some_iff.1 (h.defined hc _ n (Nat.le_refl _) hn k l hl).2).1

/-- An answer is not changed by a new variable where one may be made. -/
theorem get_newVar {nodes : List Node} (hc : Closed nodes) (hargs : ArgsOk nodes) {s : State} {D : List DefAt} (h : Lexical nodes s.maps D)
    (hl : s.locals.length = D.length) (he : EdgesOk s) {p : Node} (hp : p ∈ nodes) (hal : Allowed s p) (name : String) {n : Node} (hn : n ∈ nodes) {k : String}
    {r : Option Local} (hr : get s n k = some r) : get (apply nodes s (.newVar name p)) n k = some r := by
  unfold get at hr ⊢
  split at hr
  · rename_i hs
    rw [if_pos (show isSealedAt (apply nodes s (.newVar name p)) n = true from apply_sealedIn nodes s (.newVar name p) _ _ hs)]
    rw [← hr]
    have hna : ¬ Anc p n := fun ha => sealed_no_defs hc hargs he (size n) n (Nat.le_refl _) hn hs p ha hal
    have e : (apply nodes s (.newVar name p)).maps n k = s.maps n k :=
      lexical_agree hc h (define_lexical hc s D hl h name (.var s.count) p hp) k _ n (Nat.le_refl _) hn hna
    have e2 : (apply nodes s (.newVar name p)).locals = s.locals ++ [.var s.count] := rfl
    unfold getAny
    rw [e, e2]
    cases hm : s.maps n k with
    | none => rfl
    | some l =>
      have := lexical_lt hc h hn hm
      simp only [Option.bind_some]
      rw [List.getElem?_append_left (by omega)]
  · cases hr

/-- A variable that a node defines is not changed by another one. -/
theorem newVar_newVar {nodes : List Node} (hc : Closed nodes) {s : State} {D : List DefAt} (h : Lexical nodes s.maps D) (hl : s.locals.length = D.length)
    {p : Node} (hp : p ∈ nodes) {name : String} (hD : (p, name) ∉ D) {n : Node} (hn : n ∈ nodes) {k : String}
    {r : Option Local} (hr : newVar s n k = some r) : newVar (apply nodes s (.newVar name p)) n k = some r := by
  unfold newVar at hr
  obtain ⟨l, h1, h2⟩ := Option.map_eq_some_iff.1 hr
  obtain ⟨h3, h4⟩ := Option.filter_eq_some_iff.1 h1
  simp only [decide_eq_true_eq] at h4
  have hlt := lexical_lt hc h hn h3
  have hmem : (n, k) ∈ D := by
    have := (h.defined hc _ n (Nat.le_refl _) hn k l h3).2
    rw [h4] at this
    exact List.mem_of_getElem? this
  obtain ⟨i, hi⟩ := Option.isSome_iff_exists.1 ((lastIdx_isSome D n k).2 hmem)
  have e : (apply nodes s (.newVar name p)).maps n k = s.maps n k := by
    have h' := define_lexical hc s D hl h name (.var s.count) p hp n hn k
    have h0 := h n hn k
    rw [lastIdx_append_none _ _ _ _ (fun hm => hD (by rw [← List.mem_singleton.1 hm]; exact hmem)), hi] at h'
    rw [hi] at h0
    rw [h0]
    exact h'
  unfold newVar
  rw [e, h1]
  have e2 : (apply nodes s (.newVar name p)).locals = s.locals ++ [.var s.count] := rfl
  rw [e2, Option.map_some, ← h2, List.getElem?_append_left (by omega)]

end Verif.Loc
