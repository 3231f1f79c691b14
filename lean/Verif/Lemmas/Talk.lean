import Verif.Model.Talk
import Verif.Lemmas.EvalLib
/-! Commands that are conversations: they announce their variables steadily, and what they get. -/
namespace Verif.Comp
open Verif
set_option linter.unusedSectionVars false
variable {T V : Type} [DecidableEq T]

/-! ### Which variables -/

/-- All variables injected are like this. -/
def Talk.Injects (P : String → T → Prop) : Talk T V → Prop
  | .fail _ => True
  | .done _ _ _ => True
  | .given _ => True
  | .tell _ k => k.Injects P
  | .read _ _ _ k => ∀ i o, (k i o).Injects P
  | .inject name t k => P name t ∧ k.Injects P
  | .bind _ k => k.Injects P

/-- No variable is bound. -/
def Talk.NoBind : Talk T V → Prop
  | .fail _ => True
  | .done _ _ _ => True
  | .given _ => True
  | .tell _ k => k.NoBind
  | .read _ _ _ k => ∀ i o, (k i o).NoBind
  | .inject _ _ k => k.NoBind
  | .bind _ _ => False

theorem takes_no_inject {l : Bool} {t : Option T} {u : Option T → Option T} {o : Option T} {name : String} {v : T} :
    Req.inject name v ∉ takes l t u o := by
  unfold takes
  cases l <;> cases t <;> cases u o <;> simp

theorem takes_no_bind {l : Bool} {t : Option T} {u : Option T → Option T} {o : Option T} {v : T} :
    Req.createVar v ∉ takes l t u o := by
  unfold takes
  cases l <;> cases t <;> cases u o <;> simp

section
variable {A : Ast T} {s s' : S T} {names : List String} {op : Nat}

theorem run_read (k : T → T → Talk T V) (l : Bool) (t : Option T) (u : Option T → Option T) (a : Nat) (as : List Nat) :
    (∃ i o, inTy s t a = some i ∧ (s.tg.kn a .out).ty = some o ∧
      (Talk.read l t u k).run A s op (a :: as) = (takes l t u (some o) ++ ((k i o).run A s op as).1, ((k i o).run A s op as).2)) ∨
    ((inTy s t a = none ∨ (s.tg.kn a .out).ty = none) ∧
      (Talk.read l t u k).run A s op (a :: as) = (takes l t u (s.tg.kn a .out).ty, .fail false)) := by
  cases hi : inTy s t a with
  | none => right; refine ⟨.inl rfl, ?_⟩; simp only [Talk.run, hi]
  | some i =>
    cases ho : (s.tg.kn a .out).ty with
    | none => right; refine ⟨.inr rfl, ?_⟩; simp only [Talk.run, hi, ho]
    | some o => left; refine ⟨i, o, rfl, rfl, ?_⟩; simp only [Talk.run, hi, ho]

theorem Talk.run_inject {P : String → T → Prop} : ∀ (k : Talk T V) (as : List Nat), k.Injects P → ∀ {name : String} {v : T},
    .inject name v ∈ (k.run A s op as).1 → P name v
  | .fail _, _, _, _, _, h => by simp [Talk.run] at h
  | .done .., _, _, _, _, h => by simp [Talk.run] at h
  | .given _, _, _, _, _, h => by simp [Talk.run] at h
  | .tell q k, as, hp, _, _, h => by
    simp only [Talk.run, List.mem_cons] at h
    rcases h with h | h
    · cases q <;> cases h
    · exact Talk.run_inject k as hp h
  | .read .., [], _, _, _, h => by simp [Talk.run] at h
  | .read l t u k, a :: as, hp, _, _, h => by
    rcases run_read (A := A) (s := s) (op := op) k l t u a as with ⟨i, o, _, _, e⟩ | ⟨_, e⟩
    · rw [e] at h
      rcases List.mem_append.1 h with h | h
      · exact absurd h takes_no_inject
      · exact Talk.run_inject (k i o) as (hp i o) h
    · rw [e] at h; exact absurd h takes_no_inject
  | .inject name t k, as, hp, _, _, h => by
    simp only [Talk.run, List.mem_cons] at h
    rcases h with h | h
    · cases h; exact hp.1
    · exact Talk.run_inject k as hp.2 h
  | .bind .., [], _, _, _, h => by simp [Talk.run] at h
  | .bind t k, a :: as, hp, _, _, h => by
    simp only [Talk.run, List.mem_cons, reduceCtorEq, false_or] at h
    exact Talk.run_inject k as hp h

theorem Talk.run_bind : ∀ (k : Talk T V) (as : List Nat), k.NoBind → ∀ {v : T}, .createVar v ∉ (k.run A s op as).1
  | .fail _, _, _, _, h => by simp [Talk.run] at h
  | .done .., _, _, _, h => by simp [Talk.run] at h
  | .given _, _, _, _, h => by simp [Talk.run] at h
  | .tell q k, as, hp, _, h => by
    simp only [Talk.run, List.mem_cons] at h
    rcases h with h | h
    · cases q <;> cases h
    · exact Talk.run_bind k as hp h
  | .read .., [], _, _, h => by simp [Talk.run] at h
  | .read l t u k, a :: as, hp, _, h => by
    rcases run_read (A := A) (s := s) (op := op) k l t u a as with ⟨i, o, _, _, e⟩ | ⟨_, e⟩
    · rw [e] at h
      rcases List.mem_append.1 h with h | h
      · exact absurd h takes_no_bind
      · exact Talk.run_bind (k i o) as (hp i o) h
    · rw [e] at h; exact absurd h takes_no_bind
  | .inject name t k, as, hp, _, h => by
    simp only [Talk.run, List.mem_cons, reduceCtorEq, false_or] at h
    exact Talk.run_bind k as hp h
  | .bind .., _, hp, _, _ => hp

/-! ### Taking an argument -/

theorem took_decouple {r r' : Run T} {qs : List (Req T)} {b : Arg T} (hb : r.cur = some b) {l : Bool}
    (h : requests A s op r ((if l then [.decouple] else []) ++ qs) = (r', none)) :
    ∃ r1, r1.args = r.args ∧ r1.cur = some b ∧ requests A s op r1 qs = (r', none) ∧
      madeArgs A s op r ((if l then [.decouple] else []) ++ qs) = madeArgs A s op r1 qs ∧
      madeVars A s op r ((if l then [.decouple] else []) ++ qs) = madeVars A s op r1 qs := by
  cases l with
  | false => exact ⟨r, rfl, hb, h, rfl, rfl⟩
  | true =>
    obtain ⟨r1, h1, h2⟩ := asked_cons h
    refine ⟨r1, ?_, ?_, h2, ?_, ?_⟩
    · simp only [request, hb] at h1; cases h1; rfl
    · simp only [request, hb] at h1; cases h1; exact hb
    · simp only [if_true, List.cons_append, List.nil_append, madeArgs, madeArg, h1]
    · simp only [if_true, List.cons_append, List.nil_append, madeVars, madeVar, h1]

theorem took_supplied {r r' : Run T} {qs : List (Req T)} {b : Arg T} (hb : r.cur = some b) {t : Option T}
    (h : requests A s op r (t.toList.map .supplied ++ qs) = (r', none)) :
    ∃ r1 c, r1.args = r.args ∧ r1.cur = some c ∧ c.node = b.node ∧ c.out = b.out ∧ c.inp.ty = (t <|> b.inp.ty) ∧ requests A s op r1 qs = (r', none) ∧
      madeArgs A s op r (t.toList.map .supplied ++ qs) = madeArgs A s op r1 qs ∧
      madeVars A s op r (t.toList.map .supplied ++ qs) = madeVars A s op r1 qs := by
  cases t with
  | none => exact ⟨r, b, rfl, hb, rfl, rfl, rfl, h, rfl, rfl⟩
  | some t =>
    obtain ⟨r1, h1, h2⟩ := asked_cons h
    obtain ⟨b', c, hb', hc, e⟩ := asked_supplied h1
    rw [hb] at hb'
    injection hb' with hb'
    subst hb'
    obtain ⟨k1, k2⟩ := supplied_keeps hc
    refine ⟨r1, c, by rw [e], by rw [e], k1, k2, supplied_inp hc, h2, ?_, ?_⟩
    · simp only [Option.toList, List.map_cons, List.map_nil, List.cons_append, List.nil_append, madeArgs, madeArg, h1]
    · simp only [Option.toList, List.map_cons, List.map_nil, List.cons_append, List.nil_append, madeVars, madeVar, h1]

theorem took_returns {r r' : Run T} {qs : List (Req T)} {b : Arg T} (hb : r.cur = some b) {u : Option T}
    (h : requests A s op r (u.toList.map .returns ++ qs) = (r', none)) :
    (∀ v, u = some v → b.out.ty = some v) ∧ requests A s op r qs = (r', none) ∧
      madeArgs A s op r (u.toList.map .returns ++ qs) = madeArgs A s op r qs ∧
      madeVars A s op r (u.toList.map .returns ++ qs) = madeVars A s op r qs := by
  cases u with
  | none => exact ⟨fun _ e => (by cases e), h, rfl, rfl⟩
  | some u =>
    obtain ⟨r1, h1, h2⟩ := asked_cons h
    obtain ⟨b', hb', hu, e⟩ := asked_returns h1
    rw [hb] at hb'
    injection hb' with hb'
    subst hb' e
    refine ⟨fun v e => (by cases e; exact hu), h2, ?_, ?_⟩
    · simp only [Option.toList, List.map_cons, List.map_nil, List.cons_append, List.nil_append, madeArgs, madeArg, h1]
    · simp only [Option.toList, List.map_cons, List.map_nil, List.cons_append, List.nil_append, madeVars, madeVar, h1]

/-- An argument is taken. -/
theorem took_takes (hs : Sane s) {l : Bool} {t : Option T} {u : Option T → Option T} {o : Option T} {r r' : Run T} {qs : List (Req T)}
    (h : requests A s op r (takes l t u o ++ qs) = (r', none)) :
    ∃ a r1, r.args = a.node :: r1.args ∧ inTy s t a.node = some a.inp ∧ (s.tg.kn a.node .out).ty = some a.out ∧
      (∀ v, u o = some v → a.out = v) ∧ requests A s op r1 qs = (r', none) ∧
      madeArgs A s op r (takes l t u o ++ qs) = a :: madeArgs A s op r1 qs ∧ madeVars A s op r (takes l t u o ++ qs) = madeVars A s op r1 qs := by
  have e0 : takes l t u o ++ qs = .next :: ((if l then [.decouple] else []) ++ (t.toList.map .supplied ++ ((u o).toList.map .returns ++ .concrete :: qs))) := by
    simp [takes]
  rw [e0] at h ⊢
  obtain ⟨r1, h1, h2⟩ := asked_cons h
  obtain ⟨a, as, ha, e1⟩ := asked_next h1
  have hc1 : r1.cur = some (newArg A s a) := by rw [e1]
  obtain ⟨r2, a2, c2, h3, p2, q2⟩ := took_decouple hc1 h2
  obtain ⟨r3, c, a3, c3, k1, k2, k3, h4, p3, q3⟩ := took_supplied c2 h3
  obtain ⟨k4, h5, p4, q4⟩ := took_returns c3 h4
  have hn : c.node = a := k1.trans (follow_self hs.noPtr _ _)
  have ho : c.out = view (s.tg.kn a .out) := k2
  obtain ⟨r4, h6, h7⟩ := asked_cons h5
  obtain ⟨c', arg, m1, m2, m3, m4⟩ := asked_concrete h6
  rw [c3] at m1
  injection m1 with m1
  subst m1 m4
  obtain ⟨n1, n2, n3, _⟩ := argument_some m2
  have en : arg.node = a := n1.trans hn
  refine ⟨arg, r4, ?_, ?_, ?_, ?_, h7, ?_, ?_⟩
  · rw [en, ha, a3, a2, e1]
  · rw [en]
    rw [k3] at n2
    rw [← n2]
    simp only [inTy, newArg, view_ty]
  · rw [en, ← view_ty, ← ho]; exact n3
  · intro v hv
    have := k4 v hv
    rw [n3] at this
    exact Option.some.inj this
  · have e2 : madeArgs A s op r4 (.concrete :: qs) = arg :: madeArgs A s op r4 qs := by
      simp only [madeArgs, m3, h6, List.cons_append, List.nil_append]
    rw [← e2, ← p4, ← p3, ← p2]
    simp only [madeArgs, madeArg, h1, List.nil_append]
  · have e2 : madeVars A s op r4 (.concrete :: qs) = madeVars A s op r4 qs := by
      simp only [madeVars, madeVar, h6, List.nil_append]
    rw [← e2, ← q4, ← q3, ← q2]
    simp only [madeVars, madeVar, h1, List.nil_append]

/-! ### Steadiness -/

theorem requests_snoc {r r' : Run T} : ∀ {p : List (Req T)} {q : List (Req T)}, requests A s op r (p ++ q) = (r', none) →
    ∃ r1, requests A s op r p = (r1, none) ∧ requests A s op r1 q = (r', none) := by
  intro p
  induction p generalizing r with
  | nil => intro q h; exact ⟨r, rfl, h⟩
  | cons x p ih =>
    intro q h
    obtain ⟨r1, h1, h2⟩ := asked_cons h
    obtain ⟨r2, h3, h4⟩ := ih h2
    exact ⟨r2, by unfold requests; rw [h1]; exact h3, h4⟩

theorem requests_append {r r1 r' : Run T} {x : Option Err} : ∀ {p q : List (Req T)}, requests A s op r p = (r1, none) → requests A s op r1 q = (r', x) →
    requests A s op r (p ++ q) = (r', x) := by
  intro p
  induction p generalizing r with
  | nil => intro q h h'; cases h; exact h'
  | cons y p ih =>
    intro q h h'
    obtain ⟨r2, h1, h2⟩ := asked_cons h
    show requests A s op r (y :: (p ++ q)) = _
    unfold requests
    rw [h1]
    exact ih h2 h'

/-- If the calls up to one that is not for a variable do not succeed, what comes after does not matter. -/
theorem Follows.breaks {qs' : List (Req T)} : ∀ (p : List (Req T)) {q : Req T} {r : Run T}, isVarReq q = false → (∀ x ∈ p, isVarReq x = false) →
    (∀ r', requests A s op r (p ++ [q]) ≠ (r', none)) → ∀ qs, Follows A s op r (p ++ q :: qs) (p ++ qs')
  | [], q, r, hq, _, h, qs => .stops r q qs qs' hq fun r' e => h r' (by
      show requests A s op r [q] = _
      unfold requests
      rw [e]
      rfl)
  | x :: p, q, r, hq, hp, h, qs => .same r x _ _ fun r1 h1 => Follows.breaks p hq (fun y hy => hp y (List.mem_cons_of_mem _ hy)) (fun r' e => h r' (by
      show requests A s op r (x :: (p ++ [q])) = _
      unfold requests
      rw [h1]
      exact e)) qs

/-- After the calls up to `supplied`, there is a current argument, with the output type known of the node. -/
theorem took_head (hs : Sane s) {l : Bool} {t : Option T} {r r' : Run T}
    (h : requests A s op r (.next :: ((if l then [.decouple] else []) ++ (t.toList.map .supplied ++ []))) = (r', none)) :
    ∃ c a, r.args = a :: r'.args ∧ r'.cur = some c ∧ c.out = view (s.tg.kn a .out) := by
  obtain ⟨r1, h1, h2⟩ := asked_cons h
  obtain ⟨a, as, ha, e1⟩ := asked_next h1
  have hc1 : r1.cur = some (newArg A s a) := by rw [e1]
  obtain ⟨r2, a2, c2, h3, p2, q2⟩ := took_decouple hc1 h2
  obtain ⟨r3, c, a3, c3, k1, k2, k3, h4, p3, q3⟩ := took_supplied c2 h3
  cases h4
  exact ⟨c, a, by rw [ha, a3, a2, e1], c3, k2⟩

theorem takes_eq (l : Bool) (t : Option T) (u : Option T → Option T) (o : Option T) :
    takes l t u o = (.next :: ((if l then [.decouple] else []) ++ (t.toList.map .supplied ++ []))) ++ ((u o).toList.map .returns ++ [.concrete]) := by
  simp [takes]

theorem takes_eq' (l : Bool) (t : Option T) (u : Option T → Option T) (o : Option T) :
    takes l t u o = (.next :: ((if l then [.decouple] else []) ++ (t.toList.map .supplied ++ (u o).toList.map .returns))) ++ [.concrete] := by
  simp [takes]

/-- If the output type of the next argument is not known, taking it fails before anything depends on it. -/
theorem Follows.noOut (hs : Sane s) {l : Bool} {t : Option T} {u : Option T → Option T} {r : Run T} {a : Nat} {as : List Nat} (hr : r.args = a :: as)
    (hn : (s.tg.kn a .out).ty = none) (o o' : Option T) (qs qs' : List (Req T)) :
    Follows A s op r (takes l t u o ++ qs) (takes l t u o' ++ qs') := by
  rw [takes_eq l t u o, takes_eq l t u o', List.append_assoc _ _ qs, List.append_assoc _ _ qs']
  refine Follows.append (A := A) _ fun r1 h1 => ?_
  obtain ⟨c, b, e1, e2, e3⟩ := took_head hs h1
  rw [hr] at e1
  injection e1 with e1 _
  subst e1
  have hc : c.out.ty = none := by rw [e3, view_ty]; exact hn
  cases hu : u o with
  | none =>
    refine .stops _ _ _ _ rfl fun r' h => ?_
    obtain ⟨c', arg, m1, m2, _, _⟩ := asked_concrete h
    rw [e2] at m1
    injection m1 with m1
    subst m1
    obtain ⟨_, _, n3, _⟩ := argument_some m2
    rw [hc] at n3
    cases n3
  | some v =>
    refine .stops _ _ _ _ rfl fun r' h => ?_
    obtain ⟨c', m1, m2, _⟩ := asked_returns h
    rw [e2] at m1
    injection m1 with m1
    subst m1
    rw [hc] at m2
    cases m2

/-- If the input type of the next argument is not known, taking it fails. -/
theorem Follows.noInp (hs : Sane s) {l : Bool} {t : Option T} {u : Option T → Option T} {r : Run T} {a : Nat} {as : List Nat} (hr : r.args = a :: as)
    (hn : inTy s t a = none) (o : Option T) (qs qs' : List (Req T)) :
    Follows A s op r (takes l t u o ++ qs) (takes l t u o ++ qs') := by
  rw [takes_eq', List.append_assoc, List.append_assoc]
  refine Follows.append _ fun r1 h1 => .stops _ _ _ _ rfl fun r2 h2 => ?_
  have h3 : requests A s op r1 [.concrete] = (r2, none) := by unfold requests; rw [h2]; rfl
  have h4 := requests_append h1 h3
  rw [← takes_eq', ← List.append_nil (takes l t u o)] at h4
  obtain ⟨b, r3, e1, e2, _⟩ := took_takes (qs := []) hs h4
  rw [hr] at e1
  injection e1 with e1 _
  rw [← e1, hn] at e2
  cases e2

/-- Knowing more, a command makes the same calls, as far as they succeed. -/
theorem Talk.follows (hs : Sane s) (hw : Within s s') : ∀ (k : Talk T V) (as : List Nat) {r : Run T}, r.args = as →
    Follows A s op r (k.run A s op as).1 (k.run A s' op as).1
  | .fail _, _, _, _ => .nil ..
  | .done .., _, _, _ => .nil ..
  | .given _, _, _, _ => .refl ..
  | .tell q k, as, r, hr => by
    refine .same _ _ _ _ fun r' h => Talk.follows hs hw k as ?_
    rw [← hr]
    cases q <;> simp only [Say.req, request] at h <;> cases h <;> rfl
  | .read .., [], _, _ => .refl ..
  | .read l t u k, a :: as, r, hr => by
    rcases run_read (A := A) (s := s) (op := op) k l t u a as with ⟨i, o, hi, ho, e⟩ | ⟨hn, e⟩
    · have hi' : inTy s' t a = some i := by
        cases t with
        | some t => exact hi
        | none => exact ty_within hs hw (show (s.tg.kn a .inp).ty = some i from hi)
      have ho' := ty_within hs hw ho
      rcases run_read (A := A) (s := s') (op := op) k l t u a as with ⟨i', o', hi2, ho2, e'⟩ | ⟨hn', _⟩
      · rw [hi'] at hi2
        rw [ho'] at ho2
        cases hi2
        cases ho2
        rw [e, e']
        refine Follows.append _ fun r1 h1 => Talk.follows hs hw (k i o) as ?_
        rw [← List.append_nil (takes l t u (some o))] at h1
        obtain ⟨b, r3, e1, _, _, _, e2, _⟩ := took_takes (qs := []) hs h1
        cases e2
        rw [hr] at e1
        injection e1 with _ e1
        exact e1.symm
      · rcases hn' with hn' | hn'
        · rw [hi'] at hn'; cases hn'
        · rw [ho'] at hn'; cases hn'
    · rw [e]
      have key : ∀ x : List (Req T) × Fin T, (∃ o', o' = (s'.tg.kn a .out).ty ∧ ∃ qs, x.1 = takes l t u o' ++ qs) →
          Follows A s op r (takes l t u (s.tg.kn a .out).ty) x.1 := by
        rintro x ⟨o', ho', qs, hx⟩
        rw [hx, ← List.append_nil (takes l t u (s.tg.kn a .out).ty)]
        cases ho : (s.tg.kn a .out).ty with
        | none => exact .noOut hs hr ho none o' [] qs
        | some o =>
          rw [ty_within hs hw ho] at ho'
          subst ho'
          refine .noInp hs hr ?_ _ [] qs
          rcases hn with hn | hn
          · exact hn
          · rw [ho] at hn; cases hn
      refine key _ ?_
      rcases run_read (A := A) (s := s') (op := op) k l t u a as with ⟨i', o', _, ho2, e'⟩ | ⟨_, e'⟩
      · exact ⟨some o', ho2.symm, _, by rw [e']⟩
      · exact ⟨_, rfl, [], by rw [e', List.append_nil]⟩
  | .inject name t k, as, r, hr => by
    refine .same _ _ _ _ fun r' h => Talk.follows hs hw k as ?_
    obtain ⟨e, _⟩ := asked_inject hs h
    rw [e]; exact hr
  | .bind .., [], _, _ => .refl ..
  | .bind t k, a :: as, r, hr => by
    refine Follows.append [.next, .createVar t] fun r3 h3 => Talk.follows hs hw k as ?_
    obtain ⟨r4, h4, h5⟩ := asked_cons h3
    obtain ⟨c, cs, hc, e4⟩ := asked_next h4
    obtain ⟨r5, h6, h7⟩ := asked_cons h5
    cases h7
    obtain ⟨e5, _⟩ := asked_createVar hs h6
    subst e5
    rw [hr] at hc
    injection hc with _ hc
    rw [e4, hc]

/-! ### What a command gets -/

/-- The arguments `args` and variables `vars` a conversation gets, with these arguments left, when it succeeds with type `u`. -/
def Talk.Heard (A : Ast T) : Talk T V → List Nat → List (Argument T) → List (Variable T) → T → Prop
  | .fail _, _, _, _, _ => False
  | .done t _ _, as, args, vars, u => as = [] ∧ args = [] ∧ vars = [] ∧ u = t
  | .given _, as, args, vars, _ => as = [] ∧ args = [] ∧ vars = []
  | .tell _ k, as, args, vars, u => k.Heard A as args vars u
  | .read _ t v k, as, args, vars, u => ∃ a as' args', as = a.node :: as' ∧ args = a :: args' ∧ (∀ x, t = some x → a.inp = x) ∧
      (∀ x, v (some a.out) = some x → a.out = x) ∧ (k a.inp a.out).Heard A as' args' vars u
  | .inject _ t k, as, args, vars, u => ∃ x vars', vars = x :: vars' ∧ x.want = t ∧ (∃ a as' slot, as = a :: as' ∧ x.site = some (a, slot)) ∧
      k.Heard A as args vars' u
  | .bind t k, as, args, vars, u => ∃ a as' x vars', as = a :: as' ∧ vars = x :: vars' ∧ x.want = t ∧
      (∀ n slot, x.site = some (n, slot) → n ∈ A.ops) ∧ k.Heard A as' args vars' u

theorem Talk.heard (hs : Sane s) (hw : A.Wf names) : ∀ (k : Talk T V) (as : List Nat) {r r' : Run T} {u : T} {an : List T}, r.args = as →
    requests A s op r (k.run A s op as).1 = (r', none) → r'.args = [] → (k.run A s op as).2 = .ok u an →
    k.Heard A as (madeArgs A s op r (k.run A s op as).1) (madeVars A s op r (k.run A s op as).1) u
  | .fail _, _, _, _, _, _, _, _, _, hf => by cases hf
  | .done .., _, _, _, _, _, hr, h, he, hf => by
    cases hf
    cases h
    exact ⟨hr.symm.trans he, rfl, rfl, rfl⟩
  | .given _, as, r, r', _, _, hr, h, he, hf => by
    obtain ⟨r1, h1, h2⟩ := asked_cons h
    cases h2
    have e : r'.args = r.args := by
      simp only [request] at h1
      cases h1
      rfl
    refine ⟨by rw [← hr, ← e, he], ?_, ?_⟩
    · simp only [Talk.run, madeArgs, madeArg, List.nil_append]
    · simp only [Talk.run, madeVars, madeVar, List.nil_append]
  | .tell q k, as, r, r', _, _, hr, h, he, hf => by
    obtain ⟨r1, e1, h1, p1, p2⟩ := took_plain (by cases q <;> rfl) h
    have := Talk.heard hs hw k as (e1.trans hr) h1 he hf
    rw [← p1, ← p2] at this
    exact this
  | .read .., [], _, _, _, _, _, _, _, hf => by cases hf
  | .read l t u k, a :: as, r, r', _, _, hr, h, he, hf => by
    rcases run_read (A := A) (s := s) (op := op) k l t u a as with ⟨i, o, hi, ho, e⟩ | ⟨hn, e⟩
    · rw [e] at h hf ⊢
      obtain ⟨b, r1, e1, e2, e3, e4, h1, p1, p2⟩ := took_takes hs h
      rw [hr] at e1
      injection e1 with e1 e1'
      subst e1
      rw [hi] at e2
      rw [ho] at e3
      cases e2
      cases e3
      have := Talk.heard hs hw (k b.inp b.out) as e1'.symm h1 he hf
      rw [p1, p2]
      refine ⟨b, as, _, rfl, rfl, fun x hx => ?_, fun x hx => e4 x hx, this⟩
      subst hx
      exact (Option.some.inj hi).symm
    · rw [e] at hf; cases hf
  | .inject name t k, as, r, r', _, _, hr, h, he, hf => by
    obtain ⟨a, as', x, e1, e2, ⟨slot, e3⟩, h1, p1, p2⟩ := took_inject hs h
    have := Talk.heard hs hw k as hr h1 he hf
    simp only [Talk.run]
    rw [p1, p2]
    exact ⟨x, _, rfl, e2, ⟨a, as', slot, hr.symm.trans e1, e3⟩, this⟩
  | .bind .., [], _, _, _, _, _, _, _, hf => by cases hf
  | .bind t k, a :: as, r, r', _, _, hr, h, he, hf => by
    obtain ⟨b, x, r1, e1, e2, e3, h1, p1, p2⟩ := took_createVar hs hw h
    rw [hr] at e1
    injection e1 with e1 e1'
    have := Talk.heard hs hw k as e1'.symm h1 he hf
    simp only [Talk.run]
    rw [p1, p2]
    exact ⟨a, as, x, _, rfl, rfl, e2, e3, this⟩

theorem Talk.Heard.nodes : ∀ {k : Talk T V} {as : List Nat} {args : List (Argument T)} {vars : List (Variable T)} {u : T},
    k.Heard A as args vars u → (args.map (·.node)).Sublist as
  | .done .., _, _, _, _, h => by obtain ⟨_, rfl, _⟩ := h; exact List.nil_sublist _
  | .given _, _, _, _, _, h => by obtain ⟨_, rfl, _⟩ := h; exact List.nil_sublist _
  | .tell _ k, _, _, _, _, h => Talk.Heard.nodes (k := k) h
  | .read .., _, _, _, _, h => by
    obtain ⟨a, as', args', rfl, rfl, _, _, h⟩ := h
    exact (Talk.Heard.nodes h).cons_cons _
  | .inject _ _ k, _, _, _, _, h => by
    obtain ⟨x, vars', _, _, _, h⟩ := h
    exact Talk.Heard.nodes (k := k) h
  | .bind _ k, _, _, _, _, h => by
    obtain ⟨a, as', x, vars', rfl, _, _, _, h⟩ := h
    exact (Talk.Heard.nodes (k := k) h).cons _

end

end Verif.Comp
