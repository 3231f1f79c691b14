import Verif.Lemmas.EvalSteady
import Verif.Model.Cmds
/-! The modelled commands announce their variables steadily, and do as announced. -/
namespace Verif.Comp
open Verif
set_option linter.unusedSectionVars false
variable {T : Type} [DecidableEq T]

section
variable {A : Ast T} {s s' : S T} {names : List String} {op : Nat}

theorem supplied_keeps {t : T} {a b : Arg T} (h : supplied t a = .ok b) : b.node = a.node ∧ b.out = a.out := by
  unfold supplied at h
  repeat' split at h
  all_goals first | cases h; exact ⟨rfl, rfl⟩ | cases h

/-- An argument is taken. -/
structure Took (A : Ast T) (s : S T) (op : Nat) (t : T) (r : Run T) (qs qs' : List (Req T)) (r' : Run T) (a : Argument T) (r1 : Run T) : Prop where
  args : r.args = a.node :: r1.args
  inp : a.inp = t
  out : (s.tg.kn a.node .out).ty = some a.out
  rest : requests A s op r1 qs' = (r', none)
  madeArgs : madeArgs A s op r qs = a :: madeArgs A s op r1 qs'
  madeVars : madeVars A s op r qs = madeVars A s op r1 qs'

theorem took_concrete {t : T} {r r' : Run T} {qs : List (Req T)} {a : Nat} {as : List Nat} (ha : r.args = as) {b : Arg T} (hb : r.cur = some b)
    (hn : b.node = a) (ho : b.out = view (s.tg.kn a .out)) (hi : b.inp.ty = some t) (h : requests A s op r (.concrete :: qs) = (r', none)) :
    ∃ arg, arg.node = a ∧ arg.inp = t ∧ (s.tg.kn a .out).ty = some arg.out ∧ requests A s op r qs = (r', none) ∧
      madeArgs A s op r (.concrete :: qs) = arg :: madeArgs A s op r qs ∧ madeVars A s op r (.concrete :: qs) = madeVars A s op r qs := by
  obtain ⟨r1, h1, h2⟩ := asked_cons h
  obtain ⟨b', arg, h3, h4, h5, h6⟩ := asked_concrete h1
  subst h6
  rw [hb] at h3
  injection h3 with h3
  subst h3
  obtain ⟨e1, e2, e3, _⟩ := argument_some h4
  refine ⟨arg, e1.trans hn, ?_, ?_, h2, ?_, ?_⟩
  · rw [hi] at e2; exact (Option.some.inj e2).symm
  · rw [← view_ty, ← ho]; exact e3
  · simp only [madeArgs, h5, h1, List.cons_append, List.nil_append]
  · simp only [madeVars, madeVar, h1, List.nil_append]

/-- `next_arg()?.supplied(t)?.concrete()?` -/
theorem took_reads (hs : Sane s) {t : T} {r r' : Run T} {qs : List (Req T)}
    (h : requests A s op r (.next :: .supplied t :: .concrete :: qs) = (r', none)) :
    ∃ a r1, Took A s op t r (.next :: .supplied t :: .concrete :: qs) qs r' a r1 := by
  obtain ⟨r1, h1, h2⟩ := asked_cons h
  obtain ⟨a, as, ha, e1⟩ := asked_next h1
  obtain ⟨r2, h3, h4⟩ := asked_cons h2
  obtain ⟨b, c, hb, hc, e2⟩ := asked_supplied h3
  rw [e1] at hb
  injection hb with hb
  obtain ⟨k1, k2⟩ := supplied_keeps hc
  have hn : b.node = a := by rw [← hb]; exact follow_self hs.noPtr _ _
  have ho : b.out = view (s.tg.kn a .out) := by rw [← hb]; rfl
  obtain ⟨arg, m1, m2, m3, m4, m5, m6⟩ := took_concrete (a := a) (r := r2) rfl (by rw [e2]) (k1.trans hn) (k2.trans ho) (supplied_inp hc) h4
  refine ⟨arg, r2, ⟨?_, m2, m1 ▸ m3, m4, ?_, ?_⟩⟩
  · rw [ha, m1, e2, e1]
  · simp only [madeArgs, madeArg, List.nil_append] at m5 ⊢
    rw [h1]
    dsimp only
    rw [h3]
    exact m5
  · simp only [madeVars, madeVar, List.nil_append] at m6 ⊢
    rw [h1]
    dsimp only
    rw [h3]
    exact m6

/-- `next_arg()?.decouple_op_seal().supplied(t)?.concrete()?` -/
theorem took_decoupled (hs : Sane s) {t : T} {r r' : Run T} {qs : List (Req T)}
    (h : requests A s op r (.next :: .decouple :: .supplied t :: .concrete :: qs) = (r', none)) :
    ∃ a r1, Took A s op t r (.next :: .decouple :: .supplied t :: .concrete :: qs) qs r' a r1 := by
  obtain ⟨r1, h1, h2⟩ := asked_cons h
  obtain ⟨a, as, ha, e1⟩ := asked_next h1
  obtain ⟨r2, h3, h4⟩ := asked_cons h2
  have e2 : r2.args = as ∧ r2.cur = some (newArg A s a) := by
    rw [e1] at h3
    simp only [request] at h3
    cases h3
    exact ⟨rfl, rfl⟩
  obtain ⟨r3, h5, h6⟩ := asked_cons h4
  obtain ⟨b, c, hb, hc, e3⟩ := asked_supplied h5
  rw [e2.2] at hb
  injection hb with hb
  obtain ⟨k1, k2⟩ := supplied_keeps hc
  have hn : b.node = a := by rw [← hb]; exact follow_self hs.noPtr _ _
  have ho : b.out = view (s.tg.kn a .out) := by rw [← hb]; rfl
  obtain ⟨arg, m1, m2, m3, m4, m5, m6⟩ := took_concrete (a := a) (r := r3) rfl (by rw [e3]) (k1.trans hn) (k2.trans ho) (supplied_inp hc) h6
  refine ⟨arg, r3, ⟨?_, m2, m1 ▸ m3, m4, ?_, ?_⟩⟩
  · rw [ha, m1, e3, e2.1]
  · simp only [madeArgs, madeArg, List.nil_append] at m5 ⊢
    rw [h1]
    dsimp only
    rw [h3]
    dsimp only
    rw [h5]
    exact m5
  · simp only [madeVars, madeVar, List.nil_append] at m6 ⊢
    rw [h1]
    dsimp only
    rw [h3]
    dsimp only
    rw [h5]
    exact m6

/-- `next_arg()?.supplied(t)?.returns(u)?.concrete()?` -/
theorem took_readsAs (hs : Sane s) {t u : T} {r r' : Run T} {qs : List (Req T)}
    (h : requests A s op r (.next :: .supplied t :: .returns u :: .concrete :: qs) = (r', none)) :
    ∃ a r1, Took A s op t r (.next :: .supplied t :: .returns u :: .concrete :: qs) qs r' a r1 ∧ a.out = u := by
  obtain ⟨r1, h1, h2⟩ := asked_cons h
  obtain ⟨a, as, ha, e1⟩ := asked_next h1
  obtain ⟨r2, h3, h4⟩ := asked_cons h2
  obtain ⟨b, c, hb, hc, e2⟩ := asked_supplied h3
  rw [e1] at hb
  injection hb with hb
  obtain ⟨k1, k2⟩ := supplied_keeps hc
  have hn : b.node = a := by rw [← hb]; exact follow_self hs.noPtr _ _
  have ho : b.out = view (s.tg.kn a .out) := by rw [← hb]; rfl
  obtain ⟨r3, h5, h6⟩ := asked_cons h4
  obtain ⟨c', hc', hu, e3⟩ := asked_returns h5
  rw [e2] at hc'
  injection hc' with hc'
  subst hc' e3
  obtain ⟨arg, m1, m2, m3, m4, m5, m6⟩ := took_concrete (a := a) (r := r3) rfl (by rw [e2]) (k1.trans hn) (k2.trans ho) (supplied_inp hc) h6
  refine ⟨arg, r3, ⟨?_, m2, m1 ▸ m3, m4, ?_, ?_⟩, ?_⟩
  · rw [ha, m1, e2, e1]
  · simp only [madeArgs, madeArg, List.nil_append] at m5 ⊢
    rw [h1]
    dsimp only
    rw [h3]
    dsimp only
    rw [h5]
    exact m5
  · simp only [madeVars, madeVar, List.nil_append] at m6 ⊢
    rw [h1]
    dsimp only
    rw [h3]
    dsimp only
    rw [h5]
    exact m6
  · rw [k2, ho, view_ty] at hu
    rw [hu] at m3
    exact (Option.some.inj m3).symm

/-- Calls that lead to neither. -/
def isPlain : Req T → Bool
  | .output _ => true
  | .obligeArgs _ => true
  | .addsVars _ => true
  | .varsAdded => true
  | _ => false

theorem took_plain {q : Req T} (hq : isPlain q = true) {r r' : Run T} {qs : List (Req T)} (h : requests A s op r (q :: qs) = (r', none)) :
    ∃ r1, r1.args = r.args ∧ requests A s op r1 qs = (r', none) ∧ madeArgs A s op r (q :: qs) = madeArgs A s op r1 qs ∧
      madeVars A s op r (q :: qs) = madeVars A s op r1 qs := by
  obtain ⟨r1, h1, h2⟩ := asked_cons h
  refine ⟨r1, ?_, h2, ?_, ?_⟩
  · cases q <;> cases hq <;> simp only [request] at h1 <;> cases h1 <;> rfl
  · simp only [madeArgs]; rw [h1]; cases q <;> cases hq <;> rfl
  · simp only [madeVars]; rw [h1]; cases q <;> cases hq <;> rfl

/-- A variable for the next block is taken. -/
theorem took_createVar (hs : Sane s) (hw : A.Wf names) {t : T} {r r' : Run T} {qs : List (Req T)}
    (h : requests A s op r (.next :: .createVar t :: qs) = (r', none)) :
    ∃ a x r1, r.args = a :: r1.args ∧ x.want = t ∧ (∀ n slot, x.site = some (n, slot) → n ∈ A.ops) ∧ requests A s op r1 qs = (r', none) ∧
      madeArgs A s op r (.next :: .createVar t :: qs) = madeArgs A s op r1 qs ∧
      madeVars A s op r (.next :: .createVar t :: qs) = x :: madeVars A s op r1 qs := by
  obtain ⟨r1, h1, h2⟩ := asked_cons h
  obtain ⟨a, as, ha, e1⟩ := asked_next h1
  obtain ⟨r2, h3, h4⟩ := asked_cons h2
  obtain ⟨e2, b, v, hb, hv, x, m1, m2, m3⟩ := asked_createVar hs h3
  subst e2
  refine ⟨a, x, r2, ?_, m2, fun n slot e => hw.block_op _ n (next_mem (m3 n slot e)), h4, ?_, ?_⟩
  · rw [ha, e1]
  · simp only [madeArgs, madeArg, List.nil_append]
    rw [h1]
    dsimp only
    rw [h3]
  · simp only [madeVars, List.nil_append]
    rw [h1]
    dsimp only
    rw [h3, m1]
    simp [madeVar]

/-- A variable for the next argument is taken. -/
theorem took_inject (hs : Sane s) {name : String} {t : T} {r r' : Run T} {qs : List (Req T)}
    (h : requests A s op r (.inject name t :: qs) = (r', none)) :
    ∃ a as x, r.args = a :: as ∧ x.want = t ∧ (∃ slot, x.site = some (a, slot)) ∧ requests A s op r qs = (r', none) ∧
      madeArgs A s op r (.inject name t :: qs) = madeArgs A s op r qs ∧
      madeVars A s op r (.inject name t :: qs) = x :: madeVars A s op r qs := by
  obtain ⟨r1, h1, h2⟩ := asked_cons h
  obtain ⟨e, a, as, ha, x, m1, m2, m3⟩ := asked_inject hs h1
  subst e
  refine ⟨a, as, x, ha, m2, m3, h2, ?_, ?_⟩
  · simp only [madeArgs, madeArg, List.nil_append]
    rw [h1]
  · simp only [madeVars]
    rw [h1, m1]
    rfl

theorem ty_within (hs : Sane s) (hw : Within s s') {n : Nat} {sd : Ty.Side} {u : T} (h : (s.tg.kn n sd).ty = some u) : (s'.tg.kn n sd).ty = some u := by
  refine ty_of_settled (hw.2.2 n sd u ?_)
  have := hs.sets n sd
  generalize s.tg.kn n sd = k at *
  match k, h, this with
  | .known u, h, _ => simp only [Ty.Kn.ty, Option.some.injEq] at h; exact .inl (h ▸ rfl)
  | .obliged u, h, _ => simp only [Ty.Kn.ty, Option.some.injEq] at h; exact .inr (h ▸ rfl)
  | .inferred [u], _, h => exact absurd rfl (h u)

theorem Follows.append : ∀ (p : List (Req T)) {qs qs' : List (Req T)} {r : Run T},
    (∀ r', requests A s op r p = (r', none) → Follows A s op r' qs qs') → Follows A s op r (p ++ qs) (p ++ qs')
  | [], _, _, r, h => h r rfl
  | q :: p, qs, qs', r, h => .same r q _ _ fun r1 h1 => Follows.append p fun r' h' => h r' (by
      unfold requests
      rw [h1]
      exact h')

theorem introduces_req : ∀ {qs : List (Req T)} {args : List Nat} {cur : Option Nat} {n : Nat} {name : String} {v : T},
    (n, name, v) ∈ introduces A op args cur qs → .createVar v ∈ qs ∨ .inject name v ∈ qs := by
  intro qs
  induction qs with
  | nil => intro args cur n name v h; cases h
  | cons q qs ih =>
    intro args cur n name v h
    unfold introduces at h
    rcases List.mem_append.1 h with h | h
    · cases q with
      | createVar t =>
        simp only [introduces1] at h
        split at h
        · simp at h; left; simp [h.2.2]
        · cases h
      | inject name' t =>
        simp only [introduces1] at h
        split at h
        · cases h
        · simp at h; right; simp [h.2.1, h.2.2]
      | _ => cases h
    · split at h
      all_goals exact (ih h).imp (List.mem_cons_of_mem _) (List.mem_cons_of_mem _)

theorem nodup_fst {α β : Type} {l : List (α × β)} (h : (l.map (·.1)).Nodup) {a : α} {b c : β} (hb : (a, b) ∈ l) (hc : (a, c) ∈ l) : b = c := by
  induction l with
  | nil => cases hb
  | cons x l ih =>
    rw [List.map_cons, List.nodup_cons] at h
    rcases List.mem_cons.1 hb with e | hb <;> rcases List.mem_cons.1 hc with e' | hc
    · rw [← e] at e'; cases e'; rfl
    · exact absurd (List.mem_map.2 ⟨_, hc, by rw [← e]⟩) h.1
    · exact absurd (List.mem_map.2 ⟨_, hb, by rw [← e']⟩) h.1
    · exact ih h.2 hb hc

theorem runBuiltin_end {I : Builtins T} {i : Nat} {t u : T} (h : (runBuiltin A I s i op t).res = .ok u) :
    ∃ r an, requests A s op (.start (A.args op)) (I s i op t).1 = (r, none) ∧ r.args = [] ∧ (I s i op t).2 = .ok u an := by
  unfold runBuiltin at h
  dsimp only at h
  split at h
  · cases h
  · rename_i r hr
    unfold finish at h
    split at h
    · cases h
    · rename_i t' an hf
      split at h
      · cases h
      · rename_i hn
        cases h
        exact ⟨r, an, hr, by simpa using hn, hf⟩

end

section
variable {A : Ast Tp} {s s' : S Tp} {names : List String} {op : Nat}

theorem argTy_of {a : Nat} {u : Tp} (h : (s.tg.kn a .out).ty = some u) : argTy s a = u := by simp [argTy, h]

theorem behaves_eval {u : Tp} {args : List (Argument Tp)} {vars : List (Variable Tp)} {set : List Nat} {k : Nat} {x : Val} {next : Val → Act Val}
    {a : Argument Tp} (ha : args[k]? = some a) (hx : x.ty = a.inp) (hs : AllSet vars set a.node)
    (h : ∀ v : Val, v.ty = a.out → Behaves A Val.ty u args vars set (next v)) : Behaves A Val.ty u args vars set (.eval k x next) :=
  ⟨fun _ h => (by cases h), ⟨a, ha, hx, hs, h⟩, trivial⟩

theorem allSet_nil (set : List Nat) (n : Nat) : AllSet ([] : List (Variable Tp)) set n := fun _ h => (by cases h)

theorem plus_ty (a b : Val) : (a.plus b).ty = a.ty := by unfold Val.plus; split <;> rfl

/-! `+` -/

theorem plus_args (hs : Sane s) {t : Tp} : ∀ (l : List Nat) {r r' : Run Tp}, requests A s op r (l.flatMap fun _ => readsAs t t) = (r', none) →
    (∀ a ∈ madeArgs A s op r (l.flatMap fun _ => readsAs t t), a.inp = t ∧ a.out = t) ∧
    madeVars A s op r (l.flatMap fun _ => readsAs t t) = []
  | [], _, _, _ => ⟨fun _ h => (by cases h), rfl⟩
  | _ :: l, r, r', h => by
    rw [List.flatMap_cons] at h ⊢
    obtain ⟨a, r1, ht, hu⟩ := took_readsAs (qs := l.flatMap fun _ => readsAs t t) hs h
    obtain ⟨h1, h2⟩ := plus_args hs l ht.rest
    have e1 := ht.madeArgs
    have e2 := ht.madeVars
    refine ⟨fun b hb => ?_, e2.trans h2⟩
    have hb' : b ∈ a :: madeArgs A s op r1 (l.flatMap fun _ => readsAs t t) := e1 ▸ hb
    rcases List.mem_cons.1 hb' with e | hb'
    · rw [e]; exact ⟨ht.inp, hu⟩
    · exact h1 b hb'

theorem plus_behaves {t : Tp} {args : List (Argument Tp)} (ha : ∀ a ∈ args, a.inp = t ∧ a.out = t) {x : Val} (hx : x.ty = t) :
    ∀ (n k : Nat), k + n = args.length → ∀ v : Val, v.ty = t → Behaves A Val.ty t args [] [] (plusAct x n k v)
  | 0, _, _, v, hv => ⟨hv, fun n _ => allSet_nil _ n⟩
  | n + 1, k, hk, v, hv => by
    have hlt : k < args.length := by omega
    refine behaves_eval (List.getElem?_eq_getElem hlt) (hx.trans (ha _ (List.getElem_mem hlt)).1.symm) (allSet_nil _ _) fun w _ => ?_
    exact plus_behaves ha hx n (k + 1) (by omega) _ ((plus_ty v w).trans hv)

/-! `if` -/

/-- Conditions and branches in turn. -/
inductive Conds (t u : Tp) : List (Argument Tp) → Prop
  | last (a : Argument Tp) (hi : a.inp = t) (ho : a.out = u) : Conds t u [a]
  | cons (p a : Argument Tp) (as : List (Argument Tp)) (hi : p.inp = t) (hb : p.out = .bool) (hi' : a.inp = t) (ho : a.out = u) (h : Conds t u as) :
      Conds t u (p :: a :: as)

theorem if_args (hs : Sane s) {t : Tp} : ∀ (l : List Nat) {u : Tp} {r r' : Run Tp}, r.args = l → ifTy s l = some u →
    requests A s op r (ifReqs t l) = (r', none) → Conds t u (madeArgs A s op r (ifReqs t l)) ∧ madeVars A s op r (ifReqs t l) = []
  | [], _, _, _, _, hu, _ => by cases hu
  | [c], u, r, r', hl, hu, h => by
    obtain ⟨a, r1, ht⟩ := took_reads (qs := []) hs h
    have e := ht.args
    rw [hl] at e
    injection e with e1 e2
    have h1 : madeArgs A s op r (ifReqs t [c]) = [a] := ht.madeArgs
    rw [h1]
    refine ⟨.last a ht.inp ?_, ht.madeVars⟩
    simp only [ifTy, e1, argTy_of ht.out, Option.some.injEq] at hu
    exact hu
  | c :: b :: l, u, r, r', hl, hu, h => by
    obtain ⟨p, r1, hp, hb⟩ := took_readsAs (qs := reads t ++ ifReqs t l) hs h
    obtain ⟨a, r2, ha⟩ := took_reads (qs := ifReqs t l) hs hp.rest
    have e := hp.args
    rw [hl, ha.args] at e
    injection e with e1 e
    injection e with e2 e3
    simp only [ifTy] at hu
    cases hl' : ifTy s l with
    | none => rw [hl'] at hu; cases hu
    | some u' =>
      rw [hl'] at hu
      dsimp only at hu
      split at hu
      · rename_i hab
        injection hu with hu
        subst hu
        obtain ⟨h1, h2⟩ := if_args hs l e3.symm hl' ha.rest
        have h3 : madeArgs A s op r (ifReqs t (c :: b :: l)) = p :: a :: madeArgs A s op r2 (ifReqs t l) :=
          hp.madeArgs.trans (congrArg (p :: ·) ha.madeArgs)
        rw [h3]
        refine ⟨.cons p a _ hp.inp hb ha.inp ?_ h1, (hp.madeVars.trans ha.madeVars).trans h2⟩
        rw [e2, argTy_of ha.out] at hab
        exact hab
      · cases hu

theorem if_behaves {t u : Tp} {x : Val} (hx : x.ty = t) {args : List (Argument Tp)} :
    ∀ (n k : Nat), Conds t u (args.drop k) → (args.drop k).length / 2 = n → Behaves A Val.ty u args [] [] (ifAct x n k) := by
  intro n
  induction n with
  | zero =>
    intro k hc hl
    generalize hL : args.drop k = L at hc hl
    have hget : ∀ (j : Nat), args[k + j]? = L[j]? := fun j => by rw [← hL, List.getElem?_drop]
    cases hc with
    | last a hi ho =>
      exact behaves_eval (hget 0) (hx.trans hi.symm) (allSet_nil _ _) fun v hv => ⟨hv.trans ho, fun n _ => allSet_nil _ n⟩
    | cons p a as => simp at hl; omega
  | succ n ih =>
    intro k hc hl
    generalize hL : args.drop k = L at hc hl
    have hget : ∀ (j : Nat), args[k + j]? = L[j]? := fun j => by rw [← hL, List.getElem?_drop]
    cases hc with
    | last a hi ho => simp at hl
    | cons p a as hi hb hi' ho h =>
      refine behaves_eval (hget 0) (hx.trans hi.symm) (allSet_nil _ _) fun v hv => ?_
      split
      · exact behaves_eval (hget 1) (hx.trans hi'.symm) (allSet_nil _ _) fun v hv => ⟨hv.trans ho, fun n _ => allSet_nil _ n⟩
      · have e : args.drop (k + 2) = as := by rw [← List.drop_drop, hL]; rfl
        refine ih (k + 2) (by rw [e]; exact h) (by rw [e]; simp at hl; omega)

/-! `let` -/

/-- The variables of `let` are of the next block. -/
structure Lets (A : Ast Tp) (t : Tp) (args : List (Argument Tp)) (vars : List (Variable Tp)) : Prop where
  inp : ∀ a ∈ args, a.inp = t ∧ a.node ∉ A.ops
  pair : ∀ (j : Nat) (a : Argument Tp), args[j]? = some a → ∃ x, vars[j]? = some x ∧ x.want = a.out
  trail : ∀ x, vars[args.length]? = some x → x.want = t
  length : vars.length ≤ args.length + 1
  site : ∀ x ∈ vars, ∀ n slot, x.site = some (n, slot) → n ∈ A.ops

theorem Lets.nil (t : Tp) : Lets A t [] [] :=
  ⟨fun _ h => (by cases h), fun j a h => by simp at h, fun x h => by simp at h, by simp, fun _ h => (by cases h)⟩

theorem let_args (hs : Sane s) (hw : A.Wf names) {t : Tp} : ∀ (l : List Nat) {r r' : Run Tp}, r.args = l → (∀ a ∈ l, a ∈ A.args op) →
    requests A s op r (letReqs s t l) = (r', none) → Lets A t (madeArgs A s op r (letReqs s t l)) (madeVars A s op r (letReqs s t l))
  | [], r, r', _, _, h => by
    obtain ⟨r1, _, _, h3, h4⟩ := took_plain rfl h
    have e1 : madeArgs A s op r (letReqs s t []) = [] := h3
    have e2 : madeVars A s op r (letReqs s t []) = [] := h4
    rw [e1, e2]
    exact .nil t
  | [c], r, r', _, _, h => by
    obtain ⟨a, x, r1, _, hx, hsite, h1, h2, h3⟩ := took_createVar (qs := [.varsAdded]) hs hw h
    obtain ⟨r2, _, _, h5, h6⟩ := took_plain rfl h1
    have e1 : madeArgs A s op r (letReqs s t [c]) = [] := h2.trans h5
    have e2 : madeVars A s op r (letReqs s t [c]) = [x] := h3.trans (congrArg (x :: ·) h6)
    rw [e1, e2]
    refine ⟨fun _ h => (by cases h), fun j a h => by simp at h, fun y hy => ?_, by simp, fun y hy => ?_⟩
    · simp at hy; rw [← hy]; exact hx
    · rw [List.mem_singleton.1 hy]; exact hsite
  | a0 :: b0 :: l, r, r', hl, hm, h => by
    obtain ⟨a, r1, ha⟩ := took_reads (qs := .next :: .createVar (argTy s a0) :: letReqs s t l) hs h
    obtain ⟨b, x, r2, hargs, hx, hsite, h1, h2, h3⟩ := took_createVar (qs := letReqs s t l) hs hw ha.rest
    have e := ha.args
    rw [hl, hargs] at e
    injection e with e1 e
    injection e with e2 e3
    have ih := let_args hs hw l e3.symm (fun a ha => hm a (by simp [ha])) h1
    have k1 : madeArgs A s op r (letReqs s t (a0 :: b0 :: l)) = a :: madeArgs A s op r2 (letReqs s t l) :=
      ha.madeArgs.trans (congrArg (a :: ·) h2)
    have k2 : madeVars A s op r (letReqs s t (a0 :: b0 :: l)) = x :: madeVars A s op r2 (letReqs s t l) := ha.madeVars.trans h3
    rw [k1, k2]
    generalize madeArgs A s op r2 (letReqs s t l) = args at ih
    generalize madeVars A s op r2 (letReqs s t l) = vars at ih
    refine ⟨fun c hc => ?_, fun j c hc => ?_, fun y hy => ?_, by simp; exact ih.length, fun y hy => ?_⟩
    · rcases List.mem_cons.1 hc with e | hc
      · rw [e]; exact ⟨ha.inp, hw.arg_not_op op _ (e1 ▸ hm a0 (by simp))⟩
      · exact ih.inp c hc
    · cases j with
      | zero =>
        simp at hc
        subst hc
        refine ⟨x, rfl, hx.trans ?_⟩
        rw [e1]; exact argTy_of ha.out
      | succ j => exact ih.pair j c hc
    · exact ih.trail y (by simpa using hy)
    · rcases List.mem_cons.1 hy with e | hy
      · rw [e]; exact hsite
      · exact ih.site y hy

theorem let_behaves {t : Tp} {args : List (Argument Tp)} {vars : List (Variable Tp)} (h : Lets A t args vars) {x : Val} (hx : x.ty = t) :
    ∀ (n k : Nat) (set : List Nat), k + n = args.length → (∀ j, j < k → j ∈ set) →
      Behaves A Val.ty t args vars set (letAct x (decide (args.length < vars.length)) n k) := by
  have all : ∀ {set : List Nat}, (∀ j, j < vars.length → j ∈ set) → ∀ n, AllSet vars set n := by
    intro set hset n y hy slot e
    obtain ⟨j, hj⟩ := List.getElem?_of_mem hy
    exact ⟨j, hset j (List.getElem?_eq_some_iff.1 hj).1, y, hj, e⟩
  intro n
  induction n with
  | zero =>
    intro k set hk hset
    have hlen := h.length
    simp only [letAct]
    by_cases hlt : args.length < vars.length
    · rw [if_pos (by simpa using hlt)]
      have hk' : k = args.length := by omega
      have hk2 : k < vars.length := by omega
      refine ⟨⟨vars[k], List.getElem?_eq_getElem hk2, ?_⟩, hx, fun n _ => all (fun j hj => ?_) n⟩
      · rw [hx, h.trail vars[k] (by rw [← hk']; exact List.getElem?_eq_getElem hk2)]
      · by_cases e : j = k
        · rw [e]; simp
        · exact List.mem_cons_of_mem _ (hset j (by omega))
    · rw [if_neg (by simpa using hlt)]
      exact ⟨hx, fun n _ => all (fun j hj => hset j (by omega)) n⟩
  | succ n ih =>
    intro k set hk hset
    have hlt : k < args.length := by omega
    have hget : args[k]? = some args[k] := List.getElem?_eq_getElem hlt
    obtain ⟨h1, h2⟩ := h.inp _ (List.getElem_mem hlt)
    obtain ⟨y, hy, hw⟩ := h.pair k _ hget
    refine behaves_eval hget (hx.trans h1.symm) (fun z hz slot e => absurd (h.site z hz _ _ e) h2) fun v hv => ?_
    exact ⟨⟨y, hy, hv.trans hw.symm⟩, ih (k + 1) (k :: set) (by omega) fun j hj => by
      by_cases e : j = k
      · rw [e]; simp
      · exact List.mem_cons_of_mem _ (hset j (by omega))⟩

/-! `filter`, `fold`, `fold-while` -/

theorem filter_behaves {a : Argument Tp} (hi : a.inp = .row) : ∀ (n i kept : Nat), Behaves A Val.ty .tab [a] [] [] (filterAct n i k)
  | 0, _, _ => ⟨rfl, fun n _ => allSet_nil _ n⟩
  | n + 1, i, kept => behaves_eval (a := a) rfl hi.symm (allSet_nil _ _) fun v _ => filter_behaves hi n (i + 1) (if v = .bool true then kept + 1 else kept)

theorem allSet_one {y : Variable Tp} {set : List Nat} (h : 0 ∈ set) (n : Nat) : AllSet [y] set n := fun z hz slot e =>
  ⟨0, h, y, rfl, by rw [← List.mem_singleton.1 hz]; exact e⟩

theorem fold_behaves {u : Tp} {a b : Argument Tp} (hi : b.inp = u) (ho : b.out = u) {y : Variable Tp} (hy : y.want = .row) {slot : Nat}
    (hs : y.site = some (b.node, slot)) (hb : b.node ∉ A.ops) : ∀ (n i : Nat) (set : List Nat) (v : Val), v.ty = u →
    Behaves A Val.ty u [a, b] [y] set (foldAct n i v)
  | 0, _, _, v, hv => ⟨hv, fun n hn z hz slot' e => by
      rw [List.mem_singleton.1 hz, hs] at e
      injection e with e
      injection e with e
      exact absurd (e ▸ hn) hb⟩
  | n + 1, i, set, v, hv => ⟨⟨y, rfl, hy.symm⟩, behaves_eval (a := b) rfl (hv.trans hi.symm) (allSet_one (by simp) _) fun w hw =>
      fold_behaves hi ho hy hs hb n (i + 1) _ w (hw.trans ho)⟩

theorem allSet_two {y z : Variable Tp} {set : List Nat} {m m' slot slot' : Nat} (hy : y.site = some (m, slot)) (hz : z.site = some (m', slot')) {n : Nat}
    (h : n = m → 0 ∈ set) (h' : n = m' → 1 ∈ set) : AllSet [y, z] set n := fun x hx k e => by
  rcases List.mem_cons.1 hx with e' | hx
  · subst e'
    rw [hy] at e
    injection e with e
    injection e with e1 e2
    exact ⟨0, h e1.symm, x, rfl, by rw [hy, e1, e2]⟩
  · have e' := List.mem_singleton.1 hx
    subst e'
    rw [hz] at e
    injection e with e
    injection e with e1 e2
    exact ⟨1, h' e1.symm, x, rfl, by rw [hz, e1, e2]⟩

theorem foldWhile_behaves {u : Tp} {a p b : Argument Tp} (hpi : p.inp = u) (hi : b.inp = u) (ho : b.out = u)
    {y z : Variable Tp} (hy : y.want = .row) (hz : z.want = .row) {slot slot' : Nat} (hys : y.site = some (p.node, slot))
    (hzs : z.site = some (b.node, slot')) (hp : p.node ∉ A.ops) (hb : b.node ∉ A.ops) (hne : p.node ≠ b.node) :
    ∀ (n i : Nat) (set : List Nat) (v : Val), v.ty = u → Behaves A Val.ty u [a, p, b] [y, z] set (foldWhileAct n i v)
  | 0, _, _, v, hv => ⟨hv, fun n hn => allSet_two hys hzs (fun e => absurd (e ▸ hn) hp) fun e => absurd (e ▸ hn) hb⟩
  | n + 1, i, set, v, hv => by
    refine ⟨⟨y, rfl, hy.symm⟩, behaves_eval (a := p) rfl (hv.trans hpi.symm) (allSet_two hys hzs (fun _ => by simp) fun e => absurd e hne) fun w _ => ?_⟩
    split
    · exact ⟨⟨z, rfl, hz.symm⟩, behaves_eval (a := b) rfl (hv.trans hi.symm) (allSet_two hys hzs (fun _ => by simp) fun _ => by simp) fun w hw =>
        foldWhile_behaves hpi hi ho hy hz hys hzs hp hb hne n (i + 1) _ w (hw.trans ho)⟩
    · exact ⟨hv, fun n hn => allSet_two hys hzs (fun e => absurd (e ▸ hn) hp) fun e => absurd (e ▸ hn) hb⟩

/-! ### All of them -/

theorem library_named (A : Ast Tp) {names : List String} (h : "row" ∈ names) : (library A).Named names := by
  have hr : ∀ t u name v, Req.inject name v ∉ readsAs t u := by intro t u name v h; simp [readsAs] at h
  have hr' : ∀ t name v, Req.inject name v ∉ reads t := by intro t name v h; simp [reads] at h
  have hi : ∀ l t name v, Req.inject name v ∉ ifReqs t l := by
    intro l
    induction l using binders.induct with
    | case1 => intro t name v h; cases h
    | case2 b => exact fun t => hr' t
    | case3 a b as ih =>
      intro t name v h
      simp only [ifReqs, List.mem_append] at h
      rcases h with h | h | h
      · exact hr _ _ _ _ h
      · exact hr' _ _ _ h
      · exact ih t name v h
  have hl : ∀ s l t name v, Req.inject name v ∉ letReqs s t l := by
    intro s l
    induction l using binders.induct with
    | case1 => intro t name v h; simp [letReqs] at h
    | case2 b => intro t name v h; simp [letReqs] at h
    | case3 a b as ih =>
      intro t name v h
      simp only [letReqs, List.mem_append, List.mem_cons] at h
      rcases h with h | h | h | h
      · exact hr' _ _ _ h
      · cases h
      · cases h
      · exact ih t name v h
  intro s i op t name u hm
  unfold library at hm
  split at hm
  · simp at hm
  · split at hm <;> simp [reads] at hm
  · split at hm <;> simp at hm
  · split at hm
    · split at hm
      · simp at hm
      · simp [readsAs] at hm
    · simp at hm
  · split at hm
    · simp at hm
    · exact absurd hm (hi _ _ _ _)
  · simp only [List.mem_cons] at hm
    rcases hm with hm | hm | hm | hm
    · cases hm
    · cases hm
    · cases hm
    · exact absurd hm (hl _ _ _ _ _)
  · split at hm
    · split at hm
      · simp at hm
      · simp [readsAs] at hm; rw [hm.1]; exact h
    · simp at hm
  · split at hm
    · split at hm
      · simp at hm
      · simp [readsAs, reads] at hm; rw [hm.1]; exact h
    · simp at hm
  · split at hm <;> simp [readsAs] at hm
  · simp at hm

theorem let_follows (hs : Sane s) (hw : Within s s') {t : Tp} : ∀ (l : List Nat) {r : Run Tp}, r.args = l →
    Follows A s op r (letReqs s t l) (letReqs s' t l)
  | [], r, _ => .refl A s op r _
  | [_], r, _ => .refl A s op r _
  | a :: b :: l, r, hl => by
    refine .append (reads t) fun r1 h1 => ?_
    obtain ⟨arg, r2, ht⟩ := took_reads (qs := []) hs h1
    have e := ht.rest
    cases e
    have e := ht.args
    rw [hl] at e
    injection e with e1 e2
    have h2 : argTy s a = argTy s' a := by
      rw [argTy_of (e1 ▸ ht.out), argTy_of (ty_within hs hw (e1 ▸ ht.out))]
    rw [h2]
    refine .append [.next, .createVar (argTy s' a)] fun r3 h3 => ?_
    obtain ⟨r4, h4, h5⟩ := asked_cons h3
    obtain ⟨c, cs, hc, e4⟩ := asked_next h4
    obtain ⟨r5, h6, h7⟩ := asked_cons h5
    cases h7
    obtain ⟨e5, _⟩ := asked_createVar hs h6
    subst e5
    refine let_follows hs hw l ?_
    rw [← e2] at hc
    injection hc with _ hc
    rw [e4, hc]

theorem library_follows (hs : Sane s) (hw : Within s s') (i : Nat) (t : Tp) :
    Follows A s op (.start (A.args op)) (library A s i op t).1 (library A s' i op t).1 := by
  unfold library
  split
  · exact .refl ..
  · split
    · exact .refl ..
    · rename_i a as ha
      refine .append (reads t) fun r1 h1 => ?_
      obtain ⟨arg, r2, ht⟩ := took_reads (qs := []) hs h1
      have e := ht.args
      rw [show (Run.start (A.args op) : Run Tp).args = A.args op from rfl, ha] at e
      injection e with e1 e2
      rw [argTy_of (e1 ▸ ht.out), argTy_of (ty_within hs hw (e1 ▸ ht.out))]
      exact .refl ..
  · exact .refl ..
  · exact .refl ..
  · split <;> exact .refl ..
  · refine .append [.addsVars false, .output t, .obligeArgs t] fun r1 h1 => let_follows hs hw _ ?_
    simp only [requests, request] at h1
    cases h1
    rfl
  · split
    · split
      · exact .refl ..
      · rename_i a as ha
        refine .append [.addsVars true, .next, .decouple, .supplied Tp.nil, .concrete] fun r1 h1 => ?_
        obtain ⟨r2, e0, h2, _⟩ := took_plain rfl h1
        obtain ⟨arg, r3, ht⟩ := took_decoupled (qs := []) hs h2
        have e := ht.args
        rw [e0, show (Run.start (A.args op) : Run Tp).args = A.args op from rfl, ha] at e
        injection e with e1 e2
        rw [argTy_of (e1 ▸ ht.out), argTy_of (ty_within hs hw (e1 ▸ ht.out))]
        exact .refl ..
    · exact .refl ..
  · split
    · split
      · exact .refl ..
      · rename_i a as ha
        refine .append (reads .nil) fun r1 h1 => ?_
        obtain ⟨arg, r2, ht⟩ := took_reads (qs := []) hs h1
        have e := ht.args
        rw [show (Run.start (A.args op) : Run Tp).args = A.args op from rfl, ha] at e
        injection e with e1 e2
        rw [argTy_of (e1 ▸ ht.out), argTy_of (ty_within hs hw (e1 ▸ ht.out))]
        exact .refl ..
    · exact .refl ..
  · exact .refl ..
  · exact .refl ..

/-- The variables `let` sets, with their types. -/
def letBinds (s : S Tp) (t : Tp) : List Nat → List (Nat × Tp)
  | [] => []
  | [b] => [(b, t)]
  | a :: b :: as => (b, argTy s a) :: letBinds s t as

theorem letBinds_mem {t : Tp} : ∀ (l : List Nat), (letBinds s t l).map (·.1) = binders l
  | [] => rfl
  | [_] => rfl
  | _ :: _ :: l => by simp [letBinds, binders, letBinds_mem l]

theorem binders_sub : ∀ (l : List Nat), (binders l).Sublist l
  | [] => .slnil
  | [_] => .refl _
  | _ :: _ :: l => .cons _ (.cons_cons _ (binders_sub l))

theorem let_introduces {t : Tp} {n : Nat} {name : String} {v : Tp} : ∀ (l : List Nat) {cur : Option Nat},
    (n, name, v) ∈ introduces A op l cur (letReqs s t l) → ∃ b, (b, v) ∈ letBinds s t l ∧ A.var b = some name
  | [], _, h => by simp [letReqs, introduces, introduces1, isNext] at h
  | [b], _, h => by
    simp only [letReqs, introduces, introduces1, isNext, List.head?_cons, Option.bind_some, List.append_nil, List.nil_append, if_true, if_false,
      Bool.false_eq_true] at h
    split at h
    · rename_i w m hv hn
      simp only [List.mem_singleton, Prod.mk.injEq] at h
      exact ⟨b, by simp [letBinds, h.2.2], by rw [hv, h.2.1]⟩
    · cases h
  | a :: b :: l, _, h => by
    simp only [letReqs, reads, List.cons_append, List.nil_append, introduces, introduces1, isNext, List.head?_cons, List.tail_cons, Option.bind_some,
      if_true, if_false, Bool.false_eq_true] at h
    rcases List.mem_append.1 h with h | h
    · split at h
      · rename_i w m hv hn
        simp only [List.mem_singleton, Prod.mk.injEq] at h
        exact ⟨b, by simp [letBinds, h.2.2], by rw [hv, h.2.1]⟩
      · cases h
    · obtain ⟨b', h1, h2⟩ := let_introduces l h
      exact ⟨b', by simp [letBinds, h1], h2⟩

theorem library_row {i : Nat} (hi : i ≠ 5) {t v : Tp} {name : String} (h : .createVar v ∈ (library A s i op t).1 ∨ .inject name v ∈ (library A s i op t).1) :
    v = .row := by
  have hif : ∀ l t, (∀ v, Req.createVar v ∉ ifReqs t l) ∧ ∀ name v, Req.inject name v ∉ ifReqs t l := by
    intro l
    induction l using binders.induct with
    | case1 => intro t; exact ⟨fun v h => (by cases h), fun _ v h => (by cases h)⟩
    | case2 b => intro t; simp [ifReqs, reads]
    | case3 a b as ih => intro t; simpa [ifReqs, reads, readsAs] using ih t
  unfold library at h
  split at h
  · simp at h
  · split at h <;> simp [reads] at h
  · split at h <;> simp at h
  · split at h
    · split at h
      · simp at h
      · simp [readsAs] at h
    · simp at h
  · split at h
    · simp at h
    · exact h.elim (fun h => absurd h ((hif _ _).1 _)) fun h => absurd h ((hif _ _).2 _ _)
  · exact absurd rfl hi
  · split at h
    · split at h
      · simp at h
      · simp [readsAs] at h; exact h.2
    · simp at h
  · split at h
    · split at h
      · simp at h
      · simp [readsAs, reads] at h; exact h.2
    · simp at h
  · split at h <;> simp [readsAs] at h
  · simp at h

theorem library_steady (hw : A.Wf names) (ht : A.Tidy) : (library A).Steady A := by
  refine ⟨again_of_follows hw fun s s' i op t u _ _ hs hs' hw' _ => library_follows hs hw' i t, fun s i op t u ho hg hs hr n name v w h h' => ?_⟩
  by_cases hi : i = 5
  · subst hi
    have key : ∀ {v : Tp}, (n, name, v) ∈ (library A).introduces A s 5 op t → ∃ b, (b, v) ∈ letBinds s t (A.args op) ∧ A.var b = some name := by
      intro v h
      refine let_introduces (op := op) (n := n) (cur := none) (A.args op) ?_
      simpa [Builtins.introduces, library, introduces, introduces1, isNext] using h
    obtain ⟨b, h1, h2⟩ := key h
    obtain ⟨b', h3, h4⟩ := key h'
    have mem : ∀ {b v}, (b, v) ∈ letBinds s t (A.args op) → b ∈ binders (A.args op) := fun h => by
      rw [← letBinds_mem (s := s) (t := t)]; exact List.mem_map.2 ⟨_, h, rfl⟩
    have e := ht.lets op ho t hg b (mem h1) b' (mem h3) name h2 h4
    subst e
    exact nodup_fst (by rw [letBinds_mem]; exact (binders_sub _).nodup (ht.args op)) h1 h3
  · exact (library_row hi (introduces_req h)).trans (library_row hi (introduces_req h')).symm

theorem library_sound (hw : A.Wf names) (ht : A.Tidy) (files : Option Nat) (lit : Nat → Val) : (libraryExec files lit).Sound A (library A) := by
  intro s i op t u ho hg hs hr args vars hargs hvars x hx
  replace hx : x.ty = t := hx
  obtain ⟨r, an, hq, hend, hfin⟩ := runBuiltin_end hr
  show Behaves A Val.ty u args vars [] (libraryAct files i op t u args vars x)
  have hst : (Run.start (A.args op) : Run Tp).args = A.args op := rfl
  unfold libraryAct
  split
  · simp only [library] at hq hfin hargs hvars
    cases hfin
    have e : vars = [] := hvars
    rw [e]
    cases files with
    | none => trivial
    | some n => exact ⟨rfl, fun n _ => allSet_nil _ n⟩
  · simp only [library] at hq hfin hargs hvars
    cases ha : A.args op with
    | nil => rw [ha] at hfin; cases hfin
    | cons a as =>
      simp only [ha] at hq hfin hargs hvars
      cases hfin
      obtain ⟨arg, r1, h1⟩ := took_reads hs hq
      obtain ⟨r2, h2, _, h3, h4⟩ := took_plain rfl h1.rest
      have e1 : args = [arg] := hargs.trans (h1.madeArgs.trans (congrArg (arg :: ·) h3))
      have e2 : vars = [] := hvars.trans (h1.madeVars.trans h4)
      have e := h1.args
      injection e with e3 e4
      rw [e1, e2, e3, argTy_of h1.out]
      exact behaves_eval rfl (hx.trans h1.inp.symm) (allSet_nil _ _) fun v hv => ⟨hv, fun n _ => allSet_nil _ n⟩
  · simp only [library] at hq hfin hargs hvars
    split at hfin
    · rename_i hc
      rw [if_pos hc] at hvars
      cases hfin
      have e : vars = [] := hvars
      rw [e]
      exact ⟨rfl, fun n _ => allSet_nil _ n⟩
    · cases hfin
  · simp only [library] at hq hfin hargs hvars
    split at hfin
    · rename_i hc
      rw [if_pos hc] at hvars hargs hq
      split at hfin
      · cases hfin
      · rename_i hc'
        rw [if_neg hc'] at hvars hargs hq
        cases hfin
        obtain ⟨r1, h1, h2, h3, h4⟩ := took_plain rfl hq
        obtain ⟨r2, h5, h6, h7, h8⟩ := took_plain rfl h2
        obtain ⟨h9, h10⟩ := plus_args hs _ h6
        have e1 : args = madeArgs A s op r2 ((A.args op).flatMap fun _ => readsAs t t) := hargs.trans (h3.trans h7)
        have e2 : vars = [] := hvars.trans (h4.trans (h8.trans h10))
        rw [← e1] at h9
        rw [e2]
        exact plus_behaves h9 hx _ 0 (by omega) x hx
    · cases hfin
  · simp only [library] at hq hfin hargs hvars
    split at hfin
    · cases hfin
    · rename_i hc
      rw [if_neg hc] at hvars hargs hq
      cases hty : ifTy s (A.args op) with
      | none => simp only [hty] at hfin; cases hfin
      | some u' =>
        simp only [hty] at hfin
        cases hfin
        obtain ⟨h1, h2⟩ := if_args hs (A.args op) rfl hty hq
        have e2 : vars = [] := hvars.trans h2
        rw [e2]
        rw [← show args = _ from hargs] at h1
        exact if_behaves hx _ 0 h1 rfl
  · simp only [library] at hq hfin hargs hvars
    cases hfin
    obtain ⟨r1, h1, h2, h3, h4⟩ := took_plain rfl hq
    obtain ⟨r2, h5, h6, h7, h8⟩ := took_plain rfl h2
    obtain ⟨r3, h9, h10, h11, h12⟩ := took_plain rfl h6
    have h13 := let_args hs hw (A.args op) (h9.trans (h5.trans h1)) (fun _ h => h) h10
    rw [← show args = _ from hargs.trans (h3.trans (h7.trans h11)), ← show vars = _ from hvars.trans (h4.trans (h8.trans h12))] at h13
    exact let_behaves h13 hx _ 0 [] (by omega) (fun j hj => absurd hj (by omega))
  · simp only [library] at hq hfin hargs hvars
    split at hfin
    · rename_i hc
      rw [if_pos hc] at hvars hargs hq
      cases ha : A.args op with
      | nil => simp only [ha] at hfin; cases hfin
      | cons a as =>
        simp only [ha] at hq hfin hargs hvars
        cases hfin
        obtain ⟨r1, k1, k2, k3, k4⟩ := took_plain rfl hq
        obtain ⟨arg, r2, h1⟩ := took_decoupled hs k2
        obtain ⟨r3, h2, h3, h4, h5⟩ := took_plain rfl h1.rest
        obtain ⟨b, bs, y, h6, h7, ⟨slot, h8⟩, h9, h10, h11⟩ := took_inject hs h3
        obtain ⟨r4, h12, h13, h14, h15⟩ := took_plain rfl h9
        obtain ⟨acc, r5, h16, h17⟩ := took_readsAs (qs := []) hs h13
        have e := h1.args
        rw [k1] at e
        injection e with e3 e4
        have hb : b = acc.node := by
          have := h16.args
          rw [h12, h6] at this
          injection this
        have hmem : acc.node ∈ A.args op ∧ a ∈ A.args op ∧ a ≠ acc.node := by
          have hd := ht.args op
          rw [ha] at hd ⊢
          have hm : acc.node ∈ as := by rw [e4, ← h2, h6, hb]; simp
          refine ⟨List.mem_cons_of_mem _ hm, by simp, fun e => ?_⟩
          rw [List.nodup_cons] at hd
          exact hd.1 (e ▸ hm)
        have e1 : args = [arg, acc] := hargs.trans (k3.trans (h1.madeArgs.trans (congrArg (arg :: ·) (h4.trans (h10.trans (h14.trans h16.madeArgs))))))
        have e2 : vars = [y] := hvars.trans (k4.trans (h1.madeVars.trans (h5.trans (h11.trans (congrArg (y :: ·) (h15.trans h16.madeVars))))))
        have h18 := h16.inp
        rw [e3, argTy_of h1.out] at h17 h18 ⊢
        rw [e1, e2]
        refine behaves_eval (a := arg) rfl h1.inp.symm (fun z hz slot' e => ?_) fun v hv => ?_
        · rw [List.mem_singleton.1 hz, h8] at e
          injection e with e
          injection e with e _
          exact absurd (e3.trans (e.symm.trans hb)) hmem.2.2
        · exact fold_behaves h18 h17 h7 (by rw [h8, hb]) (hw.arg_not_op op _ hmem.1) _ _ _ v hv
    · cases hfin
  · simp only [library] at hq hfin hargs hvars
    split at hfin
    · rename_i hc
      rw [if_pos hc] at hvars hargs hq
      cases ha : A.args op with
      | nil => simp only [ha] at hfin; cases hfin
      | cons a as =>
        simp only [ha] at hq hfin hargs hvars
        cases hfin
        obtain ⟨arg, r2, h1⟩ := took_reads hs hq
        obtain ⟨r3, h2, h3, h4, h5⟩ := took_plain rfl h1.rest
        obtain ⟨b, bs, y, h6, h7, ⟨slot, h8⟩, h9, h10, h11⟩ := took_inject hs h3
        obtain ⟨pred, r4, h12, _⟩ := took_readsAs hs h9
        obtain ⟨c, cs, z, h13, h14, ⟨slot', h15⟩, h16, h17, h18⟩ := took_inject hs h12.rest
        obtain ⟨acc, r5, h19, h20⟩ := took_readsAs (qs := []) hs h16
        have e := h1.args
        injection e with e3 e4
        have hb : b = pred.node := by
          have := h12.args
          rw [h6] at this
          injection this
        have hc' : c = acc.node := by
          have := h19.args
          rw [h13] at this
          injection this
        have hd := ht.args op
        have hall : A.args op = a :: pred.node :: acc.node :: r5.args := by
          rw [ha, e4, ← h2, h12.args, h19.args]
        rw [hall] at hd
        simp only [List.nodup_cons, List.mem_cons, not_or] at hd
        have hin : ∀ n ∈ [a, pred.node, acc.node], n ∉ A.ops := fun n hn => hw.arg_not_op op n (by
          rw [hall]; simp only [List.mem_cons, List.not_mem_nil, or_false] at hn ⊢; rcases hn with h | h | h <;> simp [h])
        have e1 : args = [arg, pred, acc] := hargs.trans (h1.madeArgs.trans (congrArg (arg :: ·) (h4.trans (h10.trans (h12.madeArgs.trans
          (congrArg (pred :: ·) (h17.trans h19.madeArgs)))))))
        have e2 : vars = [y, z] := hvars.trans (h1.madeVars.trans (h5.trans (h11.trans (congrArg (y :: ·) (h12.madeVars.trans
          (h18.trans (congrArg (z :: ·) h19.madeVars)))))))
        have h21 := h12.inp
        have h22 := h19.inp
        rw [e3, argTy_of h1.out] at h20 h21 h22 ⊢
        rw [e1, e2]
        have hy := hb ▸ h8
        have hz := hc' ▸ h15
        refine behaves_eval (a := arg) rfl h1.inp.symm (allSet_two hy hz (fun e => ?_) fun e => ?_) fun v hv => ?_
        · exact absurd (e3.trans e) hd.1.1
        · exact absurd (e3.trans e) hd.1.2.1
        · exact foldWhile_behaves h21 h22 h20 h7 h14 hy hz (hin _ (by simp)) (hin _ (by simp)) hd.2.1.1 _ _ _ v hv
    · cases hfin
  · simp only [library] at hq hfin hargs hvars
    split at hfin
    · rename_i hc
      rw [if_pos hc] at hvars hargs hq
      cases hfin
      obtain ⟨r1, k1, k2, k3, k4⟩ := took_plain rfl hq
      obtain ⟨p, r2, h1, h2⟩ := took_readsAs (qs := []) hs k2
      have e1 : args = [p] := hargs.trans (k3.trans h1.madeArgs)
      have e2 : vars = [] := hvars.trans (k4.trans h1.madeVars)
      rw [e1, e2]
      exact filter_behaves h1.inp _ _ 0
    · cases hfin
  · trivial

end

end Verif.Comp
