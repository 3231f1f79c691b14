import Verif.Lemmas.CompEnd
/-! What a command that succeeds knows of its arguments. -/
namespace Verif.Comp
open Verif
set_option linter.unusedSectionVars false
variable {T : Type} [DecidableEq T]

theorem find_key {A : Ast T} {op : Nat} {k : Option T} {c : Option T × Cmd}
    (h : (A.cmds op).find? (fun c => c.1 = k) = some c) : (k, c.2) ∈ A.cmds op := by
  have h1 := List.mem_of_find?_eq_some h
  have h2 := List.find?_some h
  simp only [decide_eq_true_eq] at h2
  rw [← h2]; exact h1

theorem getImpl_chosen {A : Ast T} {op : Nat} {t : T} {c : Cmd} (h : A.getImpl op t = some c) : Chosen A op t c := by
  unfold Ast.getImpl at h
  split at h
  · rename_i x hx
    injection h with h
    subst h
    exact .inl (find_key hx)
  · rename_i hn
    cases hf : (A.cmds op).find? fun c => decide (c.1 = none) with
    | none => rw [hf] at h; cases h
    | some x =>
      rw [hf] at h
      injection h with h
      subst h
      refine .inr ⟨fun y hy => ?_, find_key hf⟩
      have := List.find?_eq_none.1 hn _ hy
      simp at this

theorem Chosen.key {A : Ast T} {op : Nat} {t : T} {c : Cmd} (h : Chosen A op t c) : (some t, c) ∈ A.cmds op ∨ (none, c) ∈ A.cmds op :=
  h.imp_right And.right

theorem follow_points (A : Ast T) (s : S T) : ∀ (f n : Nat), Points A s n (follow A s f n)
  | 0, n => .here n
  | f + 1, n => by
    unfold follow
    split
    · rename_i to hv
      split
      · rename_i m hm
        cases hv' : A.var n with
        | none => rw [hv'] at hv; cases hv
        | some v =>
          rw [hv'] at hv
          simp only [Option.bind_some] at hv
          cases hg : Loc.get s.lg (A.place n) v with
          | none => rw [hg] at hv; cases hv
          | some o =>
            rw [hg] at hv
            simp only [Option.join_some] at hv
            rw [hv] at hg
            exact .there hv' hg (index_spec hm).2 (follow_points A s f m)
      · exact .here n
    · exact .here n

theorem view_ty (k : Ty.Kn T) : (view k).ty = k.ty := by
  unfold view
  split <;> rfl

/-- The argument at hand is the one at this node. -/
structure Cur (A : Ast T) (s : S T) (n : Nat) (a : Arg T) : Prop where
  node : Points A s n a.node
  inp : a.inp = view (s.tg.kn n .inp) ∨ s.tg.kn n .inp = .any
  out : a.out = view (s.tg.kn n .out)

theorem newArg_cur (A : Ast T) (s : S T) (n : Nat) : Cur A s n (newArg A s n) := ⟨follow_points A s _ n, .inl rfl, rfl⟩

theorem supplied_met {A : Ast T} {s : S T} (ha : ∀ n, s.tg.kn n .inp = .any → n ∈ A.lits) (hf : Fresh s) {n : Nat} {a b : Arg T} (hc : Cur A s n a) {t : T} (h : supplied t a = .ok b) :
    Cur A s n b ∧ Met A s n (.supplied t) := by
  rcases hc.inp with e | e
  · unfold supplied at h
    have key : ∀ t', a.inp = .known t' ∨ a.inp = .obliged t' → Ty.Settled (s.tg.kn n .inp) t' := by
      intro t' h'
      refine settled_of_ty hf ?_
      rw [← view_ty, ← e]
      rcases h' with h' | h' <;> rw [h'] <;> rfl
    split at h
    · rename_i hx
      cases h
      have : s.tg.kn n .inp = .any := by
        rw [hx] at e
        generalize s.tg.kn n .inp = k at e
        unfold view at e
        split at e <;> first | rfl | cases e
      exact ⟨⟨hc.node, .inr this, hc.out⟩, .inl (ha _ this)⟩
    · rename_i t' hx
      split at h
      · rename_i ht; subst ht; cases h; exact ⟨hc, .inr (key _ (.inl hx))⟩
      · cases h
    · rename_i t' hx
      split at h
      · rename_i ht; subst ht; cases h; exact ⟨hc, .inr (key _ (.inr hx))⟩
      · cases h
    · cases h
  · refine ⟨?_, .inl (ha _ e)⟩
    unfold supplied at h
    split at h
    · cases h; exact ⟨hc.node, .inr e, hc.out⟩
    · split at h <;> cases h; exact hc
    · split at h <;> cases h; exact hc
    · cases h

theorem returns_met {A : Ast T} {s : S T} (hf : Fresh s) {n : Nat} {a b : Arg T} (hc : Cur A s n a) {t : T} (h : returns t a = .ok b) :
    Cur A s n b ∧ Met A s n (.returns t) := by
  have key : ∀ t', a.out = .known t' ∨ a.out = .obliged t' → Ty.Settled (s.tg.kn n .out) t' := by
    intro t' h'
    refine settled_of_ty hf ?_
    rw [← view_ty, ← hc.out]
    rcases h' with h' | h' <;> rw [h'] <;> rfl
  unfold returns at h
  split at h
  · cases h
  · rename_i t' hx
    split at h
    · rename_i ht; subst ht; cases h; exact ⟨hc, key _ (.inl hx)⟩
    · cases h
  · rename_i t' hx
    split at h
    · rename_i ht; subst ht; cases h; exact ⟨hc, key _ (.inr hx)⟩
    · cases h
  · cases h

theorem fits_none {a : Arg T} {t : Option T} (h : fits a t = none) : ∃ u, a.out.ty = some u ∧ t = some u := by
  unfold fits at h
  split at h
  · rename_i hx
    simp only [Bool.and_eq_true, decide_eq_true_eq] at hx
    obtain ⟨u, hu⟩ := Option.isSome_iff_exists.1 hx.1.2
    exact ⟨u, hu, by rw [hx.2, hu]⟩
  · cases h

theorem concrete_met {A : Ast T} {s : S T} (hf : Fresh s) {n : Nat} {a : Arg T} (hc : Cur A s n a) (h : concrete A s a = none) :
    Ready A s n := by
  have key : ∀ u, a.out.ty = some u → Ty.Settled (s.tg.kn n .out) u := by
    intro u hu
    refine settled_of_ty hf ?_
    rw [← view_ty, ← hc.out]; exact hu
  unfold concrete at h
  split at h
  · rename_i v hv
    split at h
    · cases h
    · cases h
    · split at h <;> cases h
    · rename_i slot hg
      obtain ⟨u, h1, h2⟩ := fits_none h
      exact ⟨a.node, u, hc.node, key u h1, .inl ⟨v, slot, hv, hg, h2⟩⟩
  · rename_i hv
    split at h
    · cases h
    · rename_i hx
      obtain ⟨u, h1, h2⟩ := fits_none h
      refine ⟨a.node, u, hc.node, key u h1, .inr ⟨hv, fun he => ?_, settled_of_ty hf h2⟩⟩
      exact Classical.byContradiction fun hn => hx ⟨he, hn⟩

/-- The argument at hand is this one. -/
def CurIs (A : Ast T) (s : S T) : Option (Arg T) → Option Nat → Prop
  | none, none => True
  | some a, some n => Cur A s n a
  | _, _ => False

theorem need_none {r r' : Run T} {x : Except Err (Option (Chg T))} (h : r.need x = (r', none)) : r' = r := by
  unfold Run.need at h
  split at h <;> cases h
  rfl

/-- A call that succeeds, other than for the next argument. -/
theorem request_met {A : Ast T} {s : S T} (hany : ∀ n, s.tg.kn n .inp = .any → n ∈ A.lits) (hf : Fresh s) {op : Nat} {r r' : Run T} {q : Req T} (hq : isNext q = false)
    (h : request A s op r q = (r', none)) {n : Option Nat} (hc : CurIs A s r.cur n) :
    r'.args = r.args ∧ CurIs A s r'.cur n ∧ ∀ a, n = some a → Met A s a q := by
  cases q with
  | next => cases hq
  | output t => cases h; exact ⟨rfl, hc, fun _ _ => trivial⟩
  | infer => cases h; exact ⟨rfl, hc, fun _ _ => trivial⟩
  | obligeArgs t => cases h; exact ⟨rfl, hc, fun _ _ => trivial⟩
  | addsVars b => cases h; exact ⟨rfl, hc, fun _ _ => trivial⟩
  | varsAdded => cases h; exact ⟨rfl, hc, fun _ _ => trivial⟩
  | supplied t =>
    simp only [request] at h
    split at h
    · cases h
    · rename_i a ha
      unfold Run.put at h
      split at h
      · cases h
      · rename_i b hb
        cases h
        rw [ha] at hc
        cases n with
        | none => exact hc.elim
        | some n =>
          obtain ⟨h1, h2⟩ := supplied_met hany hf hc hb
          exact ⟨rfl, h1, fun _ e => by cases e; exact h2⟩
  | returns t =>
    simp only [request] at h
    split at h
    · cases h
    · rename_i a ha
      unfold Run.put at h
      split at h
      · cases h
      · rename_i b hb
        cases h
        rw [ha] at hc
        cases n with
        | none => exact hc.elim
        | some n =>
          obtain ⟨h1, h2⟩ := returns_met hf hc hb
          exact ⟨rfl, h1, fun _ e => by cases e; exact h2⟩
  | concrete =>
    simp only [request] at h
    split at h
    · cases h
    · rename_i a ha
      injection h with h1 h2
      subst h1
      refine ⟨rfl, hc, fun m e => ?_⟩
      rw [ha, e] at hc
      exact concrete_met hf hc h2
  | decouple =>
    simp only [request] at h
    split at h
    · cases h
    · cases h; exact ⟨rfl, hc, fun _ _ => trivial⟩
  | createVar t =>
    simp only [request] at h
    split at h
    · cases h
    · split at h
      · cases h
      · split at h
        · cases h; exact ⟨rfl, hc, fun _ _ => trivial⟩
        · rw [need_none h]; exact ⟨rfl, hc, fun _ _ => trivial⟩
  | inject name t =>
    simp only [request] at h
    split at h
    · cases h
    · rw [need_none h]; exact ⟨rfl, hc, fun _ _ => trivial⟩

theorem asked_none {as : List Nat} {q : Req T} {qs : List (Req T)} (h : isNext q = false) : asked as none (q :: qs) = asked as none qs := by
  cases q <;> first | (cases as <;> rfl) | cases h

theorem asked_some {as : List Nat} {a : Nat} {q : Req T} {qs : List (Req T)} (h : isNext q = false) :
    asked as (some a) (q :: qs) = (a, q) :: asked as (some a) qs := by
  cases q <;> first | (cases as <;> rfl) | cases h

theorem requests_met {A : Ast T} {s : S T} (hany : ∀ n, s.tg.kn n .inp = .any → n ∈ A.lits) (hf : Fresh s) {op : Nat} : ∀ {qs : List (Req T)} {r r' : Run T} {n : Option Nat},
    CurIs A s r.cur n → requests A s op r qs = (r', none) →
    (∀ a q, (a, q) ∈ asked r.args n qs → Met A s a q) ∧ (qs.filter isNext).length + r'.args.length = r.args.length
  | [], r, r', n, _, h => by
    cases h
    refine ⟨fun a q hm => ?_, by simp⟩
    unfold asked at hm; cases hm
  | q :: qs, r, r', n, hc, h => by
    unfold requests at h
    split at h
    · rename_i r1 h1
      cases hq : isNext q with
      | true =>
        obtain rfl : q = .next := by cases q <;> first | rfl | cases hq
        simp only [request] at h1
        split at h1
        · cases h1
        · rename_i a as ha
          cases h1
          have hn : CurIs A s (some (newArg A s a)) (some a) := newArg_cur A s a
          obtain ⟨h2, h3⟩ := requests_met hany hf (n := some a) (by exact hn) h
          rw [ha]
          refine ⟨fun b q hm => h2 b q (by simpa only [asked] using hm), ?_⟩
          have : isNext (Req.next : Req T) = true := rfl
          rw [List.filter_cons, if_pos this]
          simp only [List.length_cons]
          dsimp only at h3
          omega
      | false =>
        obtain ⟨h2, h3, h4⟩ := request_met hany hf hq h1 hc
        obtain ⟨h5, h6⟩ := requests_met hany hf h3 h
        rw [h2] at h5 h6
        refine ⟨fun b x hm => ?_, by rw [List.filter_cons, if_neg (by rw [hq]; simp)]; exact h6⟩
        cases n with
        | none =>
          rw [asked_none hq] at hm
          exact h5 b x hm
        | some a =>
          rw [asked_some hq] at hm
          rcases List.mem_cons.1 hm with e | hm
          · cases e; exact h4 _ rfl
          · exact h5 b x hm
    · cases h

theorem Within.refl (s : S T) : Within s s := ⟨fun _ h => h, fun _ h => h, fun _ _ _ h => h⟩

theorem runBuiltin_here {A : Ast T} {I : Builtins T} {s : S T} (hany : ∀ n, s.tg.kn n .inp = .any → n ∈ A.lits) (hf : Fresh s) {i op : Nat} {t u : T}
    (h : (runBuiltin A I s i op t).res = .ok u) :
    ∃ anon, (I s i op t).2 = .ok u anon ∧ ((I s i op t).1.filter isNext).length = (A.args op).length ∧
      ∀ a q, (a, q) ∈ asked (A.args op) none (I s i op t).1 → Met A s a q := by
  unfold runBuiltin at h
  dsimp only at h
  split at h
  · cases h
  · rename_i r hr
    obtain ⟨h1, h2⟩ := requests_met hany hf (n := none) (by trivial) hr
    unfold finish at h
    split at h
    · cases h
    · rename_i v anon hx
      split at h
      · cases h
      · rename_i ha
        injection h with h
        subst h
        have ha : r.args = [] := Classical.byContradiction fun h => ha h
        refine ⟨anon, hx, ?_, h1⟩
        rw [ha] at h2
        simpa using h2

theorem runBuiltin_accepted {A : Ast T} {I : Builtins T} {s : S T} (hany : ∀ n, s.tg.kn n .inp = .any → n ∈ A.lits) (hf : Fresh s) {i op : Nat} {t u : T}
    (h : (runBuiltin A I s i op t).res = .ok u) : Accepted A I s i op t u := by
  obtain ⟨anon, h⟩ := runBuiltin_here hany hf h
  exact ⟨s, anon, Within.refl s, h⟩

end Verif.Comp
