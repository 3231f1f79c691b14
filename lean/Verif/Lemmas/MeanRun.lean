import Verif.Lemmas.EvalVars
import Verif.Spec.Meaning
import Verif.Spec.Names
/-! Evaluating compiled blocks gives what the program means. -/
namespace Verif.Comp
open Verif
set_option linter.unusedSectionVars false
variable {T V : Type} [DecidableEq T]

/-! ### What compiled blocks have to do with the program -/

/-- The argument is what is written. -/
structure AsWritten (A : Ast T) (D : List Scope.DefAt) (a : Argument T) : Prop where
  var : ∀ v, A.var a.node = some v → ∃ slot w, a.hold = .var slot w ∧ Scope.Resolves D (A.place a.node) v (some slot)
  plain : A.var a.node = none → a.hold = if a.node ∈ A.exprs then .expr a.node else if a.node ∈ A.lits then .lit a.node else .input

/-- The variable of a compiled block is this one. -/
def VarFor (A : Ast T) (D : List Scope.DefAt) (op : Nat) (x : Variable T) (y : Option Nat × String) : Prop :=
  (x.site = none ∧ y.1 = none) ∨ ∃ n slot, x.site = some (n, slot) ∧ y.1 = some n ∧ D[slot]? = some (A.place n, y.2) ∧ Near A op n

inductive VarsFor (A : Ast T) (D : List Scope.DefAt) (op : Nat) : List (Variable T) → List (Option Nat × String) → Prop
  | nil : VarsFor A D op [] []
  | cons {x y xs ys} : VarFor A D op x y → VarsFor A D op xs ys → VarsFor A D op (x :: xs) (y :: ys)

/-- The arguments of a compiled call are passed for these parameters. -/
inductive Passes (A : Ast T) (D : List Scope.DefAt) (d : Nat) : List ((Nat × T) × Argument T) → List (String × Nat) → Prop
  | nil : Passes A D d [] []
  | cons {slot w a name ps zs} : D[slot]? = some (A.place (A.body d), name) → Passes A D d ps zs → Passes A D d (((slot, w), a) :: ps) ((name, a.node) :: zs)

inductive CodeFor (A : Ast T) (E : Exec T V) (Q : Sense T V) (D : List Scope.DefAt) (op : Nat) (t u : T) : Code T → Prop
  | builtin (i : Nat) (args : List (Argument T)) (vars : List (Variable T)) (p : Plan V) (impl : A.getImpl op t = some (.intrinsic i))
      (plan : Q.plan i op t = some p) (reads : p.reads = args.map (·.node)) (act : ∀ x, p.act x = E.act i op t u args vars x)
      (hvars : VarsFor A D op vars p.vars) : CodeFor A E Q D op t u (.builtin i args vars)
  | call (d : Nat) (params : List ((Nat × T) × Argument T)) (impl : A.getImpl op t = some (.defn d)) (pass : Passes A D d params (passed A Q op d))
      (inside : ∃ m rest, A.place (A.body d) = m :: rest ++ A.place op) : CodeFor A E Q D op t u (.call d params)

/-- The compiled blocks are those of the program. -/
structure Told (A : Ast T) (E : Exec T V) (Q : Sense T V) (s : S T) (D : List Scope.DefAt) : Prop where
  ty : Q.ty = E.ty
  lit : Q.lit = E.lit
  once : ∀ (i j : Nat) x, x.1 ≠ [] → D[i]? = some x → D[j]? = some x → i = j
  code : ∀ op t u code, (op, t, u, code) ∈ s.codes → op ∈ A.ops ∧ CodeFor A E Q D op t u code ∧ ∀ a ∈ code.arguments, AsWritten A D a

/-- The variables that can be seen have these values. -/
def ValsAre (A : Ast T) (D : List Scope.DefAt) (K : List Nat) (p : Loc.Node) (ρ : Vals V) (env : List V) : Prop :=
  ∀ name slot q, Scope.Resolves D p name (some slot) → D[slot]? = some (q, name) → Vis A K q → ρ name = env[slot]?

/-- What is changed is further inside. -/
def Frame (D : List Scope.DefAt) (p : Loc.Node) (env env' : List V) : Prop :=
  ∀ (slot : Nat) q name, D[slot]? = some (q, name) → (¬ ∃ m rest, q = m :: rest ++ p) → env'[slot]? = env[slot]?

/-- What is changed is further inside, or at the next block. -/
def StepFrame (A : Ast T) (D : List Scope.DefAt) (op : Nat) (env env' : List V) : Prop :=
  ∀ (slot : Nat) q name, D[slot]? = some (q, name) → (¬ ∃ m rest, q = m :: rest ++ A.place op) → (∀ n, A.next op = some n → q ≠ A.place n) →
    env'[slot]? = env[slot]?

section
variable {A : Ast T} {I : Builtins T} {E : Exec T V} {Q : Sense T V} {s : S T} {D : List Scope.DefAt} {H : List (List Nat)}

theorem VarsFor.get {op : Nat} : ∀ {xs : List (Variable T)} {ys : List (Option Nat × String)}, VarsFor A D op xs ys →
    ∀ {j : Nat} {x : Variable T}, xs[j]? = some x → ∃ y, ys[j]? = some y ∧ VarFor A D op x y
  | _, _, .nil, _, _, h => by cases h
  | _, _, .cons h hs, 0, x, e => by cases e; exact ⟨_, rfl, h⟩
  | _, _, .cons h hs, j + 1, x, e => hs.get (j := j) e

theorem StepFrame.refl {op : Nat} (env : List V) : StepFrame A D op env env := fun _ _ _ _ _ _ => rfl

theorem StepFrame.trans {op : Nat} {a b c : List V} (h : StepFrame A D op a b) (h' : StepFrame A D op b c) : StepFrame A D op a c :=
  fun slot q name h1 h2 h3 => (h' slot q name h1 h2 h3).trans (h slot q name h1 h2 h3)

theorem Frame.trans {p : Loc.Node} {a b c : List V} (h : Frame D p a b) (h' : Frame D p b c) : Frame D p a c :=
  fun slot q name h1 h2 => (h' slot q name h1 h2).trans (h slot q name h1 h2)

theorem size_inside (m : Loc.Mark) (rest p : Loc.Node) : Loc.size p < Loc.size (m :: rest ++ p) := by
  induction rest generalizing m with
  | nil => cases m <;> simp [Loc.size] <;> omega
  | cons r rest ih => have := ih r; cases m <;> simp [Loc.size] at this ⊢ <;> omega

theorem size_anc {q p : Loc.Node} (h : Loc.Anc q p) : Loc.size q ≤ Loc.size p := by
  induction h with
  | refl => exact Nat.le_refl _
  | step hp _ ih => have := Loc.size_par hp; omega

theorem Resolves.anc {p : Loc.Node} {name : String} {r : Option Nat} (h : Scope.Resolves D p name r) :
    ∀ slot, r = some slot → ∃ q, D[slot]? = some (q, name) ∧ Loc.Anc q p := by
  induction h with
  | here hl => intro slot e; cases e; exact ⟨_, hl.1, .refl _⟩
  | up _ hp _ ih => intro slot e; obtain ⟨q, h1, h2⟩ := ih slot e; exact ⟨q, h1, .step hp h2⟩
  | top => intro slot e; cases e

/-- The next block is later. -/
theorem next_size {names : List String} (hw : A.Wf names) (hpl : A.Placed) {op n : Nat} (ho : op ∈ A.ops) (hn : A.next op = some n) :
    Loc.size (A.place op) < Loc.size (A.place n) ∧ Loc.par (A.place n) = some (A.place op) := by
  have he := hw.parent op ho
  obtain ⟨j, hj⟩ := List.getElem?_of_mem (hpl.parent op ho)
  rw [hpl.next_block hw he hj] at hn
  rw [hpl.blk _ he j op hj, hpl.blk _ he (j + 1) n hn]
  exact ⟨by simp [Loc.size], rfl⟩

theorem ValsAre.step {names : List String} (hw : A.Wf names) (hpl : A.Placed) {K : List Nat} {op : Nat} (ho : op ∈ A.ops) {ρ : Vals V} {env env' : List V}
    (h : ValsAre A D K (A.place op) ρ env) (hf : StepFrame A D op env env') : ValsAre A D K (A.place op) ρ env' := by
  intro name slot q h1 h2 h3
  rw [h name slot q h1 h2 h3]
  obtain ⟨q', h4, h5⟩ := Resolves.anc h1 slot rfl
  rw [h2] at h4
  cases h4
  have h6 := size_anc h5
  refine (hf slot q name h2 ?_ ?_).symm
  · rintro ⟨m, rest, e⟩
    have := size_inside m rest (A.place op)
    rw [← e] at this; omega
  · rintro n hn e
    have := (next_size hw hpl ho hn).1
    rw [← e] at this; omega

/-! ### Arguments -/

/-- Expressions of blocks compiled before the one with this number mean this. -/
def EvRel (A : Ast T) (E : Exec T V) (s : S T) (D : List Scope.DefAt) (H : List (List Nat)) (k : Nat) (ev : Evals V) (M : Means V) : Prop :=
  ∀ e t u, Done A s (s.prior k) e t u → ∀ K, (∀ (k' : Nat) K', k' < k → H[k']? = some K' → ∀ d ∈ K', d ∈ K) →
    ∀ x env ρ, E.ty x = t → EnvOk A E s D K (A.place e) env → ValsAre A D K (A.place e) ρ env →
      M e x ρ = (ev e x env).value ∧ ∀ r, ev e x env = .ok r → Frame D (A.place e) env r.2

theorem checked_ok {a : Argument T} {v : V} (h : E.ty v = a.out) : checked E.ty a v = .ok v := if_pos h

theorem resolveArg_means (ht : Told A E Q s D) {k : Nat} {ev : Evals V} {M : Means V} (hev : EvOk A E s D H k ev) (hrel : EvRel A E s D H k ev M) {K : List Nat}
    (hK : ∀ (k' : Nat) K', k' < k → H[k']? = some K' → ∀ d ∈ K', d ∈ K) {op : Nat} {a : Argument T}
    (ha : HeldOk A E s D K (s.prior k) op a) (haw : AsWritten A D a) {x : V} {env : List V} {ρ : Vals V} (hx : E.ty x = a.inp)
    (he : EnvOk A E s D K (A.place a.node) env) (hr : ValsAre A D K (A.place a.node) ρ env) :
    argMeans A Q M a.node x ρ = resolveArg E ev a x env := by
  have h1 := ha.hold
  have h2 := ha.slot
  unfold resolveArg argMeans
  cases hvar : A.var a.node with
  | some v =>
    obtain ⟨slot, w, hh, hres⟩ := haw.var v hvar
    rw [hh] at h1
    obtain ⟨e1, q, name, h3, h4, h5⟩ := h1
    obtain ⟨v', h6, h7⟩ := he.okay slot ⟨q, name, h3, h4, h5⟩
    obtain ⟨q', h8, _⟩ := Resolves.anc hres slot rfl
    rw [h3] at h8
    cases h8
    rw [h2 slot w hh] at h7
    injection h7 with h7
    have h9 := hr v slot q hres h3 h5
    simp only [hh, h9, h6]
    rw [if_pos h7.symm, checked_ok (h7.symm.trans e1)]
  | none =>
    have hh := haw.plain hvar
    dsimp only
    by_cases hex : a.node ∈ A.exprs
    · rw [if_pos hex] at hh ⊢
      rw [hh] at h1
      obtain ⟨_, h3⟩ := h1
      have h4 := hrel _ _ _ h3 K hK x env ρ hx he hr
      have h5 := hev _ _ _ h3 K hK x env hx he
      rw [hh, h4.1]
      dsimp only
      cases hres : ev a.node x env with
      | ok r => rw [hres] at h5; exact (checked_ok h5.1).symm
      | err => rfl
      | stuck => rfl
      | more => rfl
    · rw [if_neg hex] at hh ⊢
      by_cases hl : a.node ∈ A.lits
      · rw [if_pos hl] at hh ⊢
        rw [hh] at h1 ⊢
        rw [ht.lit]
        exact (checked_ok h1).symm
      · rw [if_neg hl] at hh ⊢
        rw [hh] at h1 ⊢
        dsimp only
        rw [if_pos hx, checked_ok (hx.trans h1)]

/-! ### Variables of commands -/

/-- What was set has the same value in the environment. -/
def HeldIn (A : Ast T) (D : List Scope.DefAt) (op : Nat) (σ : Local V) (env : List V) : Prop :=
  ∀ n name v, σ n name = some v → ∃ slot : Nat, D[slot]? = some (A.place n, name) ∧ env[slot]? = some v ∧ Near A op n

/-- These variables were set. -/
def Marked (A : Ast T) (D : List Scope.DefAt) (vars : List (Variable T)) (done : List Nat) (σ : Local V) : Prop :=
  ∀ j ∈ done, ∀ y, vars[j]? = some y → ∀ n slot, y.site = some (n, slot) → ∃ name v, D[slot]? = some (A.place n, name) ∧ σ n name = some v

/-- Nothing that was set is lost. -/
def Local.Below (σ σ' : Local V) : Prop := ∀ n name v, σ n name = some v → ∃ v', σ' n name = some v'

theorem Marked.below {vars : List (Variable T)} {done : List Nat} {σ σ' : Local V} (h : Marked A D vars done σ) (hb : σ.Below σ') :
    Marked A D vars done σ' := by
  intro j hj y hy n slot hs
  obtain ⟨name, v, h1, h2⟩ := h j hj y hy n slot hs
  obtain ⟨v', h3⟩ := hb n name v h2
  exact ⟨name, v', h1, h3⟩

theorem Local.put_self (σ : Local V) (n : Nat) (name : String) (v : V) : σ.put n name v n name = some v := by
  simp [Local.put, Vals.put]

theorem Local.put_cases {σ : Local V} {n m : Nat} {name k : String} {v w : V} (h : σ.put n name v m k = some w) :
    (m = n ∧ k = name ∧ w = v) ∨ (¬ (m = n ∧ k = name) ∧ σ m k = some w) := by
  unfold Local.put Vals.put at h
  split at h
  · rename_i e
    dsimp only at h
    split at h
    · rename_i e'
      cases h
      exact .inl ⟨e, e', rfl⟩
    · rename_i e'
      exact .inr ⟨fun h => e' h.2, h⟩
  · rename_i e
    exact .inr ⟨fun h => e h.1, h⟩

theorem Local.put_below (σ : Local V) (n : Nat) (name : String) (v : V) : σ.Below (σ.put n name v) := by
  intro m k w h
  unfold Local.put Vals.put
  split
  · dsimp only
    split
    · exact ⟨v, rfl⟩
    · exact ⟨w, h⟩
  · exact ⟨w, h⟩

/-- A variable next to the block is changed. -/
theorem near_frame {names : List String} (hw : A.Wf names) {op n slot : Nat} {name : String} {v : V} {env : List V} (hd : D[slot]? = some (A.place n, name))
    (hn : Near A op n) : StepFrame A D op env (env.set slot v) := by
  intro slot' q name' h1 h2 h3
  refine List.getElem?_set_ne fun e => ?_
  subst e
  rw [hd] at h1
  cases h1
  rcases hn with hn | hn
  · obtain ⟨i, hi⟩ := hw.arg_place op n hn
    exact h2 ⟨.arg i, [], hi⟩
  · exact h3 n hn rfl

theorem setVars_means {names : List String} (hw : A.Wf names) {op : Nat} {vars : List (Variable T)} {ys : List (Option Nat × String)}
    (hv : VarsFor A D op vars ys) : ∀ {sets : List (Nat × V)} {env env' : List V} {σ : Local V}, setVars E.ty vars sets env = some env' →
    HeldIn A D op σ env → ∃ σ', assign ys sets σ = some σ' ∧ HeldIn A D op σ' env' ∧ StepFrame A D op env env' ∧ σ.Below σ' ∧
      Marked A D vars (sets.map (·.1)) σ'
  | [], env, env', σ, h, hh => by
    cases h
    exact ⟨σ, rfl, hh, .refl _, fun _ _ v h => ⟨v, h⟩, fun _ h => (by cases h)⟩
  | (j, v) :: sets, env, env', σ, h, hh => by
    unfold setVars at h
    cases hx : vars[j]? with
    | none => rw [hx] at h; cases h
    | some x =>
      rw [hx] at h
      dsimp only at h
      obtain ⟨y, hy, hfor⟩ := hv.get hx
      unfold assign
      rw [hy]
      cases hs : setVar E.ty x v env with
      | none => rw [hs] at h; cases h
      | some e1 =>
        rw [hs] at h
        dsimp only at h
        unfold setVar at hs
        split at hs
        case isFalse => cases hs
        obtain ⟨site, name⟩ := y
        rcases hfor with ⟨f1, f2⟩ | ⟨n, slot, f1, f2, f3, f4⟩
        · dsimp only at f2
          subst f2
          rw [f1] at hs
          cases hs
          obtain ⟨σ', a1, a2, a3, a4, a5⟩ := setVars_means hw hv h hh
          refine ⟨σ', a1, a2, a3, a4, fun i hi z hz m slot hm => ?_⟩
          rcases List.mem_cons.1 hi with e | hi
          · dsimp only at e
            rw [e, hx] at hz
            cases hz
            rw [f1] at hm; cases hm
          · exact a5 i hi z hz m slot hm
        · dsimp only at f2 f3
          subst f2
          rw [f1] at hs
          dsimp only at hs
          split at hs
          case isFalse => cases hs
          rename_i hlt
          cases hs
          have hh' : HeldIn A D op (σ.put n name v) (env.set slot v) := by
            intro m k w hw'
            rcases Local.put_cases hw' with ⟨e1, e2, e3⟩ | ⟨hne, h1⟩
            · subst e1; subst e2; subst e3
              exact ⟨slot, f3, by simp [hlt], f4⟩
            · obtain ⟨slot', h2, h3, h4⟩ := hh m k w h1
              refine ⟨slot', h2, ?_, h4⟩
              rw [List.getElem?_set_ne fun e => ?_]
              · exact h3
              · rw [e, h2] at f3
                injection f3 with f3
                injection f3 with g1 g2
                exact hne ⟨place_inj hw.places (h4.lt hw) (f4.lt hw) g1, g2⟩
          obtain ⟨σ', a1, a2, a3, a4, a5⟩ := setVars_means hw hv h hh'
          refine ⟨σ', a1, a2, (near_frame hw f3 f4).trans a3, fun m k w hm => ?_, fun i hi z hz m slot' hm => ?_⟩
          · obtain ⟨w', h1⟩ := Local.put_below σ n name v m k w hm
            exact a4 m k w' h1
          · rcases List.mem_cons.1 hi with e | hi
            · dsimp only at e
              rw [e, hx] at hz
              cases hz
              rw [f1] at hm
              cases hm
              obtain ⟨v', h1⟩ := a4 n name v (Local.put_self ..)
              exact ⟨name, v', f3, h1⟩
            · exact a5 i hi z hz m slot' hm

/-- Next to the block there are the variables that were set there, and those at the block. -/
theorem ValsAre.near {names : List String} (hw : A.Wf names) (hpl : A.Placed) (ht : Told A E Q s D) {K : List Nat} {op n : Nat} (ho : op ∈ A.ops) (hn : Near A op n)
    {vars : List (Variable T)} {done : List Nat} {σ : Local V} {ρ : Vals V} {env : List V}
    (covers : ∀ (j n : Nat) name, D[j]? = some (A.place n, name) → Near A op n → ∃ x ∈ vars, x.site = some (n, j))
    (hr : ValsAre A D K (A.place op) ρ env) (hh : HeldIn A D op σ env) (hm : Marked A D vars done σ) (hall : AllSet vars done n) :
    ValsAre A D K (A.place n) ((σ n).over ρ) env := by
  have hpar : Loc.par (A.place n) = some (A.place op) := by
    rcases hn with hn | hn
    · obtain ⟨i, hi⟩ := hw.arg_place op n hn
      rw [hi]; rfl
    · exact (next_size hw hpl ho hn).2
  intro name slot q h1 h2 h3
  unfold Vals.over
  cases h1 with
  | here hl =>
    obtain ⟨x, h5, h6⟩ := covers slot n name hl.1 hn
    obtain ⟨j, h7, y, h8, h9⟩ := hall x h5 slot h6
    obtain ⟨name', v, h10, h11⟩ := hm j h7 y h8 n slot h9
    rw [hl.1] at h10
    cases h10
    rw [h11]
    obtain ⟨slot', h12, h13, _⟩ := hh n name v h11
    have hne : (A.place n, name).1 ≠ [] := by
      dsimp only
      intro e; rw [e] at hpar; cases hpar
    rw [ht.once slot slot' _ hne hl.1 h12]
    exact h13.symm
  | up hno hp hres =>
    rw [hpar] at hp
    cases hp
    cases hσ : σ n name with
    | some v => obtain ⟨slot', h12, _⟩ := hh n name v hσ; exact absurd h12 (hno slot')
    | none => exact hr name slot q hres h2 h3

/-- A command did the same. -/
def SameAct (A : Ast T) (D : List Scope.DefAt) (op : Nat) (ρ : Vals V) (env : List V) : Res (V × List V) → Res (V × Local V) → Prop
  | .ok r, .ok m => r.1 = m.1 ∧ StepFrame A D op env r.2 ∧ ∀ K, ValsAre A D K (A.place op) ρ env → ∀ n, A.next op = some n → ValsAre A D K (A.place n) ((m.2 n).over ρ) r.2
  | .err, .err => True
  | _, _ => False

theorem SameAct.on {names : List String} (hw : A.Wf names) (hpl : A.Placed) {op : Nat} (ho : op ∈ A.ops) {ρ : Vals V} {env env' : List V} (hf : StepFrame A D op env env') :
    ∀ {r : Res (V × List V)} {m : Res (V × Local V)}, SameAct A D op ρ env' r m → SameAct A D op ρ env r m
  | .ok _, .ok _, h => ⟨h.1, hf.trans h.2.1, fun K hr => h.2.2 K (hr.step hw hpl ho hf)⟩
  | .err, .err, _ => trivial

theorem runAct_means {names : List String} (hw : A.Wf names) (hpl : A.Placed) (ht : Told A E Q s D) {k : Nat} {ev : Evals V} {M : Means V}
    (hev : EvOk A E s D H k ev) (hrel : EvRel A E s D H k ev M) {K : List Nat}
    (hK : ∀ (k' : Nat) K', k' < k → H[k']? = some K' → ∀ d ∈ K', d ∈ K) {op : Nat} (ho : op ∈ A.ops) {u : T} {args : List (Argument T)} {vars : List (Variable T)}
    (hargs : ∀ a ∈ args, HeldOk A E s D K (s.prior k) op a) (haw : ∀ a ∈ args, AsWritten A D a) (hvars : ∀ x ∈ vars, VarOk A s x)
    (covers : ∀ (j n : Nat) name, D[j]? = some (A.place n, name) → Near A op n → ∃ x ∈ vars, x.site = some (n, j))
    {p : Plan V} (hreads : p.reads = args.map (·.node)) (hfor : VarsFor A D op vars p.vars) {ρ : Vals V} :
    ∀ (act : Act V) (done : List Nat) (env : List V) (σ : Local V), Behaves A E.ty u args vars done act → EnvOk A E s D K (A.place op) env →
    SetIn E s vars done env → ValsAre A D K (A.place op) ρ env → HeldIn A D op σ env → Marked A D vars done σ →
    SameAct A D op ρ env (runAct E ev args vars act env) (actMeans A Q M p ρ act σ) := by
  have cov : ∀ {done : List Nat} {env : List V} {n : Nat}, SetIn E s vars done env → AllSet vars done n → Near A op n →
      ∀ (j : Nat) name, D[j]? = some (A.place n, name) → Okay E s env j := by
    intro done env n h1 h2 h3 j name h4
    obtain ⟨x, h5, h6⟩ := covers j n name h4 h3
    obtain ⟨i, h7, y, h8, h9⟩ := h2 x h5 j h6
    exact h1 i h7 y h8 n j h9
  intro act
  induction act with
  | done v =>
    intro done env σ hb he hs hr hh hm
    unfold runAct actMeans
    refine ⟨rfl, .refl _, fun K hr n hn => ?_⟩
    have hno : n ∈ A.ops := hw.block_op _ _ (next_mem hn)
    exact hr.near hw hpl ht ho (.inr hn) covers hh hm (hb.2 n hno)
  | fail => intro done env σ _ _ _ _ _ _; unfold runAct actMeans; trivial
  | wrong => intro done env σ hb _ _ _ _ _; exact hb.elim
  | set j v next ih =>
    intro done env σ hb he hs hr hh hm
    obtain ⟨⟨x, h1, h2⟩, hb⟩ := hb
    obtain ⟨env', h3, h4, h5⟩ := setVars_fine hvars (sets := [(j, v)]) (env := env)
      (fun p hp => by rw [List.mem_singleton.1 hp]; exact ⟨x, h1, h2⟩) he.length
    obtain ⟨σ', a1, a2, a3, a4, a5⟩ := setVars_means hw hfor h3 hh
    unfold runAct actMeans
    rw [h3, a1]
    dsimp only
    refine SameAct.on hw hpl ho a3 (ih (j :: done) env' σ' hb (he.keeps h4) (fun i hi y hy n slot hn => ?_) (hr.step hw hpl ho a3) a2 fun i hi => ?_)
    · rcases List.mem_cons.1 hi with e | hi
      · subst e; exact h5 i (by simp) y hy n slot hn
      · exact h4.okay _ (hs i hi y hy n slot hn)
    · rcases List.mem_cons.1 hi with e | hi
      · subst e; exact a5 i (by simp)
      · exact hm.below a4 i hi
  | resolve m sets x next ih =>
    intro done env σ hb he hs hr hh hm
    obtain ⟨h1, ⟨a, h2, h3, h4, h5⟩, h6⟩ := hb
    obtain ⟨inner, h7, h8, h9⟩ := setVars_fine hvars h1 he.length
    obtain ⟨σ', a1, a2, a3, a4, a5⟩ := setVars_means hw hfor h7 hh
    have hmem := List.mem_of_getElem? h2
    have ha := hargs a hmem
    obtain ⟨i, hi⟩ := hw.arg_place op a.node ha.node
    have hin : EnvOk A E s D K (A.place a.node) inner := by
      refine env_near (he.keeps h8) (by rw [hi]; rfl) (cov ?_ h4 (.inl ha.node))
      intro i hi y hy n slot hn
      rcases List.mem_append.1 hi with hi | hi
      · exact h9 i hi y hy n slot hn
      · exact h8.okay _ (hs i hi y hy n slot hn)
    have hrin : ValsAre A D K (A.place a.node) ((σ' a.node).over ρ) inner := by
      refine (hr.step hw hpl ho a3).near hw hpl ht ho (.inl ha.node) covers a2 (done := sets.map (·.1) ++ done) (fun i hi => ?_) h4
      rcases List.mem_append.1 hi with hi | hi
      · exact a5 i hi
      · exact hm.below a4 i hi
    have hfine := resolveArg_fine hev hK ha h3 hin
    have heq := resolveArg_means ht hev hrel hK ha (haw a hmem) h3 hin hrin
    unfold runAct actMeans
    rw [h2, hreads, List.getElem?_map, h2]
    dsimp only [Option.map_some]
    rw [h7, a1]
    dsimp only
    rw [heq]
    cases hres : resolveArg E ev a x inner with
    | ok v => rw [hres] at hfine; exact ih _ done env σ (h5 v hfine) he hs hr hh hm
    | err => exact ih _ done env σ h6 he hs hr hh hm
    | stuck => rw [hres] at hfine; exact hfine.elim
    | more => rw [hres] at hfine; exact hfine.elim

/-! ### Calls -/

/-- Next to a call there are just the variables at the call. -/
theorem ValsAre.beside {names : List String} (hw : A.Wf names) (hpl : A.Placed) {K : List Nat} {op n : Nat} (ho : op ∈ A.ops) (hn : Near A op n) {ρ : Vals V} {env : List V}
    (hnone : ∀ (j n : Nat) name, D[j]? = some (A.place n, name) → ¬ Near A op n) (hr : ValsAre A D K (A.place op) ρ env) : ValsAre A D K (A.place n) ρ env := by
  have hpar : Loc.par (A.place n) = some (A.place op) := by
    rcases hn with hn | hn
    · obtain ⟨i, hi⟩ := hw.arg_place op n hn
      rw [hi]; rfl
    · exact (next_size hw hpl ho hn).2
  intro name slot q h1 h2 h3
  cases h1 with
  | here hl => exact absurd hn (hnone slot n name hl.1)
  | up hno hp hres =>
    rw [hpar] at hp
    cases hp
    exact hr name slot q hres h2 h3

theorem bindParams_means {names : List String} (hw : A.Wf names) (hpl : A.Placed) (ht : Told A E Q s D) {k : Nat} {ev : Evals V} {M : Means V}
    (hev : EvOk A E s D H k ev) (hrel : EvRel A E s D H k ev M) {K : List Nat}
    (hK : ∀ (k' : Nat) K', k' < k → H[k']? = some K' → ∀ d ∈ K', d ∈ K) {op : Nat} (ho : op ∈ A.ops) {t : T}
    (hnone : ∀ (j n : Nat) name, D[j]? = some (A.place n, name) → ¬ Near A op n) {x : V} (hx : E.ty x = t) {d : Nat} (hd : A.body d < A.count)
    (inside : ∃ m rest, A.place (A.body d) = m :: rest ++ A.place op) {ρ : Vals V} :
    ∀ {params : List ((Nat × T) × Argument T)} {zs : List (String × Nat)} {env : List V} {acc : Vals V}, Passes A D d params zs →
    (∀ p ∈ params, HeldOk A E s D K (s.prior k) op p.2 ∧ p.2.inp = t ∧ p.2.out = p.1.2 ∧ s.slots[p.1.1]? = some p.1.2) →
    (∀ p ∈ params, AsWritten A D p.2) → EnvOk A E s D K (A.place op) env → ValsAre A D K (A.place op) ρ env →
    (∀ name v, acc name = some v → ∃ slot : Nat, D[slot]? = some (A.place (A.body d), name) ∧ env[slot]? = some v) →
    (∃ env' acc', bindParams E ev x params env = .ok env' ∧ paramsMean A Q M x ρ zs acc = .ok acc' ∧ StepFrame A D op env env' ∧
      (∀ name v, acc' name = some v → ∃ slot : Nat, D[slot]? = some (A.place (A.body d), name) ∧ env'[slot]? = some v) ∧
      (∀ name v, acc name = some v → ∃ v', acc' name = some v') ∧
      ∀ p ∈ params, ∃ name v, D[p.1.1]? = some (A.place (A.body d), name) ∧ acc' name = some v) ∨
    bindParams E ev x params env = .err ∧ paramsMean A Q M x ρ zs acc = .err
  | _, _, env, acc, .nil, _, _, _, _, hacc => .inl ⟨env, acc, rfl, rfl, .refl _, hacc, fun _ v h => ⟨v, h⟩, fun _ h => (by cases h)⟩
  | _, _, env, acc, .cons (slot := slot) (w := w) (a := a) (name := name) (ps := ps) (zs := zs) hslot hps, h, haw, he, hr, hacc => by
    obtain ⟨h1, h2, h3, h4⟩ := h ((slot, w), a) (by simp)
    dsimp only at h1 h2 h3 h4
    obtain ⟨i, hi⟩ := hw.arg_place op a.node h1.node
    have hin : EnvOk A E s D K (A.place a.node) env :=
      env_near he (by rw [hi]; rfl) fun j name hj => absurd (.inl h1.node) (hnone j _ name hj)
    have hrin := hr.beside hw hpl ho (.inl h1.node) hnone
    have hfine := resolveArg_fine hev hK h1 (hx.trans h2.symm) hin
    have heq := resolveArg_means ht hev hrel hK h1 (haw ((slot, w), a) (by simp)) (hx.trans h2.symm) hin hrin
    unfold bindParams paramsMean
    simp only [heq]
    cases hres : resolveArg E ev a x env with
    | ok v =>
      rw [hres] at hfine
      have hv : VarOk A s (⟨some (0, slot), w, w⟩ : Variable T) := ⟨rfl, fun n slot e => by cases e; exact h4⟩
      obtain ⟨e1, h5, h6, h7⟩ := setVar_fine hv (v := v) (E := E) (hfine.trans h3) he.length
      have hset : slot < env.length ∧ e1 = env.set slot v := by
        unfold setVar at h5
        split at h5
        · dsimp only at h5
          split at h5
          · rename_i hl
            cases h5; exact ⟨hl, rfl⟩
          · cases h5
        · cases h5
      have hfr : StepFrame A D op env e1 := by
        intro slot' q name' g1 g2 g3
        rw [hset.2]
        refine List.getElem?_set_ne fun e => ?_
        subst e
        rw [hslot] at g1
        cases g1
        exact g2 inside
      have hacc' : ∀ name' v', (acc.put name v) name' = some v' → ∃ slot : Nat, D[slot]? = some (A.place (A.body d), name') ∧ e1[slot]? = some v' := by
        intro name' v' hv'
        unfold Vals.put at hv'
        split at hv'
        · rename_i e
          cases hv'
          subst e
          exact ⟨slot, hslot, by rw [hset.2]; simp [hset.1]⟩
        · rename_i hne
          obtain ⟨slot', g1, g2⟩ := hacc name' v' hv'
          refine ⟨slot', g1, ?_⟩
          rw [hset.2, List.getElem?_set_ne fun e => ?_]
          · exact g2
          · rw [e, g1] at hslot
            cases hslot
            exact hne rfl
      dsimp only
      rw [h5]
      dsimp only
      rcases bindParams_means hw hpl ht hev hrel hK ho hnone hx hd inside (env := e1) (acc := acc.put name v) hps (fun q hq => h q (by simp [hq]))
        (fun q hq => haw q (by simp [hq])) (he.keeps h6) (hr.step hw hpl ho hfr) hacc' with ⟨e2, acc2, b1, b2, b3, b4, b5, b6⟩ | ⟨b1, b2⟩
      · refine .inl ⟨e2, acc2, b1, b2, hfr.trans b3, b4, fun name' v' hv' => ?_, fun q hq => ?_⟩
        · by_cases e : name' = name
          · exact b5 name' v (by simp [Vals.put, e])
          · exact b5 name' v' (by simp [Vals.put, e, hv'])
        · rcases List.mem_cons.1 hq with e | hq
          · subst e
            obtain ⟨v', g1⟩ := b5 name v (by simp [Vals.put])
            exact ⟨name, v', hslot, g1⟩
          · exact b6 q hq
      · exact .inr ⟨b1, b2⟩
    | err => exact .inr ⟨rfl, rfl⟩
    | stuck => rw [hres] at hfine; exact hfine.elim
    | more => rw [hres] at hfine; exact hfine.elim

/-! ### Blocks and expressions -/

/-- A block did the same. -/
def SameStep (A : Ast T) (D : List Scope.DefAt) (op : Nat) (ρ : Vals V) (env : List V) : Res (V × List V) → Res (V × Vals V) → Prop
  | .ok r, .ok m => r.1 = m.1 ∧ StepFrame A D op env r.2 ∧ ∀ K, ValsAre A D K (A.place op) ρ env → ∀ n, A.next op = some n → ValsAre A D K (A.place n) m.2 r.2
  | .err, .err => True
  | _, _ => False

theorem evalStep_means {names : List String} (hw : A.Wf names) (hpl : A.Placed) (W : World A I E s D H) (ht : Told A E Q s D) {k : Nat} {ev : Evals V}
    {M : Means V} (hev : EvOk A E s D H k ev) (hrel : EvRel A E s D H k ev M) {op : Nat} {t u : T} {code : Code T} {K : List Nat}
    (hc : s.codes[k]? = some (op, t, u, code)) (hH : H[k]? = some K) (hat : s.codeAt op = some (t, u, code)) {x : V} {env : List V} {ρ : Vals V}
    (hx : E.ty x = t) (he : EnvOk A E s D K (A.place op) env) (hr : ValsAre A D K (A.place op) ρ env) :
    SameStep A D op ρ env (evalStep A E s ev op x env) (stepMeans A Q M op x ρ) := by
  have hK : ∀ (k' : Nat) K', k' < k → H[k']? = some K' → ∀ d ∈ K', d ∈ K := fun k' K' h1 h2 => W.mono k' k K' K (Nat.le_of_lt h1) h2 hH
  have hok := W.ok k _ K hc hH
  dsimp only at hok
  obtain ⟨ho, hfor, haw⟩ := ht.code op t u code (List.mem_of_getElem? hc)
  have hstep := evalStep_fine hw hpl W hev hc hH hat hx he
  unfold evalStep at hstep ⊢
  rw [hat] at hstep ⊢
  dsimp only at hstep ⊢
  have hsx : Q.ty x = t := by rw [ht.ty]; exact hx
  unfold stepMeans
  rw [hsx]
  cases hok with
  | builtin i args vars hact hargs hvars covers =>
    cases hfor with
    | builtin _ _ _ p impl plan reads act hvf =>
    unfold runCode at hstep ⊢
    have h1 := runAct_means hw hpl ht hev hrel hK ho hargs haw hvars covers reads hvf (ρ := ρ) (E.act i op t u args vars x) [] env (fun _ => Vals.none)
      (hact x hx) he (fun _ h => (by cases h)) hr (fun _ _ _ h => (by cases h)) fun _ h => (by cases h)
    rw [impl]
    dsimp only
    rw [plan]
    dsimp only
    rw [act]
    have h0 := runAct_fine hw hev hK hargs hvars covers _ [] env (hact x hx) he fun _ h => (by cases h)
    clear hstep
    revert h1 h0
    generalize runAct E ev args vars (E.act i op t u args vars x) env = r
    generalize actMeans A Q M p ρ (E.act i op t u args vars x) (fun _ => Vals.none) = m
    intro h1 h0
    cases r with
    | ok r =>
      cases m with
      | ok m =>
        obtain ⟨a1, a2, a3⟩ := h1
        unfold invoked
        dsimp only
        rw [if_pos h0.1]
        refine ⟨a1, a2, fun K hr n hn => ?_⟩
        unfold after
        dsimp only
        rw [hn]
        exact a3 K hr n hn
      | err => exact h1.elim
      | stuck => exact h1.elim
      | more => exact h1.elim
    | err => cases m <;> first | exact h1.elim | trivial
    | stuck => exact h1.elim
    | more => exact h1.elim
  | call d params body hd hparams sets hnone =>
    cases hfor with
    | call _ _ impl pass inside =>
    unfold runCode at hstep ⊢
    rw [impl]
    dsimp only at hstep ⊢
    rcases bindParams_means hw hpl ht hev hrel hK ho hnone hx (hw.exprs_lt _ body.mem) inside (acc := Vals.none) pass hparams
      (fun p hp => haw p.2 (List.mem_map.2 ⟨p, hp, rfl⟩)) he hr (fun _ _ h => (by cases h)) with ⟨e1, acc, b1, b2, b3, b4, b5, b6⟩ | ⟨b1, b2⟩
    · rw [b1] at hstep ⊢
      rw [b2]
      dsimp only at hstep ⊢
      obtain ⟨m, p, hb⟩ := hpl.body d hd
      have hkeeps : ∃ e1', bindParams E ev x params env = .ok e1' ∧ Keeps E s env e1' ∧ ∀ p ∈ params, Okay E s e1' p.1.1 := by
        rcases bindParams_fine hw hev hK hnone hx hparams he with h | h
        · exact h
        · rw [b1] at h; cases h
      obtain ⟨e1', c1, c2, c3⟩ := hkeeps
      rw [b1] at c1
      cases c1
      have hin : EnvOk A E s D K (A.place (A.body d)) e1 := by
        refine ⟨c2.length.trans he.length, fun i hi => ?_⟩
        obtain ⟨q, name, h4, h5, h6⟩ := hi
        have e : q = A.place (A.body d) := by
          cases h5 with
          | refl => rfl
          | step hp _ => rw [hb] at hp; cases hp
        subst e
        obtain ⟨y, h7, h8⟩ := sets i name h4 (h6 d hd rfl)
        rw [← h8]; exact c3 y h7
      have hrin : ValsAre A D K (A.place (A.body d)) acc e1 := by
        intro name slot q h1 h2 h3
        cases h1 with
        | here hl =>
          have h2' := hl.1
          rw [h2] at h2'
          cases h2'
          obtain ⟨y, h7, h8⟩ := sets slot name h2 (h3 d hd rfl)
          obtain ⟨name', v, h9, h10⟩ := b6 y h7
          rw [h8, h2] at h9
          cases h9
          obtain ⟨slot', h11, h12⟩ := b4 name v h10
          rw [ht.once slot slot' _ (by dsimp only; rw [hb]; exact List.cons_ne_nil _ _) h2 h11, h10, h12]
        | up hno hp _ => rw [hb] at hp; cases hp
      obtain ⟨d1, d2⟩ := hrel _ _ _ body K hK x e1 acc hx hin hrin
      rw [d1]
      cases hres : ev (A.body d) x e1 with
      | ok r =>
        rw [hres] at hstep
        have hty : E.ty r.1 = u := by
          unfold invoked at hstep
          dsimp only at hstep
          by_cases h : E.ty r.1 = u
          · exact h
          · rw [if_neg h] at hstep; exact hstep.elim
        unfold invoked
        dsimp only [Res.value]
        rw [if_pos hty]
        have hfr : StepFrame A D op env r.2 := by
          refine b3.trans fun slot q name g1 g2 g3 => d2 r hres slot q name g1 ?_
          rintro ⟨m', rest', e⟩
          obtain ⟨m, rest, hin⟩ := inside
          refine g2 ⟨m', rest' ++ m :: rest, ?_⟩
          rw [e, hin]
          simp
        exact ⟨rfl, hfr, fun K hr n hn => (hr.step hw hpl ho hfr).beside hw hpl ho (.inr hn) hnone⟩
      | err => trivial
      | stuck => rw [hres] at hstep; exact hstep.elim
      | more => rw [hres] at hstep; exact hstep.elim
    · rw [b1, b2]; trivial

theorem ValsAre.vis {K K' : List Nat} {p : Loc.Node} {ρ : Vals V} {env : List V} (h : ValsAre A D K p ρ env) (hk : ∀ d ∈ K', d ∈ K) :
    ValsAre A D K' p ρ env := fun name slot q h1 h2 h3 => h name slot q h1 h2 fun d hd hq => hk d (h3 d hd hq)

theorem evalSteps_means {names : List String} (hw : A.Wf names) (hpl : A.Placed) (W : World A I E s D H) (ht : Told A E Q s D) {ev : Evals V} {M : Means V} {k : Nat}
    (hev : ∀ k', k' < k → EvOk A E s D H k' ev) (hrel : ∀ k', k' < k → EvRel A E s D H k' ev M) {K : List Nat}
    (hK : ∀ (k' : Nat) K', k' < k → H[k']? = some K' → ∀ d ∈ K', d ∈ K)
    {e : Nat} (he : e ∈ A.exprs) {u : T} : ∀ {ops : List Nat} {j : Nat} {t : T}, (∀ m, ops[m]? = (A.blocks e)[j + m]?) →
    Pipe s.steps ops t u → (∀ op ∈ ops, op ∈ s.prior k) → ∀ {x : V} {env : List V} {ρ : Vals V}, E.ty x = t →
    (ops ≠ [] → EnvOk A E s D K (.blk j :: A.place e) env ∧ ValsAre A D K (.blk j :: A.place e) ρ env) →
    stepsMean A Q M ops x ρ = (evalSteps A E s ev ops x env).value ∧ ∀ r, evalSteps A E s ev ops x env = .ok r → Frame D (A.place e) env r.2
  | [], j, t, _, hp, _, x, env, ρ, hx, _ => ⟨rfl, fun r h => by cases h; exact fun _ _ _ _ _ => rfl⟩
  | op :: ops, j, t, hb, hp, hpr, x, env, ρ, hx, hen => by
    cases hp with
    | @cons _ _ _ v _ hs hp =>
    have hop : (A.blocks e)[j]? = some op := (hb 0).symm
    obtain ⟨k', code, K', h1, h2, h3, h4⟩ := W.at (hpr op (by simp)) hs
    have hpo := hpl.blk e he j op hop
    have ho : op ∈ A.ops := hw.block_op e op (List.mem_of_getElem? hop)
    obtain ⟨hen1, hr1⟩ := hen (by simp)
    have hen1' : EnvOk A E s D K (A.place op) env := by rw [hpo]; exact hen1
    have hr1' : ValsAre A D K (A.place op) ρ env := by rw [hpo]; exact hr1
    have henK : EnvOk A E s D K' (A.place op) env := by
      refine ⟨hen1'.length, fun i hi => hen1'.okay i ?_⟩
      obtain ⟨q, name, a1, a2, a3⟩ := hi
      exact ⟨q, name, a1, a2, fun d hd hq => hK k' K' h1 h3 d (a3 d hd hq)⟩
    have h5 := evalStep_fine hw hpl W (hev k' h1) h2 h3 h4 hx henK
    have h5' := evalStep_means hw hpl W ht (hev k' h1) (hrel k' h1) h2 h3 h4 hx henK (hr1'.vis fun d hd => hK k' K' h1 h3 d hd)
    unfold evalSteps stepsMean
    cases hres : evalStep A E s ev op x env with
    | ok r =>
      rw [hres] at h5 h5'
      cases hm : stepMeans A Q M op x ρ with
      | ok m =>
        rw [hm] at h5'
        obtain ⟨h6, h7, h8⟩ := h5
        obtain ⟨a1, a2, a3⟩ := h5'
        dsimp only
        rw [← a1]
        have hrec := evalSteps_means hw hpl W ht hev hrel hK he (ops := ops) (j := j + 1) (env := r.2) (ρ := m.2) (fun m => ?_) hp
          (fun o ho => hpr o (by simp [ho])) h6 ?_
        · refine ⟨hrec.1, fun r' hr' => Frame.trans (fun slot q name g1 g2 => a2 slot q name g1 ?_ ?_) (hrec.2 r' hr')⟩
          · rintro ⟨m', rest, e1⟩
            refine g2 ⟨m', rest ++ [.blk j], ?_⟩
            rw [e1, hpo]; simp
          · intro n hn e1
            rw [hpl.next_block hw he hop] at hn
            exact g2 ⟨.blk (j + 1), [], by rw [e1, hpl.blk e he (j + 1) n hn]; rfl⟩
        · have := hb (m + 1)
          rw [List.getElem?_cons_succ] at this
          rw [this]
          congr 1; omega
        · intro hne
          obtain ⟨n, rest, e1⟩ := List.exists_cons_of_ne_nil hne
          have hn : (A.blocks e)[j + 1]? = some n := by
            have := hb 1
            rw [e1] at this
            exact this.symm
          have hpn := hpl.blk e he (j + 1) n hn
          have hnx : A.next op = some n := by rw [hpl.next_block hw he hop]; exact hn
          refine ⟨env_near (hen1.keeps h7) rfl fun i name hi => ?_, ?_⟩
          · rw [← hpn] at hi
            exact h8 i n name hi (hw.block_op e n (List.mem_of_getElem? hn)) hnx
          · rw [← hpn]; exact a3 K hr1' n hnx
      | err => rw [hm] at h5'; exact h5'.elim
      | stuck => rw [hm] at h5'; exact h5'.elim
      | more => rw [hm] at h5'; exact h5'.elim
    | err =>
      rw [hres] at h5'
      cases hm : stepMeans A Q M op x ρ with
      | err => exact ⟨rfl, fun _ h => (by cases h)⟩
      | ok m => rw [hm] at h5'; exact h5'.elim
      | stuck => rw [hm] at h5'; exact h5'.elim
      | more => rw [hm] at h5'; exact h5'.elim
    | stuck => rw [hres] at h5; exact h5.elim
    | more => rw [hres] at h5; exact h5.elim

theorem evalExpr_means {names : List String} (hw : A.Wf names) (hpl : A.Placed) (W : World A I E s D H) (ht : Told A E Q s D) :
    ∀ (f k : Nat), k ≤ f → EvRel A E s D H k (evalExpr A E s f) (exprMeans A Q f)
  | 0, k, hk => by
    intro e t u hd
    exfalso
    obtain rfl : k = 0 := by omega
    obtain ⟨op, ops, h⟩ := List.exists_cons_of_ne_nil (hw.blocks e hd.mem)
    have := hd.prior op (by rw [h]; simp)
    simp [S.prior] at this
  | f + 1, k, hk => by
    intro e t u hd K hK x env ρ hx he hr
    have hen : EnvOk A E s D K (.blk 0 :: A.place e) env := env_near he rfl fun j name hj => absurd hj (W.first j _ name)
    have hr' : ValsAre A D K (.blk 0 :: A.place e) ρ env := by
      intro name slot q h1 h2 h3
      cases h1 with
      | here hl => exact absurd hl.1 (W.first slot _ name)
      | up hno hp hres => cases hp; exact hr name slot q hres h2 h3
    have h0 := evalSteps_fine hw hpl W (k := k) (fun k' hk' => evalExpr_fine hw hpl W f k' (by omega)) hK hd.mem (j := 0)
      (fun m => by rw [Nat.zero_add]) hd.pipe hd.prior hx fun _ => hen
    have h1 := evalSteps_means hw hpl W ht (k := k) (fun k' hk' => evalExpr_fine hw hpl W f k' (by omega))
      (fun k' hk' => evalExpr_means hw hpl W ht f k' (by omega)) hK hd.mem (j := 0)
      (fun m => by rw [Nat.zero_add]) hd.pipe hd.prior hx fun _ => ⟨hen, hr'⟩
    have e1 : evalExpr A E s (f + 1) e x env = evalSteps A E s (evalExpr A E s f) (A.blocks e) x env := by
      show evalStack A E s (evalExpr A E s f) e x env = _
      unfold evalStack
      rw [if_pos (by rw [ty_of_settled hd.inp, hx])]
      cases hres : evalSteps A E s (evalExpr A E s f) (A.blocks e) x env with
      | ok r =>
        rw [hres] at h0
        dsimp only
        rw [if_pos (by rw [ty_of_settled hd.out, h0.1])]
      | err => rfl
      | stuck => rfl
      | more => rfl
    rw [e1]
    exact h1

end
end Verif.Comp
