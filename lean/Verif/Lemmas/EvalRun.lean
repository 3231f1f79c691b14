import Verif.Spec.Eval
import Verif.Lemmas.CompCalls
import Verif.Props.Locals
/-! Evaluating a program whose compiled blocks hold what they should. -/
namespace Verif.Comp
open Verif
set_option linter.unusedSectionVars false
variable {T V : Type} [DecidableEq T]

/-! ### What compiled blocks hold -/

/-- The blocks compiled before the one with this number. -/
def S.prior (s : S T) (k : Nat) : List Nat := (s.codes.take k).map (·.1)

/-- A node for which a block may have variables: an argument of it, or the next block. -/
def Near (A : Ast T) (op n : Nat) : Prop := n ∈ A.args op ∨ A.next op = some n

/-- The parameters of these definitions can be seen, and all other variables. -/
def Vis (A : Ast T) (K : List Nat) (q : Loc.Node) : Prop := ∀ d ∈ A.defs, q = A.place (A.body d) → d ∈ K

/-- The expression goes from one type to the other by blocks that are among these. -/
structure Done (A : Ast T) (s : S T) (prior : List Nat) (e : Nat) (t u : T) : Prop where
  mem : e ∈ A.exprs
  inp : Ty.Settled (s.tg.kn e .inp) t
  out : Ty.Settled (s.tg.kn e .out) u
  pipe : Pipe s.steps (A.blocks e) t u
  prior : ∀ op ∈ A.blocks e, op ∈ prior

/-- The variable in this place can be seen at this node. -/
def Seen (A : Ast T) (D : List Scope.DefAt) (K : List Nat) (slot : Nat) (p : Loc.Node) : Prop :=
  ∃ q name, D[slot]? = some (q, name) ∧ Loc.Anc q p ∧ Vis A K q

def HoldOk (A : Ast T) (E : Exec T V) (s : S T) (D : List Scope.DefAt) (K prior : List Nat) (a : Argument T) : Hold T → Prop
  | .lit n => E.ty (E.lit n) = a.out
  | .input => a.inp = a.out
  | .var slot t => t = a.out ∧ Seen A D K slot (A.place a.node)
  | .expr e => e = a.node ∧ Done A s prior e a.inp a.out

structure HeldOk (A : Ast T) (E : Exec T V) (s : S T) (D : List Scope.DefAt) (K prior : List Nat) (op : Nat) (a : Argument T) : Prop where
  node : a.node ∈ A.args op
  hold : HoldOk A E s D K prior a a.hold
  slot : ∀ slot t, a.hold = .var slot t → s.slots[slot]? = some t

structure VarOk (A : Ast T) (s : S T) (x : Variable T) : Prop where
  want : x.ty = x.want
  slot : ∀ n slot, x.site = some (n, slot) → s.slots[slot]? = some x.ty

inductive CodeOk (A : Ast T) (I : Builtins T) (E : Exec T V) (s : S T) (D : List Scope.DefAt) (K prior : List Nat) (op : Nat) (t u : T) :
    Code T → Prop
  | builtin (i : Nat) (args : List (Argument T)) (vars : List (Variable T))
      (act : ∀ x, E.ty x = t → Behaves A E.ty u args vars [] (E.act i op t u args vars x))
      (hargs : ∀ a ∈ args, HeldOk A E s D K prior op a) (hvars : ∀ x ∈ vars, VarOk A s x)
      (covers : ∀ (j n : Nat) name, D[j]? = some (A.place n, name) → Near A op n → ∃ x ∈ vars, x.site = some (n, j)) :
      CodeOk A I E s D K prior op t u (.builtin i args vars)
  | call (d : Nat) (params : List ((Nat × T) × Argument T)) (body : Done A s prior (A.body d) t u) (hd : d ∈ A.defs)
      (hparams : ∀ p ∈ params, HeldOk A E s D K prior op p.2 ∧ p.2.inp = t ∧ p.2.out = p.1.2 ∧ s.slots[p.1.1]? = some p.1.2)
      (sets : ∀ (j : Nat) name, D[j]? = some (A.place (A.body d), name) → d ∈ K → ∃ p ∈ params, p.1.1 = j)
      (hnone : ∀ (j n : Nat) name, D[j]? = some (A.place n, name) → ¬ Near A op n) :
      CodeOk A I E s D K prior op t u (.call d params)

/-- All compiled blocks hold what they should. `D` are the variables with the nodes where they are defined, in order; `H` are
the definitions whose parameters were in place when the block was compiled. -/
structure World (A : Ast T) (I : Builtins T) (E : Exec T V) (s : S T) (D : List Scope.DefAt) (H : List (List Nat)) : Prop where
  codes : s.codes.map (fun x => (x.1, x.2.1, x.2.2.1)) = s.steps
  nodup : (s.steps.map (·.1)).Nodup
  hist : H.length = s.codes.length
  mono : ∀ (k k' : Nat) K K', k ≤ k' → H[k]? = some K → H[k']? = some K' → ∀ d ∈ K, d ∈ K'
  ok : ∀ (k : Nat) x K, s.codes[k]? = some x → H[k]? = some K → CodeOk A I E s D K (s.prior k) x.1 x.2.1 x.2.2.1 x.2.2.2
  first : ∀ (i : Nat) p name, D[i]? ≠ some (.blk 0 :: p, name)

/-! ### Environments -/

/-- The variable has a value of its type. -/
def Okay (E : Exec T V) (s : S T) (env : List V) (i : Nat) : Prop := ∃ v, env[i]? = some v ∧ s.slots[i]? = some (E.ty v)

/-- The variables that can be seen have values of their types. -/
structure EnvOk (A : Ast T) (E : Exec T V) (s : S T) (D : List Scope.DefAt) (K : List Nat) (p : Loc.Node) (env : List V) : Prop where
  length : env.length = s.slots.length
  okay : ∀ i, Seen A D K i p → Okay E s env i

structure Keeps (E : Exec T V) (s : S T) (env env' : List V) : Prop where
  length : env'.length = env.length
  okay : ∀ i, Okay E s env i → Okay E s env' i

def Fine (E : Exec T V) (s : S T) (u : T) (env : List V) (P : List V → Prop) : Res (V × List V) → Prop
  | .ok r => E.ty r.1 = u ∧ Keeps E s env r.2 ∧ P r.2
  | .err => True
  | .stuck => False
  | .more => False

def FineV (E : Exec T V) (u : T) : Res V → Prop
  | .ok v => E.ty v = u
  | .err => True
  | .stuck => False
  | .more => False

/-- Expressions of blocks compiled before the one with this number are evaluated. -/
def EvOk (A : Ast T) (E : Exec T V) (s : S T) (D : List Scope.DefAt) (H : List (List Nat)) (k : Nat) (ev : Evals V) : Prop :=
  ∀ e t u, Done A s (s.prior k) e t u → ∀ K, (∀ (k' : Nat) K', k' < k → H[k']? = some K' → ∀ d ∈ K', d ∈ K) →
    ∀ x env, E.ty x = t → EnvOk A E s D K (A.place e) env → Fine E s u env (fun _ => True) (ev e x env)

section
variable {A : Ast T} {I : Builtins T} {E : Exec T V} {s : S T} {D : List Scope.DefAt} {H : List (List Nat)}

theorem Keeps.refl (env : List V) : Keeps E s env env := ⟨rfl, fun _ h => h⟩

theorem Keeps.trans {a b c : List V} (h : Keeps E s a b) (h' : Keeps E s b c) : Keeps E s a c :=
  ⟨h'.length.trans h.length, fun i hi => h'.okay i (h.okay i hi)⟩

theorem EnvOk.keeps {K : List Nat} {p : Loc.Node} {env env' : List V} (h : EnvOk A E s D K p env) (hk : Keeps E s env env') :
    EnvOk A E s D K p env' := ⟨hk.length.trans h.length, fun i hi => hk.okay i (h.okay i hi)⟩

theorem Fine.mono {u : T} {a b : List V} {P Q : List V → Prop} (hk : Keeps E s a b) (hp : ∀ e, P e → Q e) : ∀ {r : Res (V × List V)},
    Fine E s u b P r → Fine E s u a Q r
  | .ok _, h => ⟨h.1, hk.trans h.2.1, hp _ h.2.2⟩
  | .err, _ => trivial

/-! ### Arguments and variables -/

theorem checked_fine {a : Argument T} {v : V} (h : E.ty v = a.out) : FineV E a.out (checked E.ty a v) := by
  unfold checked
  rw [if_pos h]; exact h

theorem resolveArg_fine {k : Nat} {ev : Evals V} (hev : EvOk A E s D H k ev) {K : List Nat}
    (hK : ∀ (k' : Nat) K', k' < k → H[k']? = some K' → ∀ d ∈ K', d ∈ K) {op : Nat} {a : Argument T}
    (ha : HeldOk A E s D K (s.prior k) op a) {x : V} {env : List V} (hx : E.ty x = a.inp) (he : EnvOk A E s D K (A.place a.node) env) :
    FineV E a.out (resolveArg E ev a x env) := by
  have h1 := ha.hold
  have h2 := ha.slot
  unfold resolveArg
  cases hh : a.hold with
  | lit n => rw [hh] at h1; exact checked_fine h1
  | input =>
    rw [hh] at h1
    dsimp only
    rw [if_pos hx]
    exact checked_fine (hx.trans h1)
  | var slot t =>
    rw [hh] at h1
    obtain ⟨e1, h3⟩ := h1
    obtain ⟨v, h4, h5⟩ := he.okay slot h3
    rw [h2 slot t hh] at h5
    injection h5 with h5
    simp only [h4]
    rw [if_pos h5.symm]
    exact checked_fine (h5.symm.trans e1)
  | expr e =>
    rw [hh] at h1
    obtain ⟨e1, h3⟩ := h1
    subst e1
    have h4 := hev _ _ _ h3 K hK x env hx he
    dsimp only
    cases hr : ev a.node x env with
    | ok r => rw [hr] at h4; exact checked_fine h4.1
    | err => trivial
    | stuck => rw [hr] at h4; exact h4.elim
    | more => rw [hr] at h4; exact h4.elim

theorem okay_set {env : List V} {slot : Nat} {v : V} (hl : slot < env.length) (hs : s.slots[slot]? = some (E.ty v)) :
    Keeps E s env (env.set slot v) ∧ Okay E s (env.set slot v) slot := by
  have h1 : Okay E s (env.set slot v) slot := ⟨v, by simp [hl], hs⟩
  refine ⟨⟨by simp, fun i hi => ?_⟩, h1⟩
  by_cases e : slot = i
  · subst e; exact h1
  · obtain ⟨w, h2, h3⟩ := hi
    exact ⟨w, by rw [List.getElem?_set_ne e]; exact h2, h3⟩

theorem setVar_fine {x : Variable T} (hx : VarOk A s x) {v : V} (hv : E.ty v = x.want) {env : List V} (hl : env.length = s.slots.length) :
    ∃ env', setVar E.ty x v env = some env' ∧ Keeps E s env env' ∧ ∀ n slot, x.site = some (n, slot) → Okay E s env' slot := by
  unfold setVar
  have ht : E.ty v = x.ty := hv.trans hx.want.symm
  rw [if_pos ht]
  cases hs : x.site with
  | none => exact ⟨env, rfl, .refl _, fun _ _ h => (by cases h)⟩
  | some y =>
    obtain ⟨n, slot⟩ := y
    have h1 := hx.slot n slot hs
    have h2 : slot < env.length := by rw [hl]; exact (List.getElem?_eq_some_iff.1 h1).1
    dsimp only
    rw [if_pos h2]
    rw [← ht] at h1
    obtain ⟨h3, h4⟩ := okay_set h2 h1
    refine ⟨_, rfl, h3, fun m slot' h => ?_⟩
    cases h; exact h4

theorem setVars_fine {vars : List (Variable T)} (hvars : ∀ x ∈ vars, VarOk A s x) : ∀ {sets : List (Nat × V)} {env : List V},
    (∀ p ∈ sets, ∃ y, vars[p.1]? = some y ∧ E.ty p.2 = y.want) → env.length = s.slots.length →
    ∃ env', setVars E.ty vars sets env = some env' ∧ Keeps E s env env' ∧
      ∀ j ∈ sets.map (·.1), ∀ y, vars[j]? = some y → ∀ n slot, y.site = some (n, slot) → Okay E s env' slot
  | [], env, _, _ => ⟨env, rfl, .refl _, fun _ h => (by cases h)⟩
  | (j, v) :: sets, env, h, hl => by
    obtain ⟨y, h1, h2⟩ := h (j, v) (by simp)
    obtain ⟨e1, h3, h4, h5⟩ := setVar_fine (hvars y (List.mem_of_getElem? h1)) h2 hl
    obtain ⟨e2, h6, h7, h8⟩ := setVars_fine hvars (sets := sets) (env := e1) (fun p hp => h p (by simp [hp])) (h4.length.trans hl)
    refine ⟨e2, ?_, h4.trans h7, fun i hi z hz n slot hn => ?_⟩
    · unfold setVars
      dsimp only at h1
      rw [h1]
      dsimp only
      rw [h3]
      exact h6
    · rcases List.mem_cons.1 hi with e | hi
      · dsimp only at e h1
        subst e
        rw [h1] at hz
        cases hz
        exact h7.okay _ (h5 n slot hn)
      · exact h8 i hi z hz n slot hn

/-! ### Built-in commands -/

/-- The variables set so far. -/
def SetIn (E : Exec T V) (s : S T) (vars : List (Variable T)) (done : List Nat) (env : List V) : Prop :=
  ∀ j ∈ done, ∀ y, vars[j]? = some y → ∀ n slot, y.site = some (n, slot) → Okay E s env slot

theorem SetIn.keeps {vars : List (Variable T)} {done : List Nat} {env env' : List V} (h : SetIn E s vars done env) (hk : Keeps E s env env') :
    SetIn E s vars done env' := fun j hj y hy n slot hn => hk.okay _ (h j hj y hy n slot hn)

/-- At a node next to the block there is what can be seen at the block, and the variables of the node. -/
theorem env_near {K : List Nat} {env : List V} {p q : Loc.Node} (he : EnvOk A E s D K p env) (hp : Loc.par q = some p)
    (hn : ∀ (j : Nat) name, D[j]? = some (q, name) → Okay E s env j) : EnvOk A E s D K q env := by
  refine ⟨he.length, fun i hi => ?_⟩
  obtain ⟨r, name, h1, h2, h3⟩ := hi
  cases h2 with
  | refl => exact hn i name h1
  | step hp' h2 =>
    rw [hp] at hp'
    injection hp' with hp'
    subst hp'
    exact he.okay i ⟨r, name, h1, h2, h3⟩

theorem runAct_fine {names : List String} (hw : A.Wf names) {k : Nat} {ev : Evals V} (hev : EvOk A E s D H k ev) {K : List Nat}
    (hK : ∀ (k' : Nat) K', k' < k → H[k']? = some K' → ∀ d ∈ K', d ∈ K) {op : Nat} {u : T} {args : List (Argument T)} {vars : List (Variable T)}
    (hargs : ∀ a ∈ args, HeldOk A E s D K (s.prior k) op a) (hvars : ∀ x ∈ vars, VarOk A s x)
    (covers : ∀ (j n : Nat) name, D[j]? = some (A.place n, name) → Near A op n → ∃ x ∈ vars, x.site = some (n, j)) :
    ∀ (act : Act V) (done : List Nat) (env : List V), Behaves A E.ty u args vars done act → EnvOk A E s D K (A.place op) env →
    SetIn E s vars done env →
    Fine E s u env (fun env' => ∀ (j n : Nat) name, D[j]? = some (A.place n, name) → n ∈ A.ops → A.next op = some n → Okay E s env' j)
      (runAct E ev args vars act env) := by
  have cov : ∀ {done : List Nat} {env : List V} {n : Nat}, SetIn E s vars done env → AllSet vars done n → Near A op n →
      ∀ (j : Nat) name, D[j]? = some (A.place n, name) → Okay E s env j := by
    intro done env n h1 h2 h3 j name h4
    obtain ⟨x, h5, h6⟩ := covers j n name h4 h3
    obtain ⟨i, h7, y, h8, h9⟩ := h2 x h5 j h6
    exact h1 i h7 y h8 n j h9
  intro act
  induction act with
  | done v =>
    intro done env hb he hs
    unfold runAct
    exact ⟨hb.1, .refl _, fun j n name h1 h2 h3 => cov hs (hb.2 n h2) (.inr h3) j name h1⟩
  | fail => intro done env _ _ _; unfold runAct; trivial
  | wrong => intro done env hb _ _; exact hb.elim
  | set j v next ih =>
    intro done env hb he hs
    obtain ⟨⟨x, h1, h2⟩, hb⟩ := hb
    obtain ⟨env', h3, h4, h5⟩ := setVars_fine hvars (sets := [(j, v)]) (env := env)
      (fun p hp => by rw [List.mem_singleton.1 hp]; exact ⟨x, h1, h2⟩) he.length
    unfold runAct
    rw [h3]
    dsimp only
    refine Fine.mono h4 (fun _ h => h) (ih (j :: done) env' hb (he.keeps h4) fun i hi y hy n slot hn => ?_)
    rcases List.mem_cons.1 hi with e | hi
    · subst e; exact h5 i (by simp) y hy n slot hn
    · exact h4.okay _ (hs i hi y hy n slot hn)
  | resolve m sets x next ih =>
    intro done env hb he hs
    obtain ⟨h1, ⟨a, h2, h3, h4, h5⟩, h6⟩ := hb
    obtain ⟨inner, h7, h8, h9⟩ := setVars_fine hvars h1 he.length
    have ha := hargs a (List.mem_of_getElem? h2)
    obtain ⟨i, hi⟩ := hw.arg_place op a.node ha.node
    have hin : EnvOk A E s D K (A.place a.node) inner := by
      refine env_near (he.keeps h8) (by rw [hi]; rfl) (cov ?_ h4 (.inl ha.node))
      intro i hi y hy n slot hn
      rcases List.mem_append.1 hi with hi | hi
      · exact h9 i hi y hy n slot hn
      · exact h8.okay _ (hs i hi y hy n slot hn)
    have hr := resolveArg_fine hev hK ha h3 hin
    unfold runAct
    rw [h2]
    dsimp only
    rw [h7]
    dsimp only
    cases hres : resolveArg E ev a x inner with
    | ok v => rw [hres] at hr; exact ih _ done env (h5 v hr) he hs
    | err => exact ih _ done env h6 he hs
    | stuck => rw [hres] at hr; exact hr.elim
    | more => rw [hres] at hr; exact hr.elim

/-! ### Calls -/

theorem bindParams_fine {names : List String} (hw : A.Wf names) {k : Nat} {ev : Evals V} (hev : EvOk A E s D H k ev) {K : List Nat}
    (hK : ∀ (k' : Nat) K', k' < k → H[k']? = some K' → ∀ d ∈ K', d ∈ K) {op : Nat} {t : T}
    (hnone : ∀ (j n : Nat) name, D[j]? = some (A.place n, name) → ¬ Near A op n) {x : V} (hx : E.ty x = t) :
    ∀ {params : List ((Nat × T) × Argument T)} {env : List V},
    (∀ p ∈ params, HeldOk A E s D K (s.prior k) op p.2 ∧ p.2.inp = t ∧ p.2.out = p.1.2 ∧ s.slots[p.1.1]? = some p.1.2) →
    EnvOk A E s D K (A.place op) env →
    (∃ env', bindParams E ev x params env = .ok env' ∧ Keeps E s env env' ∧ ∀ p ∈ params, Okay E s env' p.1.1) ∨
    bindParams E ev x params env = .err
  | [], env, _, _ => .inl ⟨env, rfl, .refl _, fun _ h => (by cases h)⟩
  | p :: ps, env, h, he => by
    obtain ⟨h1, h2, h3, h4⟩ := h p (by simp)
    obtain ⟨i, hi⟩ := hw.arg_place op p.2.node h1.node
    have hin : EnvOk A E s D K (A.place p.2.node) env :=
      env_near he (by rw [hi]; rfl) fun j name hj => absurd (.inl h1.node) (hnone j _ name hj)
    have hr := resolveArg_fine hev hK h1 (hx.trans h2.symm) hin
    unfold bindParams
    cases hres : resolveArg E ev p.2 x env with
    | ok v =>
      rw [hres] at hr
      have hv : VarOk A s (⟨some (0, p.1.1), p.1.2, p.1.2⟩ : Variable T) := ⟨rfl, fun n slot e => by cases e; exact h4⟩
      obtain ⟨e1, h5, h6, h7⟩ := setVar_fine hv (v := v) (E := E) (hr.trans h3) he.length
      dsimp only
      rw [h5]
      dsimp only
      rcases bindParams_fine hw hev hK hnone hx (params := ps) (env := e1) (fun q hq => h q (by simp [hq])) (he.keeps h6) with
        ⟨e2, h8, h9, h10⟩ | h8
      · refine .inl ⟨e2, h8, h6.trans h9, fun q hq => ?_⟩
        rcases List.mem_cons.1 hq with e | hq
        · subst e; exact h9.okay _ (h7 0 _ rfl)
        · exact h10 q hq
      · exact .inr h8
    | err => exact .inr rfl
    | stuck => rw [hres] at hr; exact hr.elim
    | more => rw [hres] at hr; exact hr.elim

theorem invoked_fine {u : T} {env : List V} {P : List V → Prop} : ∀ {r : Res (V × List V)}, Fine E s u env P r → Fine E s u env P (invoked E.ty u r)
  | .ok r, h => by unfold invoked; dsimp only; rw [if_pos h.1]; exact h
  | .err, _ => trivial

/-! ### Blocks and expressions -/

theorem World.at (W : World A I E s D H) {k : Nat} {op : Nat} {t u : T} (ho : op ∈ s.prior k) (hs : (op, t, u) ∈ s.steps) :
    ∃ k' code K, k' < k ∧ s.codes[k']? = some (op, t, u, code) ∧ H[k']? = some K ∧ s.codeAt op = some (t, u, code) := by
  obtain ⟨x, hx, e⟩ := List.mem_map.1 ho
  obtain ⟨k', hk'⟩ := List.getElem?_of_mem hx
  rw [List.getElem?_take] at hk'
  split at hk'
  case isFalse => cases hk'
  rename_i hlt
  have hkeys : (s.codes.map (·.1)).Nodup := by
    have := W.nodup
    rw [← W.codes, List.map_map] at this
    exact this
  have hmem : x ∈ s.codes := List.mem_of_getElem? hk'
  have huniq : ∀ y ∈ s.codes, y.1 = x.1 → y = x := by
    intro y hy hyx
    obtain ⟨i, hi⟩ := List.getElem?_of_mem hy
    have h1 : (s.codes.map (·.1))[i]? = some x.1 := by rw [List.getElem?_map, hi]; exact congrArg some hyx
    have h2 : (s.codes.map (·.1))[k']? = some x.1 := by rw [List.getElem?_map, hk']; rfl
    have hi' : i < (s.codes.map (·.1)).length := (List.getElem?_eq_some_iff.1 h1).1
    have : i = k' := (List.getElem?_inj hi' hkeys).1 (h1.trans h2.symm)
    rw [this, hk'] at hi
    cases hi; rfl
  have hx2 : x = (op, t, u, x.2.2.2) := by
    rw [← W.codes] at hs
    obtain ⟨y, hy, ey⟩ := List.mem_map.1 hs
    have : y = x := huniq y hy (by rw [e]; exact congrArg (·.1) ey)
    subst this
    obtain ⟨a, b, c, d⟩ := y
    simp only [Prod.mk.injEq] at ey
    obtain ⟨rfl, rfl, rfl⟩ := ey
    rfl
  have hk2 : k' < H.length := by rw [W.hist]; exact (List.getElem?_eq_some_iff.1 hk').1
  refine ⟨k', x.2.2.2, H[k'], hlt, by rw [hk', ← hx2], List.getElem?_eq_getElem hk2, ?_⟩
  unfold S.codeAt
  cases hf : s.codes.find? fun y => y.1 = op with
  | none => exact absurd (by simpa using e) (List.find?_eq_none.1 hf x hmem)
  | some y =>
    have h1 : y.1 = op := by simpa using List.find?_some hf
    have : y = x := huniq y (List.mem_of_find?_eq_some hf) (h1.trans e.symm)
    rw [this]
    exact congrArg (fun z : Nat × T × T × Code T => some z.2) hx2

theorem evalStep_fine {names : List String} (hw : A.Wf names) (hpl : A.Placed) (W : World A I E s D H) {k : Nat} {ev : Evals V}
    (hev : EvOk A E s D H k ev) {op : Nat} {t u : T} {code : Code T} {K : List Nat} (hc : s.codes[k]? = some (op, t, u, code))
    (hH : H[k]? = some K) (hat : s.codeAt op = some (t, u, code)) {x : V} {env : List V} (hx : E.ty x = t)
    (he : EnvOk A E s D K (A.place op) env) :
    Fine E s u env (fun env' => ∀ (j n : Nat) name, D[j]? = some (A.place n, name) → n ∈ A.ops → A.next op = some n → Okay E s env' j)
      (evalStep A E s ev op x env) := by
  have hK : ∀ (k' : Nat) K', k' < k → H[k']? = some K' → ∀ d ∈ K', d ∈ K := fun k' K' h1 h2 => W.mono k' k K' K (Nat.le_of_lt h1) h2 hH
  have hok := W.ok k _ K hc hH
  dsimp only at hok
  unfold evalStep
  rw [hat]
  dsimp only
  refine invoked_fine ?_
  cases hok with
  | builtin i args vars hact hargs hvars covers =>
    unfold runCode
    exact runAct_fine hw hev hK hargs hvars covers _ [] env (hact x hx) he fun _ h => (by cases h)
  | call d params body hd hparams sets hnone =>
    unfold runCode
    dsimp only
    rcases bindParams_fine hw hev hK hnone hx hparams he with ⟨e1, h1, h2, h3⟩ | h1
    · rw [h1]
      dsimp only
      obtain ⟨m, p, hb⟩ := hpl.body d hd
      have hin : EnvOk A E s D K (A.place (A.body d)) e1 := by
        refine ⟨h2.length.trans he.length, fun i hi => ?_⟩
        obtain ⟨q, name, h4, h5, h6⟩ := hi
        have e : q = A.place (A.body d) := by
          cases h5 with
          | refl => rfl
          | step hp _ => rw [hb] at hp; cases hp
        subst e
        obtain ⟨y, h7, h8⟩ := sets i name h4 (h6 d hd rfl)
        rw [← h8]; exact h3 y h7
      exact Fine.mono h2 (fun _ _ j n name h1 _ h3 => absurd (.inr h3) (hnone j n name h1)) (hev _ _ _ body K hK x e1 hx hin)
    · rw [h1]; trivial

theorem next_at {l : List Nat} : ∀ {j op : Nat}, l[j]? = some op → (∀ i, i < j → l[i]? ≠ some op) →
    (l.dropWhile (· ≠ op))[1]? = l[j + 1]? := by
  induction l with
  | nil => intro j op h; cases h
  | cons a l ih =>
    intro j op h hn
    cases j with
    | zero =>
      simp only [List.getElem?_cons_zero, Option.some.injEq] at h
      subst h
      rw [List.dropWhile_cons_of_neg (by simp)]
    | succ j =>
      simp only [List.getElem?_cons_succ] at h ⊢
      have : a ≠ op := fun e => hn 0 (by omega) (by simp [e])
      rw [List.dropWhile_cons_of_pos (by simpa using this)]
      exact ih h fun i hi h' => hn (i + 1) (by omega) (by simpa using h')

theorem Ast.Placed.parent_of {names : List String} (hw : A.Wf names) (hpl : A.Placed) {e j op : Nat} (he : e ∈ A.exprs)
    (h : (A.blocks e)[j]? = some op) : A.parent op = e := by
  have ho := hw.block_op e op (List.mem_of_getElem? h)
  obtain ⟨i, hi⟩ := List.getElem?_of_mem (hpl.parent op ho)
  have h1 := hpl.blk e he j op h
  rw [hpl.blk _ (hw.parent op ho) i op hi] at h1
  injection h1 with _ h1
  exact place_inj hw.places (hw.exprs_lt _ (hw.parent op ho)) (hw.exprs_lt _ he) h1

theorem Ast.Placed.once (hpl : A.Placed) {e : Nat} (he : e ∈ A.exprs) {i j op : Nat} (hi : (A.blocks e)[i]? = some op)
    (hj : (A.blocks e)[j]? = some op) : i = j := by
  have h1 := hpl.blk e he j op hj
  rw [hpl.blk e he i op hi] at h1
  injection h1 with h1 _
  injection h1

theorem Ast.Placed.next_block {names : List String} (hw : A.Wf names) (hpl : A.Placed) {e j op : Nat} (he : e ∈ A.exprs)
    (h : (A.blocks e)[j]? = some op) : A.next op = (A.blocks e)[j + 1]? := by
  unfold Ast.next
  rw [hpl.parent_of hw he h]
  exact next_at h fun i hi h' => by have := hpl.once he h' h; omega

theorem evalSteps_fine {names : List String} (hw : A.Wf names) (hpl : A.Placed) (W : World A I E s D H) {ev : Evals V} {k : Nat}
    (hev : ∀ k', k' < k → EvOk A E s D H k' ev) {K : List Nat} (hK : ∀ (k' : Nat) K', k' < k → H[k']? = some K' → ∀ d ∈ K', d ∈ K)
    {e : Nat} (he : e ∈ A.exprs) {u : T} : ∀ {ops : List Nat} {j : Nat} {t : T}, (∀ m, ops[m]? = (A.blocks e)[j + m]?) →
    Pipe s.steps ops t u → (∀ op ∈ ops, op ∈ s.prior k) → ∀ {x : V} {env : List V}, E.ty x = t →
    (ops ≠ [] → EnvOk A E s D K (.blk j :: A.place e) env) → Fine E s u env (fun _ => True) (evalSteps A E s ev ops x env)
  | [], j, t, _, hp, _, x, env, hx, _ => by
    cases hp
    exact ⟨hx, .refl _, trivial⟩
  | op :: ops, j, t, hb, hp, hpr, x, env, hx, hen => by
    cases hp with
    | @cons _ _ _ v _ hs hp =>
    have hop : (A.blocks e)[j]? = some op := (hb 0).symm
    obtain ⟨k', code, K', h1, h2, h3, h4⟩ := W.at (hpr op (by simp)) hs
    have hpo := hpl.blk e he j op hop
    have hen1 : EnvOk A E s D K' (A.place op) env := by
      have := hen (by simp)
      rw [← hpo] at this
      refine ⟨this.length, fun i hi => this.okay i ?_⟩
      obtain ⟨q, name, a1, a2, a3⟩ := hi
      exact ⟨q, name, a1, a2, fun d hd hq => hK k' K' h1 h3 d (a3 d hd hq)⟩
    have h5 := evalStep_fine hw hpl W (hev k' h1) h2 h3 h4 hx hen1
    unfold evalSteps
    cases hr : evalStep A E s ev op x env with
    | ok r =>
      rw [hr] at h5
      obtain ⟨h6, h7, h8⟩ := h5
      dsimp only
      refine Fine.mono h7 (fun _ h => h) (evalSteps_fine hw hpl W hev hK he (j := j + 1) (fun m => ?_) hp (fun o ho => hpr o (by simp [ho])) h6 ?_)
      · have := hb (m + 1)
        rw [List.getElem?_cons_succ] at this
        rw [this]
        congr 1; omega
      · intro hne
        have hen2 := hen (by simp)
        refine env_near (hen2.keeps h7) rfl fun i name hi => ?_
        obtain ⟨n, rest, e1⟩ := List.exists_cons_of_ne_nil hne
        have hn : (A.blocks e)[j + 1]? = some n := by
          have := hb 1
          rw [e1] at this
          exact this.symm
        have hpn := hpl.blk e he (j + 1) n hn
        rw [← hpn] at hi
        exact h8 i n name hi (hw.block_op e n (List.mem_of_getElem? hn)) (by rw [hpl.next_block hw he hop]; exact hn)
    | err => trivial
    | stuck => rw [hr] at h5; exact h5.elim
    | more => rw [hr] at h5; exact h5.elim

theorem evalExpr_fine {names : List String} (hw : A.Wf names) (hpl : A.Placed) (W : World A I E s D H) :
    ∀ (f k : Nat), k ≤ f → EvOk A E s D H k (evalExpr A E s f)
  | 0, k, hk => by
    intro e t u hd
    exfalso
    obtain rfl : k = 0 := by omega
    obtain ⟨op, ops, h⟩ := List.exists_cons_of_ne_nil (hw.blocks e hd.mem)
    have := hd.prior op (by rw [h]; simp)
    simp [S.prior] at this
  | f + 1, k, hk => by
    intro e t u hd K hK x env hx he
    unfold evalExpr evalStack
    rw [if_pos (by rw [ty_of_settled hd.inp, hx])]
    have hen : EnvOk A E s D K (.blk 0 :: A.place e) env := env_near he rfl fun j name hj => absurd hj (W.first j _ name)
    have h1 := evalSteps_fine hw hpl W (k := k) (fun k' hk' => evalExpr_fine hw hpl W f k' (by omega)) hK hd.mem (j := 0)
      (fun m => by rw [Nat.zero_add]) hd.pipe hd.prior hx fun _ => hen
    cases hr : evalSteps A E s (evalExpr A E s f) (A.blocks e) x env with
    | ok r =>
      rw [hr] at h1
      dsimp only
      rw [if_pos (by rw [ty_of_settled hd.out, h1.1])]
      exact h1
    | err => trivial
    | stuck => rw [hr] at h1; exact h1.elim
    | more => rw [hr] at h1; exact h1.elim

end

end Verif.Comp
