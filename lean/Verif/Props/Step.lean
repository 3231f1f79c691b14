import Verif.Spec.Lexical
import Verif.Props.Locals
/-! Compiled evaluation with slots is the lexical evaluation with names (C29, C30). -/
namespace Verif.Step
open Verif.Loc

variable {V W E : Type}

/-! ### C29: chains -/

/-- C29. A chain runs its first part and, if that gives a value, the rest with that value; otherwise it ends as the first
part did. -/
theorem chain (s t : List (Step V W E)) (x : V) (env : Env V) (w : W) :
    evalStack (s ++ t) x env w =
      match evalStack s x env w with
      | (.ok (v, env), w) => evalStack t v env w
      | (.err e, w) => (.err e, w)
      | (.panic, w) => (.panic, w) := by
  induction s generalizing x env w with
  | nil => simp [evalStack]
  | cons a s ih =>
    simp only [List.cons_append, evalStack]
    generalize evalStep a x env w = r
    match r with
    | (.ok (v, env), w) => exact ih v env w
    | (.err e, w) => rfl
    | (.panic, w) => rfl

/-- C29. After a block that fails nothing else runs: the outcome and the world are the same whatever follows. -/
theorem chain_fails (s t t' : List (Step V W E)) (x : V) (env : Env V) (w w' : W) (e : E)
    (h : evalStack s x env w = (.err e, w')) :
    evalStack (s ++ t) x env w = (.err e, w') ∧ evalStack (s ++ t') x env w = (.err e, w') := by
  rw [chain, chain, h]
  exact ⟨rfl, rfl⟩

/-! ### Ownership of slots -/

/-- The names of a finished graph of locals. -/
structure Good (nodes : List Node) (g : Names) (count : Nat) : Prop where
  closed : ∀ n ∈ nodes, ∀ p, par n = some p → p ∈ nodes
  look : ∀ n ∈ nodes, ∀ x, g.look n x = (g.own n x).or ((par n).bind fun p => g.look p x)
  inj : ∀ n n' x x' s, g.own n x = some (.var s) → g.own n' x' = some (.var s) → n = n' ∧ x = x'
  lt : ∀ n x s, g.own n x = some (.var s) → s < count

theorem Good.visible {nodes : List Node} {g : Names} {count : Nat} (hg : Good nodes g count) :
    ∀ (k : Nat) (n : Node), size n ≤ k → n ∈ nodes → ∀ x l, g.look n x = some l → ∃ m, Anc m n ∧ g.own m x = some l := by
  intro k
  induction k with
  | zero =>
    intro n hk hn x l hl
    rw [hg.look n hn x] at hl
    cases ho : g.own n x with
    | some l' => rw [ho] at hl; exact ⟨n, .refl n, by simpa [ho] using hl⟩
    | none =>
      rw [ho] at hl
      cases hp : par n with
      | none => rw [hp] at hl; simp at hl
      | some p => have := size_par hp; omega
  | succ k ih =>
    intro n hk hn x l hl
    rw [hg.look n hn x] at hl
    cases ho : g.own n x with
    | some l' => rw [ho] at hl; exact ⟨n, .refl n, by simpa [ho] using hl⟩
    | none =>
      rw [ho] at hl
      cases hp : par n with
      | none => rw [hp] at hl; simp at hl
      | some p =>
        have hs := size_par hp
        rw [hp] at hl
        obtain ⟨m, hm, ho'⟩ := ih p (by omega) (hg.closed n hn p hp) x l (by simpa using hl)
        exact ⟨m, .step hp hm, ho'⟩

theorem size_append (r p : Node) : size p + r.length ≤ size (r ++ p) := by
  induction r with
  | nil => simp
  | cons a r ih =>
    cases a <;> simp only [List.cons_append, size, List.length_cons] <;> omega

theorem size_strict {p n : Node} (h : p <:+ n) (hne : n ≠ p) : size p < size n := by
  obtain ⟨r, rfl⟩ := h
  have := size_append r p
  cases r with
  | nil => exact absurd rfl hne
  | cons a r => simp only [List.length_cons] at this; omega

/-- The slot belongs to a node below `p`, or to `p`. -/
def Under (g : Names) (p : Node) (s : Nat) : Prop := ∃ n x, g.own n x = some (.var s) ∧ p <:+ n

/-- The slot belongs to a node strictly below `p`. -/
def Below (g : Names) (p : Node) (s : Nat) : Prop := ∃ n x, g.own n x = some (.var s) ∧ p <:+ n ∧ n ≠ p

/-- The slots a block writes: below it, or of the next block. -/
def Mine (g : Names) (b : Node) (next : Option Node) (s : Nat) : Prop :=
  Below g b s ∨ ∃ n x, next = some n ∧ g.own n x = some (.var s)

/-- Only slots in `P` may have changed. -/
def Chgd (P : Nat → Prop) (env env' : Env V) : Prop := env'.length = env.length ∧ ∀ s, ¬ P s → env'[s]? = env[s]?

theorem Chgd.refl (P : Nat → Prop) (env : Env V) : Chgd P env env := ⟨rfl, fun _ _ => rfl⟩

theorem Chgd.trans {P : Nat → Prop} {a b c : Env V} (h : Chgd P a b) (h' : Chgd P b c) : Chgd P a c :=
  ⟨h'.1.trans h.1, fun s hs => (h'.2 s hs).trans (h.2 s hs)⟩

theorem Chgd.mono {P Q : Nat → Prop} {a b : Env V} (h : Chgd P a b) (hpq : ∀ s, P s → Q s) : Chgd Q a b :=
  ⟨h.1, fun s hs => h.2 s fun hp => hs (hpq s hp)⟩

theorem Chgd.set {P : Nat → Prop} (env : Env V) (s : Nat) (v : V) (hs : P s) : Chgd P env (env.set s v) := by
  refine ⟨by simp, fun t ht => ?_⟩
  rw [List.getElem?_set_ne]
  rintro rfl
  exact ht hs

/-! ### Frames: what a compiled block writes -/

mutual
def Writes (P : Nat → Prop) : Step V W E → Prop
  | .prim _ vars _ _ => ∀ s, some s ∈ vars → P s
  | .call ps body => (∀ q ∈ ps, P q.1) ∧ WritesL P body

def WritesL (P : Nat → Prop) : List (Step V W E) → Prop
  | [] => True
  | s :: ss => Writes P s ∧ WritesL P ss
end

theorem runProg_frame {P : Nat → Prop} (as : List (V → Env V → W → Out E V × W)) (vars : List (Option Nat))
    (hv : ∀ s, some s ∈ vars → P s) : ∀ (p : Prog V W E) (env : Env V) (w : W) (v : V) (env' : Env V) (w' : W),
    runProg as vars p env w = (.ok (v, env'), w') → Chgd P env env' := by
  intro p
  induction p with
  | ret v => intro env w v' env' w' h; simp only [runProg, Prod.mk.injEq, Out.ok.injEq] at h; rw [← h.1.2]; exact Chgd.refl P env
  | fail e => intro env w v' env' w' h; simp [runProg] at h
  | act f k ih =>
    intro env w v' env' w' h
    simp only [runProg] at h
    split at h
    · exact ih _ _ _ _ _ _ h
    · simp at h
  | resolve i x k ih =>
    intro env w v' env' w' h
    simp only [runProg] at h
    split at h
    · simp at h
    · split at h
      · exact ih _ _ _ _ _ _ h
      · exact ih _ _ _ _ _ _ h
      · simp at h
  | setv j v k ih =>
    intro env w v' env' w' h
    simp only [runProg] at h
    split at h
    · simp at h
    · exact ih _ _ _ _ _ h
    · rename_i s hs
      split at h
      · exact (Chgd.set env s v (hv s (List.mem_of_getElem? hs))).trans (ih _ _ _ _ _ h)
      · simp at h

theorem evalParams_frame {P : Nat → Prop} : ∀ (ps : List (Nat × Arg V W E)), (∀ q ∈ ps, P q.1) → ∀ (x : V) (env : Env V) (w : W)
    (env' : Env V) (w' : W), evalParams ps x env w = (.ok env', w') → Chgd P env env'
  | [], _, x, env, w, env', w', h => by
    simp only [evalParams, Prod.mk.injEq, Out.ok.injEq] at h; rw [← h.1]; exact Chgd.refl P env
  | (s, a) :: ps, hp, x, env, w, env', w', h => by
    simp only [evalParams] at h
    split at h
    · split at h
      · exact (Chgd.set env s _ (hp (s, a) (by simp))).trans (evalParams_frame ps (fun q hq => hp q (by simp [hq])) _ _ _ _ _ h)
      · simp at h
    · simp at h
    · simp at h

mutual
theorem evalStep_frame {P : Nat → Prop} : ∀ (s : Step V W E), Writes P s → ∀ (x : V) (env : Env V) (w : W) (v : V) (env' : Env V) (w' : W),
    evalStep s x env w = (.ok (v, env'), w') → Chgd P env env'
  | .prim args vars prog keep, hw, x, env, w, v, env', w', h => by
    simp only [evalStep] at h
    split at h
    · rename_i heq
      simp only [Prod.mk.injEq, Out.ok.injEq] at h
      obtain ⟨⟨-, h⟩, -⟩ := h
      rw [← h]
      split
      · exact runProg_frame _ _ (by simpa [Writes] using hw) _ _ _ _ _ _ heq
      · exact Chgd.refl P env
    · simp at h
    · simp at h
  | .call ps body, hw, x, env, w, v, env', w', h => by
    simp only [Writes] at hw
    simp only [evalStep] at h
    split at h
    · rename_i heq
      exact (evalParams_frame ps hw.1 _ _ _ _ _ heq).trans (evalStack_frame body hw.2 _ _ _ _ _ _ h)
    · simp at h
    · simp at h

theorem evalStack_frame {P : Nat → Prop} : ∀ (ss : List (Step V W E)), WritesL P ss → ∀ (x : V) (env : Env V) (w : W) (v : V) (env' : Env V) (w' : W),
    evalStack ss x env w = (.ok (v, env'), w') → Chgd P env env'
  | [], _, x, env, w, v, env', w', h => by
    simp only [evalStack, Prod.mk.injEq, Out.ok.injEq] at h; rw [← h.1.2]; exact Chgd.refl P env
  | s :: ss, hw, x, env, w, v, env', w', h => by
    simp only [WritesL] at hw
    simp only [evalStack] at h
    split at h
    · rename_i heq
      exact (evalStep_frame s hw.1 _ _ _ _ _ _ heq).trans (evalStack_frame ss hw.2 _ _ _ _ _ _ h)
    · simp at h
    · simp at h
end

mutual
theorem Writes.mono {P Q : Nat → Prop} (h : ∀ s, P s → Q s) : ∀ (s : Step V W E), Writes P s → Writes Q s
  | .prim _ vars _ _, hw => by simp only [Writes] at hw ⊢; exact fun s hs => h s (hw s hs)
  | .call ps body, hw => by
    simp only [Writes] at hw ⊢
    exact ⟨fun q hq => h _ (hw.1 q hq), WritesL.mono h body hw.2⟩

theorem WritesL.mono {P Q : Nat → Prop} (h : ∀ s, P s → Q s) : ∀ (ss : List (Step V W E)), WritesL P ss → WritesL Q ss
  | [], _ => trivial
  | s :: ss, hw => by
    simp only [WritesL] at hw ⊢
    exact ⟨Writes.mono h s hw.1, WritesL.mono h ss hw.2⟩
end

/-! ### Programs and their definitions -/

/-- A built-in command sets a variable before an argument can read it, and before it returns if it is for the blocks
after. -/
def Safe (nargs : Nat) (keys : List Lexical.Key) : Prog V W E → (Lexical.Key → Prop) → Prop
  | .ret _, S => ∀ x, (none, x) ∈ keys → S (none, x)
  | .fail _, _ => True
  | .act _ k, S => ∀ v, Safe nargs keys (k v) S
  | .resolve i _ k, S => i < nargs ∧ (∀ x, (some i, x) ∈ keys → S (some i, x)) ∧ ∀ r, Safe nargs keys (k r) S
  | .setv j _ k, S => ∃ key, keys[j]? = some key ∧ Safe nargs keys k fun key' => key' = key ∨ S key'

mutual
/-- The program is well-formed: built-in commands are safe, parameters have distinct names and an argument each, and `let`
does not name what is a lazy parameter there. -/
def OkArg (lazy : String → Prop) : SArg V W E → Prop
  | .lit _ => True
  | .var _ => True
  | .expr body => OkBlks lazy body

def OkArgs (lazy : Nat → String → Prop) (i : Nat) : List (SArg V W E) → Prop
  | [] => True
  | a :: as => OkArg (lazy i) a ∧ OkArgs lazy (i + 1) as

def OkBlk (lazy : String → Prop) : SBlk V W E → Prop
  | .prim args lets injs prog keep =>
    OkArgs (fun i x => lazy x ∧ (i, x) ∉ injs) 0 args ∧ (∀ t ∈ lets, ¬ lazy t.2) ∧ (∀ t ∈ injs, t.1 < args.length) ∧
      (∀ t ∈ lets, args.length ≤ t.1) ∧ (lets ≠ [] → keep = true) ∧
      ∀ x, Safe args.length (Lexical.keysOf lets injs) (prog x) fun _ => False
  | .call _ args params body =>
    OkArgs (fun _ => lazy) 0 args ∧ args.length = params.length ∧ (params.map (·.1)).Nodup ∧
      OkBlks (fun x => (x, true) ∈ params) body

def OkBlks (lazy : String → Prop) : List (SBlk V W E) → Prop
  | [] => True
  | b :: bs => OkBlk lazy b ∧ OkBlks (after lazy b) bs

/-- Which names are lazy parameters after a block. -/
def after (lazy : String → Prop) : SBlk V W E → String → Prop
  | .prim _ lets _ _ _, x => lazy x ∧ x ∉ lets.map (·.2)
  | .call _ _ _ _, x => lazy x
end

mutual
/-- The graph of locals has the definitions of the program, each where it belongs. -/
def HasArg (nodes : List Node) (g : Names) (p : Node) : SArg V W E → Prop
  | .lit _ => True
  | .var _ => True
  | .expr body => (∀ x, g.own (.blk 0 :: p) x = none) ∧ HasBlks nodes g p 0 body

def HasArgs (nodes : List Node) (g : Names) (b : Node) (i : Nat) : List (SArg V W E) → Prop
  | [] => True
  | a :: as => .arg i :: b ∈ nodes ∧ HasArg nodes g (.arg i :: b) a ∧ HasArgs nodes g b (i + 1) as

def HasBlk (nodes : List Node) (g : Names) (b : Node) (next : Option Node) : SBlk V W E → Prop
  | .prim args lets injs _ _ =>
    HasArgs nodes g b 0 args ∧
    (∀ i x l, i < args.length → g.own (.arg i :: b) x = some l → (i, x) ∈ injs) ∧
    (∀ t ∈ injs, ∃ s, g.own (.arg t.1 :: b) t.2 = some (.var s)) ∧
    (∀ t ∈ lets, .arg t.1 :: b ∈ nodes ∧ ∀ x, g.own (.arg t.1 :: b) x = none) ∧
    (∀ n, next = some n → (∀ x l, g.own n x = some l → x ∈ lets.map (·.2)) ∧ ∀ t ∈ lets, ∃ s, g.own n t.2 = some (.var s))
  | .call k args params body =>
    HasArgs nodes g b 0 args ∧
    (∀ i x, i < args.length → g.own (.arg i :: b) x = none) ∧
    (∀ n, next = some n → ∀ x, g.own n x = none) ∧
    .body k :: b ∈ nodes ∧
    (∀ x l, g.own (.body k :: b) x = some l → ∃ lz, (x, lz) ∈ params) ∧
    (∀ (i : Nat) x, params[i]? = some (x, true) → g.own (.body k :: b) x = some (.ptr (.arg i :: b))) ∧
    (∀ (i : Nat) x, params[i]? = some (x, false) → ∃ s, g.own (.body k :: b) x = some (.var s)) ∧
    (∀ x, g.own (.blk 0 :: .body k :: b) x = none) ∧
    HasBlks nodes g (.body k :: b) 0 body

def HasBlks (nodes : List Node) (g : Names) (p : Node) (j : Nat) : List (SBlk V W E) → Prop
  | [] => True
  | b :: bs => .blk j :: p ∈ nodes ∧ HasBlk nodes g (.blk j :: p) (if bs.isEmpty then none else some (.blk (j + 1) :: p)) b ∧
      HasBlks nodes g p (j + 1) bs
end

/-! ### What a compiled program writes -/

theorem mapOpt_some {α β : Type} {f : α → Option β} : ∀ {l : List α} {r : List β}, mapOpt f l = some r →
    r.length = l.length ∧ ∀ (i : Nat) a, l[i]? = some a → ∃ b, r[i]? = some b ∧ f a = some b
  | [], r, h => by simp only [mapOpt, Option.some.injEq] at h; subst h; simp
  | a :: l, r, h => by
    simp only [mapOpt] at h
    split at h
    · rename_i b bs h1 h2
      simp only [Option.some.injEq] at h; subst h
      obtain ⟨i1, i2⟩ := mapOpt_some h2
      refine ⟨by simp [i1], fun i a' ha => ?_⟩
      cases i with
      | zero => simp only [List.getElem?_cons_zero, Option.some.injEq] at ha; subst ha; exact ⟨b, by simp, h1⟩
      | succ i => simpa using i2 i a' (by simpa using ha)
    · simp at h

theorem mapOpt_mem {α β : Type} {f : α → Option β} {l : List α} {r : List β} (h : mapOpt f l = some r) {b : β} (hb : b ∈ r) :
    ∃ a ∈ l, f a = some b := by
  obtain ⟨hl, hf⟩ := mapOpt_some h
  obtain ⟨i, hi⟩ := List.getElem?_of_mem hb
  have hlt : i < l.length := by rw [← hl]; exact (List.getElem?_eq_some_iff.1 hi).1
  have e : l[i]? = some l[i] := List.getElem?_eq_getElem hlt
  obtain ⟨b', hb', hf'⟩ := hf i _ e
  rw [hi] at hb'; cases hb'
  exact ⟨l[i], List.getElem_mem hlt, hf'⟩

theorem varSlot_some {g : Names} {n : Node} {x : String} {s : Nat} (h : varSlot g n x = some s) : g.own n x = some (.var s) := by
  unfold varSlot at h
  split at h
  · simp only [Option.some.injEq] at h; subst h; assumption
  · cases h

theorem slotAt_some {g : Names} {x : String} {next : Option Node} {s : Nat} (h : slotAt g x next = some (some s)) :
    ∃ n, next = some n ∧ g.own n x = some (.var s) := by
  cases next with
  | none => simp [slotAt] at h
  | some n =>
    simp only [slotAt, Option.map_eq_some_iff, Option.some.injEq] at h
    obtain ⟨s', h1, rfl⟩ := h
    exact ⟨n, rfl, varSlot_some h1⟩

theorem injSlot_some {g : Names} {b : Node} {t : Nat × String} {s : Nat} (h : injSlot g b t = some (some s)) :
    g.own (.arg t.1 :: b) t.2 = some (.var s) := by
  simp only [injSlot, Option.map_eq_some_iff, Option.some.injEq] at h
  obtain ⟨s', h1, rfl⟩ := h
  exact varSlot_some h1

/-- The names that are lazy parameters at a node are among `lazy`. -/
def LazyOk (g : Names) (p : Node) (lazy : String → Prop) : Prop := ∀ x to, g.look p x = some (.ptr to) → lazy x

theorem letSlot_plain {nodes : List Node} {g : Names} {count : Nat} (hg : Good nodes g count) {Δ : Ptrs V W E} {b : Node}
    {next : Option Node} {t : Nat × String} {lazy : String → Prop} (hl : LazyOk g b lazy) (hn : .arg t.1 :: b ∈ nodes)
    (ho : ∀ x, g.own (.arg t.1 :: b) x = none) (ht : ¬ lazy t.2) : letSlot g Δ b next t = slotAt g t.2 next := by
  unfold letSlot
  have : g.look (.arg t.1 :: b) t.2 = g.look b t.2 := by rw [hg.look _ hn, ho]; simp [par]
  rw [this]
  split
  · rename_i to h; exact absurd (hl _ _ h) ht
  · rfl

theorem cParams_mem {g : Names} {n : Node} : ∀ {ps : List (String × Bool)} {as : List (Arg V W E)} {r : List (Nat × Arg V W E)},
    cParams g n ps as = some r → ∀ q ∈ r, ∃ x, g.own n x = some (.var q.1)
  | [], [], r, h, q, hq => by simp only [cParams, Option.some.injEq] at h; subst h; cases hq
  | [], _ :: _, r, h, q, hq => by simp [cParams] at h
  | (_, true) :: ps, _ :: as, r, h, q, hq => cParams_mem (ps := ps) (as := as) (by simpa [cParams] using h) q hq
  | (x, false) :: ps, a :: as, r, h, q, hq => by
    simp only [cParams] at h
    split at h
    · rename_i s r' h1 h2
      simp only [Option.some.injEq] at h; subst h
      rcases List.mem_cons.1 hq with rfl | hq
      · exact ⟨x, varSlot_some h1⟩
      · exact cParams_mem h2 q hq
    · cases h
  | (_, true) :: ps, [], r, h, q, hq => by simp [cParams] at h
  | (_, false) :: ps, [], r, h, q, hq => by simp [cParams] at h

theorem lazy_after {nodes : List Node} {g : Names} {count : Nat} (hg : Good nodes g count) {p : Node} {j : Nat} {lazy : String → Prop}
    (hl : LazyOk g (.blk j :: p) lazy) (b : SBlk V W E) (hn : .blk (j + 1) :: p ∈ nodes)
    (hb : HasBlk nodes g (.blk j :: p) (some (.blk (j + 1) :: p)) b) : LazyOk g (.blk (j + 1) :: p) (after lazy b) := by
  intro x to hx
  rw [hg.look _ hn] at hx
  cases b with
  | prim args lets injs prog keep =>
    simp only [HasBlk] at hb
    obtain ⟨-, -, -, -, hb⟩ := hb
    obtain ⟨h1, h2⟩ := hb _ rfl
    cases ho : g.own (.blk (j + 1) :: p) x with
    | some l =>
      obtain ⟨t, ht, rfl⟩ := List.mem_map.1 (h1 x l ho)
      obtain ⟨s, hs⟩ := h2 t ht
      rw [hs] at hx; simp at hx
    | none =>
      rw [ho] at hx
      simp only [after]
      refine ⟨hl x to (by simpa [par] using hx), fun hc => ?_⟩
      obtain ⟨t, ht, rfl⟩ := List.mem_map.1 hc
      obtain ⟨s, hs⟩ := h2 t ht
      rw [hs] at ho; cases ho
  | call k args params body =>
    simp only [HasBlk] at hb
    rw [hb.2.2.1 _ rfl x] at hx
    exact hl x to (by simpa [par] using hx)

theorem lazy_body {nodes : List Node} {g : Names} {count : Nat} (hg : Good nodes g count) {b : Node} {k : Nat}
    {params : List (String × Bool)} (hn : .body k :: b ∈ nodes) (hnd : (params.map (·.1)).Nodup)
    (h1 : ∀ x l, g.own (.body k :: b) x = some l → ∃ lz, (x, lz) ∈ params)
    (h2 : ∀ (i : Nat) x, params[i]? = some (x, false) → ∃ s, g.own (.body k :: b) x = some (.var s)) :
    LazyOk g (.body k :: b) fun x => (x, true) ∈ params := by
  intro x to hx
  rw [hg.look _ hn] at hx
  cases ho : g.own (.body k :: b) x with
  | none => rw [ho] at hx; simp [par] at hx
  | some l =>
    obtain ⟨lz, hlz⟩ := h1 x l ho
    cases lz with
    | true => exact hlz
    | false =>
      obtain ⟨i, hi⟩ := List.getElem?_of_mem hlz
      obtain ⟨s, hs⟩ := h2 i x hi
      rw [hs] at hx; simp at hx

theorem lazy_first {nodes : List Node} {g : Names} {count : Nat} (hg : Good nodes g count) {p : Node} {lazy : String → Prop}
    (hl : LazyOk g p lazy) (hn : .blk 0 :: p ∈ nodes) (ho : ∀ x, g.own (.blk 0 :: p) x = none) : LazyOk g (.blk 0 :: p) lazy := by
  intro x to hx
  rw [hg.look _ hn, ho] at hx
  exact hl x to (by simpa [par] using hx)

theorem below_cons {g : Names} {p : Node} {m : Mark} {s : Nat} (h : Under g (m :: p) s) : Below g p s := by
  obtain ⟨n, x, h1, h2⟩ := h
  refine ⟨n, x, h1, (List.suffix_cons m p).trans h2, ?_⟩
  rintro rfl
  have := h2.length_le
  simp only [List.length_cons] at this
  omega

theorem Below.under {g : Names} {p : Node} {s : Nat} (h : Below g p s) : Under g p s := by
  obtain ⟨n, x, h1, h2, -⟩ := h; exact ⟨n, x, h1, h2⟩

theorem HasBlks.first {nodes : List Node} {g : Names} {p : Node} {j : Nat} : ∀ {src : List (SBlk V W E)}, HasBlks nodes g p j src →
    src ≠ [] → .blk j :: p ∈ nodes
  | [], _, h => absurd rfl h
  | _ :: _, h, _ => by simp only [HasBlks] at h; exact h.1

mutual
theorem cBlk_writes {nodes : List Node} {g : Names} {count : Nat} (hg : Good nodes g count) : ∀ (src : SBlk V W E) (Δ : Ptrs V W E)
    (b : Node) (next : Option Node) (lazy : String → Prop) (st : Step V W E), LazyOk g b lazy → OkBlk lazy src →
    HasBlk nodes g b next src → cBlk g Δ b next src = some st → Writes (Mine g b next) st
  | .prim args lets injs prog keep, Δ, b, next, lazy, st, hl, hok, hhas, hc => by
    simp only [OkBlk] at hok
    simp only [HasBlk] at hhas
    simp only [cBlk] at hc
    split at hc
    · rename_i as ls js h1 h2 h3
      simp only [Option.some.injEq] at hc; subst hc
      simp only [Writes]
      intro s hs
      rcases List.mem_append.1 hs with hs | hs
      · obtain ⟨t, ht, hf⟩ := mapOpt_mem h2 hs
        rw [letSlot_plain hg hl (hhas.2.2.2.1 t ht).1 (hhas.2.2.2.1 t ht).2 (hok.2.1 t ht)] at hf
        obtain ⟨n, hn, ho⟩ := slotAt_some hf
        exact .inr ⟨n, _, hn, ho⟩
      · obtain ⟨t, ht, hf⟩ := mapOpt_mem h3 hs
        refine .inl ⟨.arg t.1 :: b, t.2, injSlot_some hf, List.suffix_cons _ _, by simp⟩
    · cases hc
  | .call k args params body, Δ, b, next, lazy, st, hl, hok, hhas, hc => by
    simp only [OkBlk] at hok
    simp only [HasBlk] at hhas
    simp only [cBlk] at hc
    split at hc
    · cases hc
    · rename_i as h1
      split at hc
      · rename_i ps ss h2 h3
        simp only [Option.some.injEq] at hc; subst hc
        simp only [Writes]
        refine ⟨fun q hq => ?_, ?_⟩
        · obtain ⟨x, hx⟩ := cParams_mem h2 q hq
          exact .inl ⟨_, x, hx, List.suffix_cons _ _, by simp⟩
        · have hlz := lazy_body hg hhas.2.2.2.1 hok.2.2.1 hhas.2.2.2.2.1 hhas.2.2.2.2.2.2.1
          refine WritesL.mono (fun s hs => .inl (below_cons hs.under)) ss
            (cBlks_writes hg body _ (.body k :: b) 0 _ ss ?_ hok.2.2.2 hhas.2.2.2.2.2.2.2.2 h3)
          intro hne
          exact lazy_first hg hlz (HasBlks.first hhas.2.2.2.2.2.2.2.2 hne) hhas.2.2.2.2.2.2.2.1
      · cases hc

theorem cBlks_writes {nodes : List Node} {g : Names} {count : Nat} (hg : Good nodes g count) : ∀ (src : List (SBlk V W E)) (Δ : Ptrs V W E)
    (p : Node) (j : Nat) (lazy : String → Prop) (ss : List (Step V W E)), (src ≠ [] → LazyOk g (.blk j :: p) lazy) →
    OkBlks lazy src → HasBlks nodes g p j src → cBlks g Δ p j src = some ss → WritesL (Below g p) ss
  | [], Δ, p, j, lazy, ss, hl, hok, hhas, hc => by
    simp only [cBlks, Option.some.injEq] at hc; subst hc; trivial
  | b :: bs, Δ, p, j, lazy, ss, hl, hok, hhas, hc => by
    simp only [OkBlks] at hok
    simp only [HasBlks] at hhas
    simp only [cBlks] at hc
    split at hc
    · rename_i s ss' h1 h2
      simp only [Option.some.injEq] at hc; subst hc
      simp only [WritesL]
      refine ⟨Writes.mono ?_ s (cBlk_writes hg b Δ _ _ lazy s (hl (by simp)) hok.1 hhas.2.1 h1), ?_⟩
      · rintro t (ht | ⟨n, x, hn, ho⟩)
        · exact below_cons ht.under
        · split at hn
          · cases hn
          · simp only [Option.some.injEq] at hn; subst hn
            exact ⟨_, x, ho, List.suffix_cons _ _, by simp⟩
      · refine cBlks_writes hg bs Δ p (j + 1) (after lazy b) ss' ?_ hok.2 hhas.2.2 h2
        intro hne
        cases bs with
        | nil => exact absurd rfl hne
        | cons b' bs => exact lazy_after hg (hl (by simp)) b (HasBlks.first hhas.2.2 hne) (by simpa using hhas.2.1)
    · cases hc
end

/-! ### Simulation -/

/-- Two evaluations end alike. -/
def Same {α β : Type} (R : α → β → Prop) : Out E α × W → Out E β × W → Prop
  | (.ok a, w), (.ok b, w') => w = w' ∧ R a b
  | (.err e, w), (.err e', w') => e = e' ∧ w = w'
  | _, _ => False

theorem Same.ok {α β : Type} {R : α → β → Prop} {r : Out E α × W} {b : β} {w : W} (h : Same R r (.ok b, w)) :
    ∃ a, r = (.ok a, w) ∧ R a b := by
  match r, h with
  | (.ok a, _), ⟨rfl, h⟩ => exact ⟨a, rfl, h⟩

theorem Same.err {α β : Type} {R : α → β → Prop} {r : Out E α × W} {e : E} {w : W} (h : Same R r (.err e, w)) :
    r = ((.err e, w) : Out E α × W) := by
  match r, h with
  | (.err _, _), ⟨rfl, rfl⟩ => rfl

theorem Same.panic {α β : Type} {R : α → β → Prop} {r : Out E α × W} {w : W} (h : Same R r ((.panic, w) : Out E β × W)) : False := by
  match r, h with
  | (.ok _, _), h => exact h
  | (.err _, _), h => exact h
  | (.panic, _), h => exact h

/-- The lexical environment at a node and the slots say the same. Lazy parameters stay right while slots below the body of
their call change. -/
structure Sim (g : Names) (Δ : Ptrs V W E) (B p : Node) (ρ : Lexical.LEnv V W E) (env : Env V) : Prop where
  under : B <:+ p
  var : ∀ x s, g.look p x = some (.var s) → ∃ v, ρ x = some (.val v) ∧ env[s]? = some v
  ptr : ∀ x to, g.look p x = some (.ptr to) → ∃ f e, ρ x = some (.thunk f) ∧ Δ to = some e ∧
    ∀ env', Chgd (Under g B) env env' → ∀ i w, Same Eq (evalArg e.arg i env' w) (f i w)

/-- Changes that a node cannot see do not matter. -/
theorem Sim.move {nodes : List Node} {g : Names} {count : Nat} (hg : Good nodes g count) {Δ : Ptrs V W E} {B p : Node}
    {ρ : Lexical.LEnv V W E} {env env' : Env V} (h : Sim g Δ B p ρ env) (hp : p ∈ nodes) {P : Nat → Prop} (hc : Chgd P env env')
    (hP : ∀ s, P s → Under g B s ∧ ∀ m x, g.own m x = some (.var s) → ¬ Anc m p) : Sim g Δ B p ρ env' where
  under := h.under
  var x s hx := by
    obtain ⟨v, h1, h2⟩ := h.var x s hx
    obtain ⟨m, hm, ho⟩ := hg.visible (size p) p (Nat.le_refl _) hp x _ hx
    refine ⟨v, h1, ?_⟩
    rw [hc.2 s fun hs => (hP s hs).2 m x ho hm]
    exact h2
  ptr x to hx := by
    obtain ⟨f, e, h1, h2, h3⟩ := h.ptr x to hx
    exact ⟨f, e, h1, h2, fun env'' h'' => h3 env'' ((hc.mono fun s hs => (hP s hs).1).trans h'')⟩

structure Inv (keys : List Lexical.Key) (vars : List (Option Nat)) (env0 : Env V) (σ : Lexical.Key → Option V) (env : Env V) : Prop where
  chgd : Chgd (fun s => some s ∈ vars) env0 env
  vals : ∀ (j s : Nat) key v, vars[j]? = some (some s) → keys[j]? = some key → σ key = some v → env[s]? = some v

theorem runProg_sim (as : List (V → Env V → W → Out E V × W)) (bs : List ((Lexical.Key → Option V) → V → W → Out E V × W))
    (keys : List Lexical.Key) (vars : List (Option Nat)) (env0 : Env V) (nargs : Nat) (ha : as.length = nargs) (hb : bs.length = nargs)
    (hkv : vars.length = keys.length)
    (hk1 : ∀ (j j' : Nat) key, keys[j]? = some key → keys[j']? = some key → vars[j]? = vars[j']?)
    (hk2 : ∀ (j j' s : Nat), vars[j]? = some (some s) → vars[j']? = some (some s) → keys[j]? = keys[j']?)
    (hlt : ∀ s, some s ∈ vars → s < env0.length)
    (harg : ∀ (i : Nat) f h, as[i]? = some f → bs[i]? = some h → ∀ σ env, Inv keys vars env0 σ env →
      (∀ x, (some i, x) ∈ keys → (σ (some i, x)).isSome) → ∀ x w, Same Eq (f x env w) (h σ x w)) :
    ∀ (p : Prog V W E) (S : Lexical.Key → Prop) (σ : Lexical.Key → Option V) (env : Env V) (w : W), Safe nargs keys p S →
      (∀ key, S key → (σ key).isSome) → Inv keys vars env0 σ env →
      Same (fun (a : V × Env V) (b : V × (Lexical.Key → Option V)) => a.1 = b.1 ∧ Inv keys vars env0 b.2 a.2 ∧
        ∀ x, (none, x) ∈ keys → (b.2 (none, x)).isSome) (runProg as vars p env w) (Lexical.runProg bs keys p σ w) := by
  intro p
  induction p with
  | ret v =>
    intro S σ env w hs hS hi
    simp only [Safe] at hs
    exact ⟨rfl, rfl, hi, fun x hx => hS _ (hs x hx)⟩
  | fail e => intro S σ env w hs hS hi; exact ⟨rfl, rfl⟩
  | act f k ih =>
    intro S σ env w hs hS hi
    simp only [Safe] at hs
    simp only [runProg, Lexical.runProg]
    generalize f w = r
    match r with
    | (w, .ok v) => exact ih v S σ env w (hs v) hS hi
    | (w, .error e) => exact ⟨rfl, rfl⟩
  | resolve i x k ih =>
    intro S σ env w hs hS hi
    simp only [Safe] at hs
    obtain ⟨h1, h2, h3⟩ := hs
    have e1 : as[i]? = some as[i] := List.getElem?_eq_getElem (by omega)
    have e2 : bs[i]? = some bs[i] := List.getElem?_eq_getElem (by omega)
    simp only [runProg, Lexical.runProg, e1, e2]
    have hr := harg i _ _ e1 e2 σ env hi (fun x hx => hS _ (h2 x hx)) x w
    generalize as[i] x env w = r at hr ⊢
    generalize bs[i] σ x w = r' at hr ⊢
    match r, r', hr with
    | (.ok a, w), (.ok _, _), ⟨rfl, rfl⟩ => exact ih _ S σ env w (h3 _) hS hi
    | (.err e, w), (.err _, _), ⟨rfl, rfl⟩ => exact ih _ S σ env w (h3 _) hS hi
  | setv j v k ih =>
    intro S σ env w hs hS hi
    simp only [Safe] at hs
    obtain ⟨key, hkey, hs⟩ := hs
    have hjlt : j < vars.length := by rw [hkv]; exact (List.getElem?_eq_some_iff.1 hkey).1
    have e1 : vars[j]? = some vars[j] := List.getElem?_eq_getElem hjlt
    simp only [runProg, Lexical.runProg, hkey, e1]
    have hS' : ∀ key', key' = key ∨ S key' → ((fun key' => if key' = key then some v else σ key') key').isSome := by
      intro key' h
      by_cases hk : key' = key
      · simp [hk]
      · simp only [hk, if_false]; exact hS key' (h.resolve_left hk)
    cases hvj : vars[j] with
    | none =>
      dsimp only
      refine ih _ _ env w hs hS' ⟨hi.chgd, ?_⟩
      intro j' s' key' v' h1 h2 h3
      by_cases hk : key' = key
      · subst hk
        have := hk1 j j' key' hkey h2
        rw [e1, hvj, h1] at this
        simp at this
      · rw [if_neg hk] at h3; exact hi.vals j' s' key' v' h1 h2 h3
    | some s =>
      rw [hvj] at e1
      have hmem : some s ∈ vars := List.mem_of_getElem? e1
      have hslt : s < env.length := by rw [hi.chgd.1]; exact hlt s hmem
      dsimp only
      rw [if_pos hslt]
      refine ih _ _ (env.set s v) w hs hS' ⟨hi.chgd.trans (Chgd.set env s v hmem), ?_⟩
      intro j' s' key' v' h1 h2 h3
      by_cases hk : key' = key
      · subst hk
        rw [if_pos rfl] at h3
        have := hk1 j j' key' hkey h2
        rw [e1, h1] at this
        simp only [Option.some.injEq] at this h3
        subst this; subst h3
        rw [List.getElem?_set_self hslt]
      · rw [if_neg hk] at h3
        have hne : s ≠ s' := by
          rintro rfl
          have := hk2 j j' s e1 h1
          rw [hkey, h2] at this
          simp only [Option.some.injEq] at this
          exact hk this.symm
        rw [List.getElem?_set_ne hne]
        exact hi.vals j' s' key' v' h1 h2 h3

theorem evalArgs_get : ∀ (cs : List (Arg V W E)) (k : Nat), (evalArgs cs)[k]? = cs[k]?.map evalArg
  | [], k => by simp [evalArgs]
  | c :: cs, 0 => by simp [evalArgs]
  | c :: cs, k + 1 => by simpa [evalArgs] using evalArgs_get cs k

theorem args_get (ρ : Lexical.LEnv V W E) : ∀ (as : List (SArg V W E)) (k : Nat), (Lexical.args ρ as)[k]? = as[k]?.map (Lexical.arg ρ)
  | [], k => by simp [Lexical.args]
  | a :: as, 0 => by simp [Lexical.args]
  | a :: as, k + 1 => by simpa [Lexical.args] using args_get ρ as k

theorem kargs_get (ρ : Lexical.LEnv V W E) (keys : List Lexical.Key) : ∀ (as : List (SArg V W E)) (n k : Nat),
    (Lexical.kargs ρ keys n as)[k]? = as[k]?.map fun a σ => Lexical.arg (Lexical.bindKeys keys σ (some (n + k)) ρ) a
  | [], n, k => by simp [Lexical.kargs]
  | a :: as, n, 0 => by simp [Lexical.kargs]
  | a :: as, n, k + 1 => by
    have := kargs_get ρ keys as (n + 1) k
    simpa [Lexical.kargs, Nat.add_assoc, Nat.add_comm 1 k] using this

theorem kargs_length (ρ : Lexical.LEnv V W E) (keys : List Lexical.Key) : ∀ (as : List (SArg V W E)) (n : Nat),
    (Lexical.kargs ρ keys n as).length = as.length
  | [], n => by simp [Lexical.kargs]
  | a :: as, n => by simp [Lexical.kargs, kargs_length ρ keys as (n + 1)]

theorem length_of_get {α β : Type} {l : List α} {r : List β} {f : α → β} (h : ∀ k : Nat, r[k]? = l[k]?.map f) : r.length = l.length := by
  apply Nat.le_antisymm
  · apply Nat.le_of_not_lt
    intro hlt
    have := h l.length
    rw [List.getElem?_eq_getElem hlt] at this
    simp at this
  · apply Nat.le_of_not_lt
    intro hlt
    have := h r.length
    rw [List.getElem?_eq_getElem hlt] at this
    simp at this

/-- Going from a block to an argument or to the next block, with the variables declared there. -/
theorem Sim.child {nodes : List Node} {g : Names} {count : Nat} (hg : Good nodes g count) {Δ : Ptrs V W E} {B b n : Node}
    {ρ : Lexical.LEnv V W E} {env : Env V} (h : Sim g Δ B b ρ env) (hn : n ∈ nodes) (hpar : par n = some b) (hB : B <:+ n)
    (keys : List Lexical.Key) (σ : Lexical.Key → Option V) (a : Option Nat) (h1 : ∀ x l, g.own n x = some l → (a, x) ∈ keys)
    (h2 : ∀ x, (a, x) ∈ keys → ∃ s v, g.own n x = some (.var s) ∧ σ (a, x) = some v ∧ env[s]? = some v) :
    Sim g Δ B n (Lexical.bindKeys keys σ a ρ) env where
  under := hB
  var x s hx := by
    rw [hg.look n hn, hpar] at hx
    unfold Lexical.bindKeys
    cases ho : g.own n x with
    | some l =>
      have hk := h1 x l ho
      obtain ⟨s', v, e1, e2, e3⟩ := h2 x hk
      rw [if_pos hk, e2]
      rw [e1] at hx
      simp only [Option.some_or, Option.some.injEq, Local.var.injEq] at hx
      subst hx
      exact ⟨v, rfl, e3⟩
    | none =>
      have hk : (a, x) ∉ keys := fun hk => by obtain ⟨s', v, e1, -⟩ := h2 x hk; rw [e1] at ho; cases ho
      rw [if_neg hk]
      rw [ho] at hx
      exact h.var x s (by simpa using hx)
  ptr x to hx := by
    rw [hg.look n hn, hpar] at hx
    unfold Lexical.bindKeys
    cases ho : g.own n x with
    | some l =>
      have hk := h1 x l ho
      obtain ⟨s', v, e1, e2, e3⟩ := h2 x hk
      rw [e1] at hx
      simp at hx
    | none =>
      have hk : (a, x) ∉ keys := fun hk => by obtain ⟨s', v, e1, -⟩ := h2 x hk; rw [e1] at ho; cases ho
      rw [if_neg hk]
      rw [ho] at hx
      exact h.ptr x to (by simpa using hx)

theorem Sim.plain {nodes : List Node} {g : Names} {count : Nat} (hg : Good nodes g count) {Δ : Ptrs V W E} {B b n : Node}
    {ρ : Lexical.LEnv V W E} {env : Env V} (h : Sim g Δ B b ρ env) (hn : n ∈ nodes) (hpar : par n = some b) (hB : B <:+ n)
    (ho : ∀ x, g.own n x = none) : Sim g Δ B n ρ env := by
  have := Sim.child hg h hn hpar hB [] (fun _ => none) none (fun x l hl => by rw [ho] at hl; cases hl) (fun x hx => by cases hx)
  have e : Lexical.bindKeys (V := V) (W := W) (E := E) [] (fun _ => none) none ρ = ρ := by
    funext x; simp [Lexical.bindKeys]
  rw [e] at this
  exact this

/-- What a block writes is below the body of the enclosing call, and the block itself cannot see it. -/
theorem mine_hidden {nodes : List Node} {g : Names} {count : Nat} (hg : Good nodes g count) {B p : Node} {j : Nat} {next : Option Node}
    (hB : B <:+ p) (hnext : ∀ n, next = some n → n = .blk (j + 1) :: p) {s : Nat} (h : Mine g (.blk j :: p) next s) :
    Under g B s ∧ ∀ m x, g.own m x = some (.var s) → ¬ Anc m (.blk j :: p) := by
  rcases h with ⟨n, x, ho, hsuf, hne⟩ | ⟨n, x, hn, ho⟩
  · refine ⟨⟨n, x, ho, hB.trans ((List.suffix_cons _ _).trans hsuf)⟩, fun m y hm ha => ?_⟩
    obtain ⟨rfl, -⟩ := hg.inj _ _ _ _ _ hm ho
    have h1 := ha.size_le
    have h2 := size_strict hsuf hne
    omega
  · have := hnext n hn
    subst this
    refine ⟨⟨_, x, ho, hB.trans (List.suffix_cons _ _)⟩, fun m y hm ha => ?_⟩
    obtain ⟨rfl, -⟩ := hg.inj _ _ _ _ _ hm ho
    have h1 := ha.size_le
    simp only [size] at h1
    omega

/-- Slots below the body of a call are invisible to its arguments. -/
theorem body_hidden {nodes : List Node} {g : Names} {count : Nat} (hg : Good nodes g count) {B b : Node} {k i : Nat}
    (hB : B <:+ b) {s : Nat} (h : Under g (.body k :: b) s) :
    Under g B s ∧ ∀ m x, g.own m x = some (.var s) → ¬ Anc m (.arg i :: b) := by
  obtain ⟨n, x, ho, hsuf⟩ := h
  refine ⟨⟨n, x, ho, hB.trans ((List.suffix_cons _ _).trans hsuf)⟩, fun m y hm ha => ?_⟩
  obtain ⟨rfl, -⟩ := hg.inj _ _ _ _ _ hm ho
  have h1 := ha.size_le
  by_cases hne : m = .body k :: b
  · subst hne
    cases ha with
    | step hp ha =>
      simp only [par, Option.some.injEq] at hp; subst hp
      have := ha.size_le
      simp only [size] at this
      omega
  · have h2 := size_strict hsuf hne
    simp only [size] at h1 h2
    omega

theorem params_sim {nodes : List Node} {g : Names} {count : Nat} (hg : Good nodes g count) (n : Node) (x : V) (env : Env V) (hlen : env.length = count) :
    ∀ (ps : List (String × Bool)) (fs : List (V → W → Out E V × W)) (cs : List (Arg V W E)) (r : List (Nat × Arg V W E))
      (ρ0 : Lexical.LEnv V W E) (env1 : Env V) (w : W), cParams g n ps cs = some r → fs.length = ps.length → (ps.map (·.1)).Nodup →
      (∀ (k : Nat) f c, fs[k]? = some f → cs[k]? = some c → ∀ env', Chgd (Under g n) env env' → ∀ i w, Same Eq (evalArg c i env' w) (f i w)) →
      Chgd (Under g n) env env1 →
      Same (fun (env' : Env V) (ρ' : Lexical.LEnv V W E) => Chgd (Under g n) env env' ∧ (∀ y, y ∉ ps.map (·.1) → ρ' y = ρ0 y) ∧
        (∀ s, (∀ y ∈ ps.map (·.1), g.own n y ≠ some (.var s)) → env'[s]? = env1[s]?) ∧
        (∀ (k : Nat) y, ps[k]? = some (y, false) → ∀ s, g.own n y = some (.var s) → ∃ v, ρ' y = some (.val v) ∧ env'[s]? = some v) ∧
        (∀ (k : Nat) y f, ps[k]? = some (y, true) → fs[k]? = some f → ρ' y = some (.thunk f)))
      (evalParams r x env1 w) (Lexical.bindParams ps fs x ρ0 w)
  | [], [], [], r, ρ0, env1, w, hr, _, _, _, hch => by
    simp only [cParams, Option.some.injEq] at hr; subst hr
    exact ⟨rfl, hch, fun _ _ => rfl, fun _ _ => rfl, by simp, by simp⟩
  | [], [], _ :: _, r, ρ0, env1, w, hr, _, _, _, hch => by simp [cParams] at hr
  | [], _ :: _, cs, r, ρ0, env1, w, hr, hl, _, _, hch => by simp at hl
  | _ :: _, [], cs, r, ρ0, env1, w, hr, hl, _, _, hch => by simp at hl
  | (y, true) :: ps, f :: fs, [], r, ρ0, env1, w, hr, hl, hnd, hargs, hch => by simp [cParams] at hr
  | (y, false) :: ps, f :: fs, [], r, ρ0, env1, w, hr, hl, hnd, hargs, hch => by simp [cParams] at hr
  | (y, true) :: ps, f :: fs, c :: cs, r, ρ0, env1, w, hr, hl, hnd, hargs, hch => by
    simp only [cParams] at hr
    simp only [List.map_cons, List.nodup_cons] at hnd
    have ih := params_sim hg n x env hlen ps fs cs r (fun z => if z = y then some (.thunk f) else ρ0 z) env1 w hr
      (by simpa using hl) hnd.2 (fun k f c hf hc => hargs (k + 1) f c (by simpa using hf) (by simpa using hc)) hch
    simp only [Lexical.bindParams]
    generalize evalParams r x env1 w = a at ih
    generalize Lexical.bindParams ps fs x _ w = b at ih
    match a, b, ih with
    | (.err _, _), (.err _, _), h => exact h
    | (.ok env', _), (.ok ρ', _), ⟨hw, h0, h1, h2, h3, h4⟩ =>
      refine ⟨hw, h0, ?_, ?_, ?_, ?_⟩
      · intro z hz
        simp only [List.map_cons, List.mem_cons, not_or] at hz
        rw [h1 z hz.2]; simp [hz.1]
      · intro s hs
        exact h2 s fun z hz => hs z (by simp [hz])
      · intro k z hk
        cases k with
        | zero => simp at hk
        | succ k => exact h3 k z (by simpa using hk)
      · intro k z f' hk hf
        cases k with
        | zero =>
          simp only [List.getElem?_cons_zero, Option.some.injEq, Prod.mk.injEq] at hk hf
          rw [← hk.1, h1 y hnd.1, ← hf]; simp
        | succ k => exact h4 k z f' (by simpa using hk) (by simpa using hf)
  | (y, false) :: ps, f :: fs, c :: cs, r, ρ0, env1, w, hr, hl, hnd, hargs, hch => by
    simp only [cParams] at hr
    split at hr
    · rename_i s r' hs hr'
      simp only [Option.some.injEq] at hr; subst hr
      simp only [List.map_cons, List.nodup_cons] at hnd
      have hown := varSlot_some hs
      simp only [evalParams, Lexical.bindParams]
      have ha := hargs 0 f c (by simp) (by simp) env1 hch x w
      generalize evalArg c x env1 w = a at ha
      generalize f x w = b at ha
      match a, b, ha with
      | (.err _, _), (.err _, _), h => exact h
      | (.ok v, w), (.ok _, _), ⟨rfl, rfl⟩ =>
        have hlt : s < env1.length := by rw [hch.1, hlen]; exact hg.lt _ _ _ hown
        dsimp only
        rw [if_pos hlt]
        have ih := params_sim hg n x env hlen ps fs cs r' (fun z => if z = y then some (.val v) else ρ0 z) (env1.set s v) w hr'
          (by simpa using hl) hnd.2 (fun k f c hf hc => hargs (k + 1) f c (by simpa using hf) (by simpa using hc))
          (hch.trans (Chgd.set env1 s v ⟨n, y, hown, List.suffix_refl _⟩))
        have hfresh : ∀ z ∈ ps.map (·.1), g.own n z ≠ some (.var s) := by
          intro z hz hzo
          obtain ⟨-, rfl⟩ := hg.inj _ _ _ _ _ hzo hown
          exact hnd.1 hz
        generalize evalParams r' x (env1.set s v) w = a at ih
        generalize Lexical.bindParams ps fs x _ w = b at ih
        match a, b, ih with
        | (.err _, _), (.err _, _), h => exact h
        | (.ok env', _), (.ok ρ', _), ⟨hw, h0, h1, h2, h3, h4⟩ =>
          refine ⟨hw, h0, ?_, ?_, ?_, ?_⟩
          · intro z hz
            simp only [List.map_cons, List.mem_cons, not_or] at hz
            rw [h1 z hz.2]; simp [hz.1]
          · intro t ht
            rw [h2 t fun z hz => ht z (by simp [hz]), List.getElem?_set_ne]
            rintro rfl
            exact ht y (by simp) hown
          · intro k z hk t ht
            cases k with
            | zero =>
              simp only [List.getElem?_cons_zero, Option.some.injEq, Prod.mk.injEq] at hk
              obtain ⟨rfl, -⟩ := hk
              rw [hown] at ht
              simp only [Option.some.injEq, Local.var.injEq] at ht; subst ht
              refine ⟨v, by rw [h1 y hnd.1]; simp, ?_⟩
              rw [h2 s hfresh, List.getElem?_set_self hlt]
            | succ k => exact h3 k z (by simpa using hk) t ht
          · intro k z f' hk hf
            cases k with
            | zero => simp at hk
            | succ k => exact h4 k z f' (by simpa using hk) (by simpa using hf)
    · cases hr

theorem lazy_arg {nodes : List Node} {g : Names} {count : Nat} (hg : Good nodes g count) {b : Node} {i : Nat} {lazy : String → Prop}
    (hl : LazyOk g b lazy) (hn : .arg i :: b ∈ nodes) (P : String → Prop)
    (h1 : ∀ x l, g.own (.arg i :: b) x = some l → P x) (h2 : ∀ x, P x → ∃ s, g.own (.arg i :: b) x = some (.var s)) :
    LazyOk g (.arg i :: b) fun x => lazy x ∧ ¬ P x := by
  intro x to hx
  rw [hg.look _ hn] at hx
  cases ho : g.own (.arg i :: b) x with
  | some l =>
    obtain ⟨s, hs⟩ := h2 x (h1 x l ho)
    rw [hs] at hx; simp at hx
  | none =>
    rw [ho] at hx
    refine ⟨hl x to (by simpa [par] using hx), fun hp => ?_⟩
    obtain ⟨s, hs⟩ := h2 x hp
    rw [hs] at ho; cases ho

theorem HasArgs.mem {nodes : List Node} {g : Names} {b : Node} : ∀ {as : List (SArg V W E)} {i : Nat}, HasArgs nodes g b i as →
    ∀ k, k < as.length → .arg (i + k) :: b ∈ nodes
  | [], i, _, k, hk => by simp at hk
  | a :: as, i, h, 0, hk => by simp only [HasArgs] at h; exact h.1
  | a :: as, i, h, k + 1, hk => by
    simp only [HasArgs] at h
    have := HasArgs.mem h.2.2 k (by simpa using hk)
    rwa [show i + 1 + k = i + (k + 1) by omega] at this

mutual
theorem arg_sim {nodes : List Node} {g : Names} {count : Nat} (hg : Good nodes g count) : ∀ (a : SArg V W E) (Δ : Ptrs V W E) (p : Node)
    (lazy : String → Prop) (c : Arg V W E), p ∈ nodes → LazyOk g p lazy → OkArg lazy a → HasArg nodes g p a → cArg g Δ p a = some c →
    ∀ (B : Node) (ρ : Lexical.LEnv V W E) (env : Env V), Sim g Δ B p ρ env → env.length = count → ∀ i w,
      Same Eq (evalArg c i env w) (Lexical.arg ρ a i w)
  | .lit v, Δ, p, lazy, c, hp, hl, hok, hhas, hc, B, ρ, env, hs, hlen, i, w => by
    simp only [cArg, Option.some.injEq] at hc; subst hc
    exact ⟨rfl, rfl⟩
  | .var x, Δ, p, lazy, c, hp, hl, hok, hhas, hc, B, ρ, env, hs, hlen, i, w => by
    simp only [cArg] at hc
    split at hc
    · rename_i s hlook
      simp only [Option.some.injEq] at hc; subst hc
      obtain ⟨v, h1, h2⟩ := hs.var x s hlook
      simp only [evalArg, Lexical.arg, h1, h2]
      exact ⟨rfl, rfl⟩
    · rename_i to hlook
      obtain ⟨f, e, h1, h2, h3⟩ := hs.ptr x to hlook
      rw [h2] at hc
      simp only [Option.map_some, Option.some.injEq] at hc; subst hc
      simp only [Lexical.arg, h1]
      exact h3 env (Chgd.refl _ _) i w
    · cases hc
  | .expr body, Δ, p, lazy, c, hp, hl, hok, hhas, hc, B, ρ, env, hs, hlen, i, w => by
    simp only [OkArg] at hok
    simp only [HasArg] at hhas
    simp only [cArg, Option.map_eq_some_iff] at hc
    obtain ⟨ss, hc, rfl⟩ := hc
    have := blks_sim hg body Δ p 0 lazy ss (fun hne => lazy_first hg hl (HasBlks.first hhas.2 hne) hhas.1) hok hhas.2 hc B ρ env hs.under
      (fun hne => Sim.plain hg hs (HasBlks.first hhas.2 hne) rfl (hs.under.trans (List.suffix_cons _ _)) hhas.1) hlen i w
    simp only [evalArg, Lexical.arg]
    generalize evalStack ss i env w = a at this
    generalize Lexical.blks ρ body i w = b at this
    match a, b, this with
    | (.ok (v, _), w), (.ok _, _), ⟨rfl, rfl⟩ => exact ⟨rfl, rfl⟩
    | (.err _, _), (.err _, _), h => exact h

theorem args_sim {nodes : List Node} {g : Names} {count : Nat} (hg : Good nodes g count) : ∀ (as : List (SArg V W E)) (Δ : Ptrs V W E) (b : Node)
    (i : Nat) (lazy : Nat → String → Prop) (cs : List (Arg V W E)), (∀ k, k < as.length → LazyOk g (.arg (i + k) :: b) (lazy (i + k))) →
    OkArgs lazy i as → HasArgs nodes g b i as → cArgs g Δ b i as = some cs → cs.length = as.length ∧
    ∀ (k : Nat) a c, as[k]? = some a → cs[k]? = some c → ∀ (B : Node) (ρ : Lexical.LEnv V W E) (env : Env V),
      Sim g Δ B (.arg (i + k) :: b) ρ env → env.length = count → ∀ x w, Same Eq (evalArg c x env w) (Lexical.arg ρ a x w)
  | [], Δ, b, i, lazy, cs, hl, hok, hhas, hc => by
    simp only [cArgs, Option.some.injEq] at hc; subst hc
    exact ⟨rfl, by simp⟩
  | a :: as, Δ, b, i, lazy, cs, hl, hok, hhas, hc => by
    simp only [OkArgs] at hok
    simp only [HasArgs] at hhas
    simp only [cArgs] at hc
    split at hc
    · rename_i c cs' h1 h2
      simp only [Option.some.injEq] at hc; subst hc
      have ih := args_sim hg as Δ b (i + 1) lazy cs' (fun k hk => by
        have := hl (k + 1) (by simpa using hk)
        rwa [show i + (k + 1) = i + 1 + k by omega] at this) hok.2 hhas.2.2 h2
      have h0 := arg_sim hg a Δ (.arg i :: b) (lazy i) c hhas.1 (hl 0 (by simp)) hok.1 hhas.2.1 h1
      refine ⟨by simp [ih.1], ?_⟩
      intro k a' c' ha hc
      cases k with
      | zero =>
        simp only [List.getElem?_cons_zero, Option.some.injEq] at ha hc
        subst ha; subst hc
        exact h0
      | succ k =>
        have := ih.2 k a' c' (by simpa using ha) (by simpa using hc)
        rwa [show i + 1 + k = i + (k + 1) by omega] at this
    · cases hc

theorem blk_sim {nodes : List Node} {g : Names} {count : Nat} (hg : Good nodes g count) : ∀ (src : SBlk V W E) (Δ : Ptrs V W E) (p : Node) (j : Nat)
    (next : Option Node) (lazy : String → Prop) (st : Step V W E), .blk j :: p ∈ nodes →
    (∀ n, next = some n → n = .blk (j + 1) :: p ∧ n ∈ nodes) → LazyOk g (.blk j :: p) lazy → OkBlk lazy src →
    HasBlk nodes g (.blk j :: p) next src → cBlk g Δ (.blk j :: p) next src = some st →
    ∀ (B : Node) (ρ : Lexical.LEnv V W E) (env : Env V), B <:+ p → Sim g Δ B (.blk j :: p) ρ env → env.length = count → ∀ x w,
      Same (fun (a : V × Env V) (r : V × Lexical.LEnv V W E) => a.1 = r.1 ∧ a.2.length = count ∧
        ∀ n, next = some n → Sim g Δ B n r.2 a.2) (evalStep st x env w) (Lexical.blk ρ src x w)
  | .prim args lets injs prog keep, Δ, p, j, next, lazy, st, hb, hnext, hl, hok, hhas, hc, B, ρ, env, hB, hs, hlen, x, w => by
    have hwr := cBlk_writes hg _ _ _ _ _ _ hl hok hhas hc
    simp only [OkBlk] at hok
    simp only [HasBlk] at hhas
    obtain ⟨ok1, ok2, ok3, ok4, ok5, ok6⟩ := hok
    obtain ⟨has1, has2, has3, has4, has5⟩ := hhas
    simp only [cBlk] at hc
    split at hc
    case h_2 => cases hc
    rename_i cs ls js hcs hls hjs
    simp only [Option.some.injEq] at hc; subst hc
    simp only [Writes] at hwr
    -- arguments
    have hla : ∀ k, k < args.length → LazyOk g (.arg (0 + k) :: .blk j :: p) fun x => lazy x ∧ (0 + k, x) ∉ injs := by
      intro k hk
      rw [Nat.zero_add]
      have hm := HasArgs.mem has1 k hk
      rw [Nat.zero_add] at hm
      exact lazy_arg hg hl hm (fun x => (k, x) ∈ injs) (fun x l => has2 k x l hk) fun x hx => has3 _ hx
    obtain ⟨hcl, hargs⟩ := args_sim hg args Δ (.blk j :: p) 0 _ cs hla ok1 has1 hcs
    -- keys and slots
    have kv : ∀ (i : Nat) key, (Lexical.keysOf lets injs)[i]? = some key → ∃ vo, (ls ++ js)[i]? = some vo ∧
        match key with
        | (none, y) => slotAt g y next = some vo
        | (some a, y) => ∃ s, vo = some s ∧ g.own (.arg a :: .blk j :: p) y = some (.var s) := by
      intro i key hkey
      obtain ⟨l1, f1⟩ := mapOpt_some hls
      obtain ⟨l2, f2⟩ := mapOpt_some hjs
      unfold Lexical.keysOf at hkey
      by_cases hi : i < lets.length
      · rw [List.getElem?_append_left (by simpa using hi), List.getElem?_map, Option.map_eq_some_iff] at hkey
        obtain ⟨t, ht, rfl⟩ := hkey
        obtain ⟨vo, hvo, hf⟩ := f1 i t ht
        refine ⟨vo, by rw [List.getElem?_append_left (by omega)]; exact hvo, ?_⟩
        have hm := List.mem_of_getElem? ht
        rw [letSlot_plain hg hl (has4 t hm).1 (has4 t hm).2 (ok2 t hm)] at hf
        exact hf
      · rw [List.getElem?_append_right (by simpa using hi), List.getElem?_map, Option.map_eq_some_iff] at hkey
        obtain ⟨t, ht, rfl⟩ := hkey
        simp only [List.length_map] at ht
        obtain ⟨vo, hvo, hf⟩ := f2 _ t ht
        refine ⟨vo, by rw [List.getElem?_append_right (by omega), l1]; exact hvo, ?_⟩
        cases vo with
        | none => simp [injSlot] at hf
        | some s => exact ⟨s, rfl, injSlot_some hf⟩
    have hkv : (ls ++ js).length = (Lexical.keysOf lets injs).length := by
      simp [Lexical.keysOf, (mapOpt_some hls).1, (mapOpt_some hjs).1]
    generalize hkeys : Lexical.keysOf lets injs = keys at *
    generalize hvars : ls ++ js = vars at *
    have hmemkey : ∀ key, key ∈ keys ↔ (∃ t ∈ lets, key = (none, t.2)) ∨ ∃ t ∈ injs, key = (some t.1, t.2) := by
      intro key
      rw [← hkeys]
      simp only [Lexical.keysOf, List.mem_append, List.mem_map]
      constructor
      · rintro (⟨t, ht, rfl⟩ | ⟨t, ht, rfl⟩)
        · exact .inl ⟨t, ht, rfl⟩
        · exact .inr ⟨t, ht, rfl⟩
      · rintro (⟨t, ht, rfl⟩ | ⟨t, ht, rfl⟩)
        · exact .inl ⟨t, ht, rfl⟩
        · exact .inr ⟨t, ht, rfl⟩
    have hk1 : ∀ (i i' : Nat) key, keys[i]? = some key → keys[i']? = some key → vars[i]? = vars[i']? := by
      intro i i' key h1 h2
      obtain ⟨vo, e1, f1⟩ := kv i key h1
      obtain ⟨vo', e2, f2⟩ := kv i' key h2
      rw [e1, e2]
      match key, f1, f2 with
      | (none, y), f1, f2 => rw [← f1, ← f2]
      | (some a, y), ⟨s, f1, g1⟩, ⟨s', f2, g2⟩ =>
        rw [g1] at g2
        simp only [Option.some.injEq, Local.var.injEq] at g2
        rw [f1, f2, g2]
    have hk2 : ∀ (i i' s : Nat), vars[i]? = some (some s) → vars[i']? = some (some s) → keys[i]? = keys[i']? := by
      intro i i' s h1 h2
      have l1 : i < keys.length := by rw [← hkv]; exact (List.getElem?_eq_some_iff.1 h1).1
      have l2 : i' < keys.length := by rw [← hkv]; exact (List.getElem?_eq_some_iff.1 h2).1
      have e1 : keys[i]? = some keys[i] := List.getElem?_eq_getElem l1
      have e2 : keys[i']? = some keys[i'] := List.getElem?_eq_getElem l2
      obtain ⟨vo, v1, f1⟩ := kv i _ e1
      obtain ⟨vo', v2, f2⟩ := kv i' _ e2
      rw [h1] at v1; rw [h2] at v2
      simp only [Option.some.injEq] at v1 v2
      subst v1; subst v2
      rw [e1, e2]
      generalize keys[i] = k1 at f1
      generalize keys[i'] = k2 at f2
      match k1, k2, f1, f2 with
      | (none, y), (none, y'), f1, f2 =>
        obtain ⟨n, hn, o1⟩ := slotAt_some f1
        obtain ⟨n', hn', o2⟩ := slotAt_some f2
        rw [(hg.inj _ _ _ _ _ o1 o2).2]
      | (none, y), (some a, y'), f1, ⟨s', f2, o2⟩ =>
        obtain ⟨n, hn, o1⟩ := slotAt_some f1
        simp only [Option.some.injEq] at f2; subst f2
        have := (hg.inj _ _ _ _ _ o1 o2).1
        rw [(hnext n hn).1] at this
        simp at this
      | (some a, y), (none, y'), ⟨s', f1, o1⟩, f2 =>
        obtain ⟨n, hn, o2⟩ := slotAt_some f2
        simp only [Option.some.injEq] at f1; subst f1
        have := (hg.inj _ _ _ _ _ o1 o2).1
        rw [(hnext n hn).1] at this
        simp at this
      | (some a, y), (some a', y'), ⟨s', f1, o1⟩, ⟨s'', f2, o2⟩ =>
        simp only [Option.some.injEq] at f1 f2; subst f1; subst f2
        obtain ⟨e, rfl⟩ := hg.inj _ _ _ _ _ o1 o2
        simp only [List.cons.injEq, Mark.arg.injEq, and_true] at e
        rw [e]
    have hlt : ∀ s, some s ∈ vars → s < env.length := by
      intro s hm
      rw [hlen]
      rcases hwr s hm with ⟨n, y, ho, -⟩ | ⟨n, y, -, ho⟩ <;> exact hg.lt _ _ _ ho
    have hmv : ∀ env', Chgd (fun s => some s ∈ vars) env env' → Sim g Δ B (.blk j :: p) ρ env' := fun env' h =>
      Sim.move hg hs hb h fun s hm => mine_hidden hg hB (fun n hn => (hnext n hn).1) (hwr s hm)
    have hfind : ∀ key v σ env', Inv keys vars env σ env' → key ∈ keys → σ key = some v → ∀ s,
        (match key with
        | (none, y) => slotAt g y next = some (some s)
        | (some a, y) => g.own (.arg a :: .blk j :: p) y = some (.var s)) → env'[s]? = some v := by
      intro key v σ env' hi hkey hσ s hslot
      obtain ⟨i, hki⟩ := List.getElem?_of_mem hkey
      obtain ⟨vo, e, f⟩ := kv i key hki
      have : vo = some s := by
        match key, f, hslot with
        | (none, y), f, hslot => dsimp only at hslot f; rw [f] at hslot; simpa using hslot
        | (some a, y), ⟨s', f, o⟩, hslot =>
          dsimp only at hslot
          rw [o] at hslot
          simp only [Option.some.injEq, Local.var.injEq] at hslot
          rw [f, hslot]
      subst this
      exact hi.vals i s key v e hki hσ
    have harg : ∀ (i : Nat) f h, (evalArgs cs)[i]? = some f → (Lexical.kargs ρ keys 0 args)[i]? = some h → ∀ σ env',
        Inv keys vars env σ env' → (∀ y, (some i, y) ∈ keys → (σ (some i, y)).isSome) → ∀ x w, Same Eq (f x env' w) (h σ x w) := by
      intro i f h hf hh σ env' hi hset x w
      rw [evalArgs_get, Option.map_eq_some_iff] at hf
      rw [kargs_get, Option.map_eq_some_iff] at hh
      obtain ⟨c, hci, rfl⟩ := hf
      obtain ⟨a, hai, rfl⟩ := hh
      have hilt : i < args.length := (List.getElem?_eq_some_iff.1 hai).1
      refine hargs i a c hai hci B _ env' ?_ (by rw [hi.chgd.1, hlen]) x w
      have hm := HasArgs.mem has1 i hilt
      rw [Nat.zero_add] at hm ⊢
      refine Sim.child hg (hmv env' hi.chgd) hm rfl (hB.trans ((List.suffix_cons _ _).trans (List.suffix_cons _ _))) keys σ (some i) ?_ ?_
      · intro y l ho
        exact (hmemkey _).2 (.inr ⟨(i, y), has2 i y l hilt ho, rfl⟩)
      · intro y hy
        rcases (hmemkey _).1 hy with ⟨t, -, e⟩ | ⟨t, ht, e⟩
        · simp at e
        · simp only [Prod.mk.injEq, Option.some.injEq] at e
          obtain ⟨s, ho⟩ := has3 t ht
          rw [← e.1, ← e.2] at ho
          obtain ⟨v, hv⟩ := Option.isSome_iff_exists.1 (hset y hy)
          exact ⟨s, v, ho, hv, hfind _ v σ env' hi hy hv s ho⟩
    have hrun := runProg_sim (evalArgs cs) (Lexical.kargs ρ keys 0 args) keys vars env args.length
      (by rw [length_of_get (evalArgs_get cs), hcl]) (kargs_length ρ keys args 0) hkv hk1 hk2 hlt harg
      (prog x) (fun _ => False) (fun _ => none) env w (ok6 x) (fun _ h => h.elim)
      ⟨Chgd.refl _ _, fun _ _ _ _ _ _ h => by cases h⟩
    simp only [evalStep, Lexical.blk, hkeys]
    generalize runProg (evalArgs cs) vars (prog x) env w = r at hrun
    generalize Lexical.runProg (Lexical.kargs ρ keys 0 args) keys (prog x) (fun _ => none) w = r' at hrun
    match r, r', hrun with
    | (.err _, _), (.err _, _), h => exact h
    | (.ok (v, env'), w), (.ok (_, σ), _), ⟨rfl, rfl, hi, hset⟩ =>
      refine ⟨rfl, rfl, ?_, ?_⟩
      · dsimp only
        split
        · rw [hi.chgd.1, hlen]
        · exact hlen
      · intro n hn
        obtain ⟨hn1, hn2⟩ := hnext n hn
        obtain ⟨o1, o2⟩ := has5 n hn
        have hBn : B <:+ n := by rw [hn1]; exact hB.trans (List.suffix_cons _ _)
        have hparn : par n = some (.blk j :: p) := by rw [hn1]; rfl
        dsimp only
        by_cases hk : keep = true
        · rw [if_pos hk]
          refine Sim.child hg (hmv env' hi.chgd) hn2 hparn hBn keys σ none ?_ ?_
          · intro y l ho
            obtain ⟨t, ht, rfl⟩ := List.mem_map.1 (o1 y l ho)
            exact (hmemkey _).2 (.inl ⟨t, ht, rfl⟩)
          · intro y hy
            rcases (hmemkey _).1 hy with ⟨t, ht, e⟩ | ⟨t, -, e⟩
            · simp only [Prod.mk.injEq, true_and] at e
              obtain ⟨s, ho⟩ := o2 t ht
              rw [← e] at ho
              obtain ⟨v', hv⟩ := Option.isSome_iff_exists.1 (hset y hy)
              refine ⟨s, v', ho, hv, hfind _ v' σ env' hi hy hv s ?_⟩
              simp only [hn, slotAt, varSlot, ho, Option.map_some]
            · simp at e
        · have hlets : lets = [] := by
            cases lets with
            | nil => rfl
            | cons t lets => exact absurd (ok5 (by simp)) hk
          rw [if_neg hk]
          refine Sim.child hg hs hn2 hparn hBn keys σ none ?_ ?_
          · intro y l ho
            have := o1 y l ho
            rw [hlets] at this
            cases this
          · intro y hy
            rcases (hmemkey _).1 hy with ⟨t, ht, e⟩ | ⟨t, -, e⟩
            · rw [hlets] at ht; cases ht
            · simp at e
  | .call k args params body, Δ, p, j, next, lazy, st, hb, hnext, hl, hok, hhas, hc, B, ρ, env, hB, hs, hlen, x, w => by
    have hwr := cBlk_writes hg _ _ _ _ _ _ hl hok hhas hc
    simp only [OkBlk] at hok
    simp only [HasBlk] at hhas
    obtain ⟨ok1, ok2, ok3, ok4⟩ := hok
    obtain ⟨has1, has2, has3, has4, has5, has6, has7, has8, has9⟩ := hhas
    simp only [cBlk] at hc
    split at hc
    · cases hc
    rename_i cs hcs
    split at hc
    case h_2 => cases hc
    rename_i ps ss hps hss
    simp only [Option.some.injEq] at hc; subst hc
    have hla : ∀ k, k < args.length → LazyOk g (.arg (0 + k) :: .blk j :: p) lazy := by
      intro k hk y to hy
      rw [Nat.zero_add] at hy
      have hm := HasArgs.mem has1 k hk
      rw [Nat.zero_add] at hm
      rw [hg.look _ hm, has2 k y hk] at hy
      exact hl y to (by simpa [par] using hy)
    obtain ⟨hcl, hargs⟩ := args_sim hg args Δ (.blk j :: p) 0 _ cs hla ok1 has1 hcs
    have harg : ∀ (i : Nat) a c, args[i]? = some a → cs[i]? = some c → ∀ env', Chgd (Under g (.body k :: .blk j :: p)) env env' → ∀ x w,
        Same Eq (evalArg c x env' w) (Lexical.arg ρ a x w) := by
      intro i a c ha hc env' hch x w
      have hilt : i < args.length := (List.getElem?_eq_some_iff.1 ha).1
      have hm := HasArgs.mem has1 i hilt
      refine hargs i a c ha hc B ρ env' ?_ (by rw [hch.1, hlen]) x w
      rw [Nat.zero_add] at hm ⊢
      have hB' : B <:+ .blk j :: p := hB.trans (List.suffix_cons _ _)
      exact Sim.move hg (Sim.plain hg hs hm rfl (hB'.trans (List.suffix_cons _ _)) fun y => has2 i y hilt) hm hch
        fun s h => body_hidden hg hB' h
    have hpar := params_sim hg (.body k :: .blk j :: p) x env hlen params (Lexical.args ρ args) cs ps (fun _ => none) env w hps
      (by rw [length_of_get (args_get ρ args), ok2]) ok3 (fun i f c hf hc => by
        rw [args_get, Option.map_eq_some_iff] at hf
        obtain ⟨a, ha, rfl⟩ := hf
        exact harg i a c ha hc) (Chgd.refl _ _)
    have hstep : ∀ v env'' w', evalStep (.call ps ss) x env w = (.ok (v, env''), w') → ∀ n, next = some n → Sim g Δ B n ρ env'' := by
      intro v env'' w' he n hn
      obtain ⟨hn1, hn2⟩ := hnext n hn
      have hch := evalStep_frame _ hwr _ _ _ _ _ _ he
      have hs' := Sim.move hg hs hb hch fun s hm => mine_hidden hg hB (fun n hn => (hnext n hn).1) hm
      exact Sim.plain hg hs' hn2 (by rw [hn1]; rfl) (by rw [hn1]; exact hB.trans (List.suffix_cons _ _)) (has3 n hn)
    have hlen' : ∀ v env'' w', evalStep (.call ps ss) x env w = (.ok (v, env''), w') → env''.length = count := by
      intro v env'' w' he
      rw [(evalStep_frame _ hwr _ _ _ _ _ _ he).1, hlen]
    simp only [evalStep] at hstep hlen' ⊢
    simp only [Lexical.blk]
    generalize evalParams ps x env w = r at hpar hstep hlen'
    generalize Lexical.bindParams params (Lexical.args ρ args) x (fun _ => none) w = r' at hpar
    match r, r', hpar with
    | (.err _, _), (.err _, _), h => exact h
    | (.ok env', w), (.ok ρ', _), ⟨rfl, h0, h1, h2, h3, h4⟩ =>
      dsimp only at hstep hlen' ⊢
      have hlook : ∀ y, g.look (.body k :: .blk j :: p) y = g.own (.body k :: .blk j :: p) y := by
        intro y; rw [hg.look _ has4]; simp [par]
      have hsim : Sim g (extend g Δ (.blk j :: p) next args cs) (.body k :: .blk j :: p) (.body k :: .blk j :: p) ρ' env' := by
        refine ⟨List.suffix_refl _, ?_, ?_⟩
        · intro y s hy
          rw [hlook] at hy
          obtain ⟨lz, hlz⟩ := has5 y _ hy
          obtain ⟨i, hi⟩ := List.getElem?_of_mem hlz
          cases lz with
          | true => rw [has6 i y hi] at hy; simp at hy
          | false => exact h3 i y hi s hy
        · intro y to hy
          rw [hlook] at hy
          obtain ⟨lz, hlz⟩ := has5 y _ hy
          obtain ⟨i, hi⟩ := List.getElem?_of_mem hlz
          cases lz with
          | false => obtain ⟨s, hs⟩ := has7 i y hi; rw [hs] at hy; simp at hy
          | true =>
            rw [has6 i y hi] at hy
            simp only [Option.some.injEq, Local.ptr.injEq] at hy
            subst hy
            have hilt : i < args.length := by rw [ok2]; exact (List.getElem?_eq_some_iff.1 hi).1
            have e1 : args[i]? = some args[i] := List.getElem?_eq_getElem hilt
            have e2 : cs[i]? = some (cs[i]'(by omega)) := List.getElem?_eq_getElem (by omega)
            refine ⟨Lexical.arg ρ args[i], ⟨cs[i]'(by omega), target g Δ (.arg i :: .blk j :: p) next args[i]⟩, ?_, ?_, ?_⟩
            · exact h4 i y _ hi (by rw [args_get, e1]; rfl)
            · simp only [extend, if_true, e1, e2]
            · intro env'' hch x w
              exact harg i _ _ e1 e2 env'' (h0.trans hch) x w
      have hbody := blks_sim hg body _ (.body k :: .blk j :: p) 0 _ ss
        (fun hne => lazy_first hg (lazy_body hg has4 ok3 has5 has7) (HasBlks.first has9 hne) has8) ok4 has9 hss (.body k :: .blk j :: p) ρ' env'
        (List.suffix_refl _) (fun hne => Sim.plain hg hsim (HasBlks.first has9 hne) rfl (List.suffix_cons _ _) has8) (by rw [h0.1, hlen]) x w
      generalize evalStack ss x env' w = r at hbody hstep hlen'
      generalize Lexical.blks ρ' body x w = r' at hbody
      match r, r', hbody with
      | (.err _, _), (.err _, _), h => exact h
      | (.ok (v, env''), w), (.ok _, _), ⟨rfl, rfl⟩ =>
        exact ⟨rfl, rfl, hlen' _ _ _ rfl, hstep _ _ _ rfl⟩

theorem blks_sim {nodes : List Node} {g : Names} {count : Nat} (hg : Good nodes g count) : ∀ (src : List (SBlk V W E)) (Δ : Ptrs V W E) (p : Node) (j : Nat)
    (lazy : String → Prop) (ss : List (Step V W E)), (src ≠ [] → LazyOk g (.blk j :: p) lazy) → OkBlks lazy src → HasBlks nodes g p j src →
    cBlks g Δ p j src = some ss → ∀ (B : Node) (ρ : Lexical.LEnv V W E) (env : Env V), B <:+ p →
      (src ≠ [] → Sim g Δ B (.blk j :: p) ρ env) → env.length = count → ∀ x w,
      Same (fun (a : V × Env V) (r : V) => a.1 = r) (evalStack ss x env w) (Lexical.blks ρ src x w)
  | [], Δ, p, j, lazy, ss, hl, hok, hhas, hc, B, ρ, env, hB, hs, hlen, x, w => by
    simp only [cBlks, Option.some.injEq] at hc; subst hc
    exact ⟨rfl, rfl⟩
  | b :: bs, Δ, p, j, lazy, ss, hl, hok, hhas, hc, B, ρ, env, hB, hs, hlen, x, w => by
    simp only [OkBlks] at hok
    simp only [HasBlks] at hhas
    simp only [cBlks] at hc
    split at hc
    · rename_i s ss' h1 h2
      simp only [Option.some.injEq] at hc; subst hc
      have hnext : ∀ n, (if bs.isEmpty then none else some (.blk (j + 1) :: p)) = some n → n = .blk (j + 1) :: p ∧ n ∈ nodes := by
        intro n hn
        cases bs with
        | nil => simp at hn
        | cons b' bs =>
          simp only [List.isEmpty_cons, Bool.false_eq_true, if_false, Option.some.injEq] at hn
          subst hn
          exact ⟨rfl, HasBlks.first hhas.2.2 (by simp)⟩
      have hb := blk_sim hg b Δ p j _ lazy s hhas.1 hnext (hl (by simp)) hok.1 hhas.2.1 h1 B ρ env hB (hs (by simp)) hlen x w
      simp only [evalStack, Lexical.blks]
      generalize evalStep s x env w = r at hb
      generalize Lexical.blk ρ b x w = r' at hb
      match r, r', hb with
      | (.err _, _), (.err _, _), h => exact h
      | (.ok (v, env'), w), (.ok (_, ρ'), _), ⟨rfl, rfl, hlen', hsim⟩ =>
        refine blks_sim hg bs Δ p (j + 1) (after lazy b) ss' ?_ hok.2 hhas.2.2 h2 B ρ' env' hB ?_ hlen' v w
        · intro hne
          cases bs with
          | nil => exact absurd rfl hne
          | cons b' bs => exact lazy_after hg (hl (by simp)) b (HasBlks.first hhas.2.2 hne) (by simpa using hhas.2.1)
        · intro hne
          refine hsim _ ?_
          cases bs with
          | nil => exact absurd rfl hne
          | cons b' bs => simp
    · cases hc
end

end Verif.Step
