import Verif.Props.Step
/-! The names of a compiled program, from the history of the graph of locals (C30). -/
namespace Verif.Step
open Verif.Loc Verif.Scope

variable {V W E : Type}

/-! ### What a program declares -/

/-- A declaration: where, of which name, and whether of a variable (`none`) or of a lazy parameter (the argument it stands
for). -/
abbrev Decl := Node × String × Option Node

mutual
/-- The declarations of a program: `$row` and the like at the argument they are provided to, the variables of `let` at the
block after it, parameters at the body of a definition. -/
def declsArg (p : Node) : SArg V W E → List Decl
  | .lit _ => []
  | .var _ => []
  | .expr body => declsBlks p 0 body

def declsArgs (b : Node) (i : Nat) : List (SArg V W E) → List Decl
  | [] => []
  | a :: as => declsArg (.arg i :: b) a ++ declsArgs b (i + 1) as

def declsBlk (b : Node) (next : Option Node) : SBlk V W E → List Decl
  | .prim args lets injs _ _ =>
    declsArgs b 0 args ++ (injs.map (fun t => (.arg t.1 :: b, t.2, none)) ++ next.toList.flatMap fun n => lets.map fun t => (n, t.2, none))
  | .call k args params body =>
    declsArgs b 0 args ++ (params.zipIdx.map (fun t => (.body k :: b, t.1.1, if t.1.2 then some (.arg t.2 :: b) else none)) ++
      declsBlks (.body k :: b) 0 body)

def declsBlks (p : Node) (j : Nat) : List (SBlk V W E) → List Decl
  | [] => []
  | b :: bs => declsBlk (.blk j :: p) (if bs.isEmpty then none else some (.blk (j + 1) :: p)) b ++ declsBlks p (j + 1) bs
end

mutual
/-- The nodes of a program below a node. -/
def nodesArg (p : Node) : SArg V W E → List Node
  | .lit _ => []
  | .var _ => []
  | .expr body => nodesBlks p 0 body

def nodesArgs (b : Node) (i : Nat) : List (SArg V W E) → List Node
  | [] => []
  | a :: as => (.arg i :: b) :: (nodesArg (.arg i :: b) a ++ nodesArgs b (i + 1) as)

def nodesBlk (b : Node) : SBlk V W E → List Node
  | .prim args lets _ _ _ => nodesArgs b 0 args ++ lets.map fun t => .arg t.1 :: b
  | .call k args _ body => nodesArgs b 0 args ++ (.body k :: b) :: nodesBlks (.body k :: b) 0 body

def nodesBlks (p : Node) (j : Nat) : List (SBlk V W E) → List Node
  | [] => []
  | b :: bs => (.blk j :: p) :: (nodesBlk (.blk j :: p) b ++ nodesBlks p (j + 1) bs)
end

/-- The declarations a change of the graph of locals makes. -/
def declsOf : Chg → List Decl
  | .newVar name n => [(n, name, none)]
  | .newLazy name to n => [(n, name, some to)]
  | _ => []

/-! ### Where declarations are -/

def ZArg (p n : Node) : Prop := p <:+ n ∧ n ≠ p

def ZArgs (b : Node) (i : Nat) (n : Node) : Prop := ∃ i', i ≤ i' ∧ .arg i' :: b <:+ n ∧ n ≠ .arg i' :: b

def ZBlk (b : Node) (next : Option Node) (n : Node) : Prop := b <:+ n ∧ n ≠ b ∨ next = some n

def ZBlks (p : Node) (j : Nat) (n : Node) : Prop := ∃ j', j ≤ j' ∧ .blk j' :: p <:+ n ∧ n ≠ .blk j :: p

theorem suffix_mark {m m' : Mark} {b n : Node} (h : m :: b <:+ n) (h' : m' :: b <:+ n) : m = m' := by
  obtain ⟨r, rfl⟩ := h
  obtain ⟨r', h'⟩ := h'
  have := List.append_inj' h' (by simp)
  simpa using this.2.symm

theorem suffix_one {m m' : Mark} {b : Node} (h : m :: b <:+ m' :: b) : m = m' := suffix_mark h (List.suffix_refl _)

theorem not_suffix_self {m : Mark} {b n : Node} (h : m :: b <:+ n) (hn : n <:+ b) : False := by
  have h1 := h.length_le
  have h2 := hn.length_le
  simp only [List.length_cons] at h1
  omega

theorem not_suffix_len {b n : Node} (h : b <:+ n) (hl : n.length < b.length) : False := by
  have h1 := h.length_le
  omega

theorem ne_of_suffix_cons {m : Mark} {b n : Node} (h : m :: b <:+ n) : n ≠ b := by
  rintro rfl
  exact not_suffix_self h (List.suffix_refl _)

mutual
theorem declsArg_zone : ∀ (a : SArg V W E) (p : Node), ∀ d ∈ declsArg p a, ZArg p d.1
  | .lit _, p, d, hd => by simp [declsArg] at hd
  | .var _, p, d, hd => by simp [declsArg] at hd
  | .expr body, p, d, hd => by
    simp only [declsArg] at hd
    obtain ⟨j', -, h2, -⟩ := declsBlks_zone body p 0 d hd
    exact ⟨(List.suffix_cons _ _).trans h2, ne_of_suffix_cons h2⟩

theorem declsArgs_zone : ∀ (as : List (SArg V W E)) (b : Node) (i : Nat), ∀ d ∈ declsArgs b i as, ZArgs b i d.1
  | [], b, i, d, hd => by simp [declsArgs] at hd
  | a :: as, b, i, d, hd => by
    simp only [declsArgs, List.mem_append] at hd
    rcases hd with hd | hd
    · have := declsArg_zone a (.arg i :: b) d hd
      exact ⟨i, Nat.le_refl _, this.1, this.2⟩
    · obtain ⟨i', h1, h2, h3⟩ := declsArgs_zone as b (i + 1) d hd
      exact ⟨i', by omega, h2, h3⟩

theorem declsBlk_zone : ∀ (s : SBlk V W E) (b : Node) (next : Option Node), ∀ d ∈ declsBlk b next s, ZBlk b next d.1
  | .prim args lets injs prog keep, b, next, d, hd => by
    simp only [declsBlk, List.mem_append] at hd
    rcases hd with hd | hd | hd
    · obtain ⟨i', -, h2, -⟩ := declsArgs_zone args b 0 d hd
      exact .inl ⟨(List.suffix_cons _ _).trans h2, ne_of_suffix_cons h2⟩
    · obtain ⟨t, -, rfl⟩ := List.mem_map.1 hd
      exact .inl ⟨List.suffix_cons _ _, ne_of_suffix_cons (List.suffix_refl _)⟩
    · obtain ⟨n, hn, hd⟩ := List.mem_flatMap.1 hd
      obtain ⟨t, -, rfl⟩ := List.mem_map.1 hd
      exact .inr (by simpa using hn)
  | .call k args params body, b, next, d, hd => by
    simp only [declsBlk, List.mem_append] at hd
    rcases hd with hd | hd | hd
    · obtain ⟨i', -, h2, -⟩ := declsArgs_zone args b 0 d hd
      exact .inl ⟨(List.suffix_cons _ _).trans h2, ne_of_suffix_cons h2⟩
    · obtain ⟨t, -, rfl⟩ := List.mem_map.1 hd
      exact .inl ⟨List.suffix_cons _ _, ne_of_suffix_cons (List.suffix_refl _)⟩
    · obtain ⟨j', -, h2, -⟩ := declsBlks_zone body (.body k :: b) 0 d hd
      have := (List.suffix_cons _ _).trans h2
      exact .inl ⟨(List.suffix_cons _ _).trans this, ne_of_suffix_cons this⟩

theorem declsBlks_zone : ∀ (bs : List (SBlk V W E)) (p : Node) (j : Nat), ∀ d ∈ declsBlks p j bs, ZBlks p j d.1
  | [], p, j, d, hd => by simp [declsBlks] at hd
  | b :: bs, p, j, d, hd => by
    simp only [declsBlks, List.mem_append] at hd
    rcases hd with hd | hd
    · rcases declsBlk_zone b _ _ d hd with h | h
      · exact ⟨j, Nat.le_refl _, h.1, h.2⟩
      · split at h
        · cases h
        · simp only [Option.some.injEq] at h
          rw [← h]
          exact ⟨j + 1, by omega, List.suffix_refl _, by simp⟩
    · obtain ⟨j', h1, h2, h3⟩ := declsBlks_zone bs p (j + 1) d hd
      refine ⟨j', by omega, h2, ?_⟩
      intro e
      rw [e] at h2
      have := suffix_one h2
      simp only [Mark.blk.injEq] at this
      omega
end

/-- No name is declared at a node in two ways. -/
def Fn (D : List Decl) : Prop := ∀ n x k k', (n, x, k) ∈ D → (n, x, k') ∈ D → k = k'

theorem Fn.append {A B : List Decl} (ha : Fn A) (hb : Fn B) (h : ∀ d ∈ A, ∀ d' ∈ B, d.1 ≠ d'.1) : Fn (A ++ B) := by
  intro n x k k' h1 h2
  rcases List.mem_append.1 h1 with h1 | h1 <;> rcases List.mem_append.1 h2 with h2 | h2
  · exact ha _ _ _ _ h1 h2
  · exact absurd rfl (h (n, x, k) h1 (n, x, k') h2)
  · exact absurd rfl (h (n, x, k') h2 (n, x, k) h1)
  · exact hb _ _ _ _ h1 h2

theorem Fn.none {A : List Decl} (h : ∀ d ∈ A, d.2.2 = none) : Fn A := by
  intro n x k k' h1 h2
  have e1 := h _ h1
  have e2 := h _ h2
  dsimp only at e1 e2
  rw [e1, e2]

theorem nodup_index {ps : List (String × Bool)} (h : (ps.map (·.1)).Nodup) {i j : Nat} {x : String} {a b : Bool}
    (hi : ps[i]? = some (x, a)) (hj : ps[j]? = some (x, b)) : i = j := by
  induction ps generalizing i j with
  | nil => simp at hi
  | cons p ps ih =>
    simp only [List.map_cons, List.nodup_cons] at h
    cases i with
    | zero =>
      cases j with
      | zero => rfl
      | succ j =>
        simp only [List.getElem?_cons_zero, Option.some.injEq] at hi
        rw [hi] at h
        exact absurd (List.mem_map.2 ⟨(x, b), List.mem_of_getElem? (i := j) (by simpa using hj), rfl⟩) h.1
    | succ i =>
      cases j with
      | zero =>
        simp only [List.getElem?_cons_zero, Option.some.injEq] at hj
        rw [hj] at h
        exact absurd (List.mem_map.2 ⟨(x, a), List.mem_of_getElem? (i := i) (by simpa using hi), rfl⟩) h.1
      | succ j => rw [ih h.2 (i := i) (j := j) (by simpa using hi) (by simpa using hj)]

mutual
theorem declsArg_fn : ∀ (a : SArg V W E) (p : Node) (lazy : String → Prop), OkArg lazy a → Fn (declsArg p a)
  | .lit _, p, lazy, h => Fn.none (by simp [declsArg])
  | .var _, p, lazy, h => Fn.none (by simp [declsArg])
  | .expr body, p, lazy, h => by
    simp only [OkArg] at h
    simp only [declsArg]
    exact declsBlks_fn body p 0 lazy h

theorem declsArgs_fn : ∀ (as : List (SArg V W E)) (b : Node) (i : Nat) (lazy : Nat → String → Prop), OkArgs lazy i as → Fn (declsArgs b i as)
  | [], b, i, lazy, h => Fn.none (by simp [declsArgs])
  | a :: as, b, i, lazy, h => by
    simp only [OkArgs] at h
    simp only [declsArgs]
    refine Fn.append (declsArg_fn a _ _ h.1) (declsArgs_fn as b (i + 1) lazy h.2) ?_
    intro d hd d' hd' e
    have h1 := declsArg_zone a _ d hd
    obtain ⟨i', h2, h3, -⟩ := declsArgs_zone as b (i + 1) d' hd'
    rw [← e] at h3
    have := suffix_mark h1.1 h3
    simp only [Mark.arg.injEq] at this
    omega

theorem declsBlk_fn : ∀ (s : SBlk V W E) (p : Node) (j : Nat) (next : Option Node) (lazy : String → Prop),
    (∀ n, next = some n → n = .blk (j + 1) :: p) → OkBlk lazy s → Fn (declsBlk (.blk j :: p) next s)
  | .prim args lets injs prog keep, p, j, next, lazy, hnext, h => by
    simp only [OkBlk] at h
    simp only [declsBlk]
    refine Fn.append (declsArgs_fn args _ 0 _ h.1) (Fn.append (Fn.none ?_) (Fn.none ?_) ?_) ?_
    · intro d hd; obtain ⟨t, -, rfl⟩ := List.mem_map.1 hd; rfl
    · intro d hd
      obtain ⟨n, hn, hd⟩ := List.mem_flatMap.1 hd
      obtain ⟨t, -, rfl⟩ := List.mem_map.1 hd; rfl
    · intro d hd d' hd' e
      obtain ⟨t, -, rfl⟩ := List.mem_map.1 hd
      obtain ⟨n, hn, hd'⟩ := List.mem_flatMap.1 hd'
      obtain ⟨t', -, rfl⟩ := List.mem_map.1 hd'
      dsimp only at e
      rw [hnext n (by simpa using hn)] at e
      simp at e
    · intro d hd d' hd' e
      obtain ⟨i', h2, h3, h4⟩ := declsArgs_zone args _ 0 d hd
      rw [e] at h3 h4
      rcases List.mem_append.1 hd' with hd' | hd'
      · obtain ⟨t, -, rfl⟩ := List.mem_map.1 hd'
        dsimp only at h3 h4
        have := suffix_one h3
        exact h4 (by rw [this])
      · obtain ⟨n, hn, hd'⟩ := List.mem_flatMap.1 hd'
        obtain ⟨t', -, rfl⟩ := List.mem_map.1 hd'
        dsimp only at h3
        rw [hnext n (by simpa using hn)] at h3
        exact not_suffix_len h3 (by simp)
  | .call k args params body, p, j, next, lazy, hnext, h => by
    simp only [OkBlk] at h
    simp only [declsBlk]
    refine Fn.append (declsArgs_fn args _ 0 _ h.1) (Fn.append ?_ (declsBlks_fn body _ 0 _ h.2.2.2) ?_) ?_
    · intro n x k1 k2 h1 h2
      obtain ⟨t1, ht1, e1⟩ := List.mem_map.1 h1
      obtain ⟨t2, ht2, e2⟩ := List.mem_map.1 h2
      simp only [Prod.mk.injEq] at e1 e2
      obtain ⟨⟨y1, b1⟩, i1⟩ := t1
      obtain ⟨⟨y2, b2⟩, i2⟩ := t2
      rw [List.mk_mem_zipIdx_iff_getElem?] at ht1 ht2
      dsimp only at e1 e2
      obtain ⟨-, rfl, rfl⟩ := e1
      obtain ⟨-, rfl, rfl⟩ := e2
      have := nodup_index h.2.2.1 ht1 ht2
      subst this
      rw [ht1] at ht2
      simp only [Option.some.injEq, Prod.mk.injEq, true_and] at ht2
      rw [ht2]
    · intro d hd d' hd' e
      obtain ⟨t, -, rfl⟩ := List.mem_map.1 hd
      obtain ⟨j', -, h2, -⟩ := declsBlks_zone body _ 0 d' hd'
      rw [← e] at h2
      exact not_suffix_len h2 (by simp)
    · intro d hd d' hd' e
      obtain ⟨i', h2, h3, h4⟩ := declsArgs_zone args _ 0 d hd
      rw [e] at h3 h4
      rcases List.mem_append.1 hd' with hd' | hd'
      · obtain ⟨t, -, rfl⟩ := List.mem_map.1 hd'
        dsimp only at h3
        have := suffix_one h3
        simp at this
      · obtain ⟨j', -, h5, -⟩ := declsBlks_zone body _ 0 d' hd'
        have := suffix_mark h3 ((List.suffix_cons _ _).trans h5)
        simp at this

theorem declsBlks_fn : ∀ (bs : List (SBlk V W E)) (p : Node) (j : Nat) (lazy : String → Prop), OkBlks lazy bs → Fn (declsBlks p j bs)
  | [], p, j, lazy, h => Fn.none (by simp [declsBlks])
  | b :: bs, p, j, lazy, h => by
    simp only [OkBlks] at h
    simp only [declsBlks]
    refine Fn.append (declsBlk_fn b p j _ lazy ?_ h.1) (declsBlks_fn bs p (j + 1) _ h.2) ?_
    · intro n hn
      split at hn
      · cases hn
      · simpa using hn.symm
    · intro d hd d' hd' e
      obtain ⟨j', h1, h2, h3⟩ := declsBlks_zone bs p (j + 1) d' hd'
      rw [← e] at h2 h3
      rcases declsBlk_zone b _ _ d hd with h | h
      · have := suffix_mark h.1 h2
        simp only [Mark.blk.injEq] at this
        omega
      · split at h
        · cases h
        · simp only [Option.some.injEq] at h; exact h3 h.symm
end

/-! ### From declarations to names -/

/-- How a name is declared at a node. -/
def kindOf (g : Names) (n : Node) (x : String) : Option (Option Node) := (g.own n x).map ptrOf

theorem kind_var {g : Names} {n : Node} {x : String} (h : kindOf g n x = some none) : ∃ s, g.own n x = some (.var s) := by
  unfold kindOf at h
  rw [Option.map_eq_some_iff] at h
  obtain ⟨l, h1, h2⟩ := h
  cases l with
  | var s => exact ⟨s, h1⟩
  | ptr to => simp [ptrOf] at h2

theorem kind_ptr {g : Names} {n to : Node} {x : String} (h : kindOf g n x = some (some to)) : g.own n x = some (.ptr to) := by
  unfold kindOf at h
  rw [Option.map_eq_some_iff] at h
  obtain ⟨l, h1, h2⟩ := h
  cases l with
  | var s => simp [ptrOf] at h2
  | ptr to' => simp only [ptrOf, Option.some.injEq] at h2; rw [h1, h2]

/-- In a region, names are declared as listed and not otherwise. -/
def Agree (g : Names) (Z : Node → Prop) (D : List Decl) : Prop := ∀ n x k, Z n → (kindOf g n x = some k ↔ (n, x, k) ∈ D)

theorem Agree.own {g : Names} {Z : Node → Prop} {D : List Decl} (h : Agree g Z D) {n : Node} (hz : Z n) {x : String} {l : Local}
    (ho : g.own n x = some l) : (n, x, ptrOf l) ∈ D := (h n x _ hz).1 (by simp [kindOf, ho])

theorem Agree.none {g : Names} {Z : Node → Prop} {D : List Decl} (h : Agree g Z D) {n : Node} (hz : Z n) (hd : ∀ d ∈ D, d.1 ≠ n) (x : String) :
    g.own n x = none := by
  cases ho : g.own n x with
  | none => rfl
  | some l => exact absurd rfl (hd _ (h.own hz ho))

theorem Agree.left {g : Names} {Z Z' : Node → Prop} {A B : List Decl} (h : Agree g Z (A ++ B)) (hz : ∀ n, Z' n → Z n)
    (hb : ∀ d ∈ B, ¬ Z' d.1) : Agree g Z' A := by
  intro n x k hn
  rw [h n x k (hz n hn), List.mem_append]
  exact ⟨fun h => h.resolve_right fun hx => hb _ hx hn, .inl⟩

theorem Agree.right {g : Names} {Z Z' : Node → Prop} {A B : List Decl} (h : Agree g Z (A ++ B)) (hz : ∀ n, Z' n → Z n)
    (ha : ∀ d ∈ A, ¬ Z' d.1) : Agree g Z' B := by
  intro n x k hn
  rw [h n x k (hz n hn), List.mem_append]
  exact ⟨fun h => h.resolve_left fun hx => ha _ hx hn, .inr⟩

theorem nodesArgs_mem {nodes : List Node} : ∀ {as : List (SArg V W E)} {b : Node} {i : Nat}, (∀ n ∈ nodesArgs b i as, n ∈ nodes) →
    ∀ k, k < as.length → .arg (i + k) :: b ∈ nodes
  | [], b, i, h, k, hk => by simp at hk
  | a :: as, b, i, h, 0, hk => h _ (by simp [nodesArgs])
  | a :: as, b, i, h, k + 1, hk => by
    have := nodesArgs_mem (as := as) (b := b) (i := i + 1) (fun n hn => h n (by simp [nodesArgs, hn])) k (by simpa using hk)
    rwa [show i + 1 + k = i + (k + 1) by omega] at this

mutual
theorem has_arg {nodes : List Node} {g : Names} : ∀ (a : SArg V W E) (p : Node) (lazy : String → Prop), OkArg lazy a →
    (∀ n ∈ nodesArg p a, n ∈ nodes) → Agree g (ZArg p) (declsArg p a) → HasArg nodes g p a
  | .lit _, p, lazy, hok, hn, h => by simp [HasArg]
  | .var _, p, lazy, hok, hn, h => by simp [HasArg]
  | .expr body, p, lazy, hok, hn, h => by
    simp only [OkArg] at hok
    simp only [declsArg] at h
    simp only [nodesArg] at hn
    simp only [HasArg]
    refine ⟨h.none ⟨List.suffix_cons _ _, by simp⟩ ?_, has_blks body p 0 lazy hok hn ?_⟩
    · intro d hd e
      obtain ⟨j', -, -, h3⟩ := declsBlks_zone body p 0 d hd
      exact h3 e
    · intro n x k hz
      obtain ⟨j', -, h2, -⟩ := hz
      exact h n x k ⟨(List.suffix_cons _ _).trans h2, ne_of_suffix_cons h2⟩

theorem has_args {nodes : List Node} {g : Names} : ∀ (as : List (SArg V W E)) (b : Node) (i : Nat) (lazy : Nat → String → Prop),
    OkArgs lazy i as → (∀ n ∈ nodesArgs b i as, n ∈ nodes) → Agree g (ZArgs b i) (declsArgs b i as) → HasArgs nodes g b i as
  | [], b, i, lazy, hok, hn, h => by simp [HasArgs]
  | a :: as, b, i, lazy, hok, hn, h => by
    simp only [OkArgs] at hok
    simp only [declsArgs] at h
    simp only [HasArgs]
    refine ⟨hn _ (by simp [nodesArgs]), has_arg a _ _ hok.1 (fun n h => hn n (by simp [nodesArgs, h])) ?_,
      has_args as b (i + 1) lazy hok.2 (fun n h => hn n (by simp [nodesArgs, h])) ?_⟩
    · refine h.left (fun n hz => ⟨i, Nat.le_refl _, hz.1, hz.2⟩) ?_
      intro d hd hz
      obtain ⟨i', h1, h2, -⟩ := declsArgs_zone as b (i + 1) d hd
      have := suffix_mark hz.1 h2
      simp only [Mark.arg.injEq] at this
      omega
    · refine h.right (fun n ⟨i', h1, h2, h3⟩ => ⟨i', by omega, h2, h3⟩) ?_
      intro d hd ⟨i', h1, h2, h3⟩
      have hz := declsArg_zone a _ d hd
      have := suffix_mark hz.1 h2
      simp only [Mark.arg.injEq] at this
      omega

theorem has_blk {nodes : List Node} {g : Names} : ∀ (s : SBlk V W E) (p : Node) (j : Nat) (next : Option Node) (lazy : String → Prop),
    (∀ n, next = some n → n = .blk (j + 1) :: p) → OkBlk lazy s → (∀ n ∈ nodesBlk (.blk j :: p) s, n ∈ nodes) →
    Agree g (ZBlk (.blk j :: p) next) (declsBlk (.blk j :: p) next s) → HasBlk nodes g (.blk j :: p) next s
  | .prim args lets injs prog keep, p, j, next, lazy, hnext, hok, hn, h => by
    simp only [OkBlk] at hok
    simp only [declsBlk] at h
    simp only [nodesBlk] at hn
    obtain ⟨ok1, ok2, ok3, ok4, ok5, ok6⟩ := hok
    have hza : ∀ i, ZBlk (.blk j :: p) next (.arg i :: .blk j :: p) := fun i => .inl ⟨List.suffix_cons _ _, by simp⟩
    -- what is declared at an argument
    have hat : ∀ i x k, (.arg i :: .blk j :: p, x, k) ∈ declsArgs (.blk j :: p) 0 args ++
        (injs.map (fun t => (.arg t.1 :: .blk j :: p, t.2, none)) ++ next.toList.flatMap fun n => lets.map fun t => (n, t.2, none)) →
        (i, x) ∈ injs ∧ k = none := by
      intro i x k hm
      simp only [List.mem_append] at hm
      rcases hm with hm | hm | hm
      · obtain ⟨i', -, h2, h3⟩ := declsArgs_zone args _ 0 _ hm
        dsimp only at h2 h3
        exact absurd (by rw [suffix_one h2]) h3
      · obtain ⟨t, ht, e⟩ := List.mem_map.1 hm
        simp only [Prod.mk.injEq, List.cons.injEq, Mark.arg.injEq, and_true] at e
        obtain ⟨e1, e2, e3⟩ := e
        exact ⟨by rw [← e1, ← e2]; exact ht, e3.symm⟩
      · obtain ⟨n, hn, hm⟩ := List.mem_flatMap.1 hm
        obtain ⟨t, -, e⟩ := List.mem_map.1 hm
        rw [hnext n (by simpa using hn)] at e
        simp at e
    simp only [HasBlk]
    refine ⟨has_args args _ 0 _ ok1 (fun n h => hn n (by simp [h])) ?_, ?_, ?_, ?_, ?_⟩
    · refine h.left (fun n ⟨i, _, h2, h3⟩ => .inl ⟨(List.suffix_cons _ _).trans h2, ne_of_suffix_cons h2⟩) ?_
      intro d hd ⟨i', _, h2, h3⟩
      rcases List.mem_append.1 hd with hd | hd
      · obtain ⟨t, -, rfl⟩ := List.mem_map.1 hd
        dsimp only at h2 h3
        exact h3 (by rw [suffix_one h2])
      · obtain ⟨n, hn, hd⟩ := List.mem_flatMap.1 hd
        obtain ⟨t', -, rfl⟩ := List.mem_map.1 hd
        dsimp only at h2
        rw [hnext n (by simpa using hn)] at h2
        exact not_suffix_len h2 (by simp)
    · intro i x l hi ho
      exact (hat i x _ (h.own (hza i) ho)).1
    · intro t ht
      apply kind_var
      refine (h _ _ _ (hza _)).2 ?_
      simp only [List.mem_append]
      exact .inr (.inl (List.mem_map.2 ⟨t, ht, rfl⟩))
    · intro t ht
      refine ⟨hn _ (List.mem_append.2 (.inr (List.mem_map.2 ⟨t, ht, rfl⟩))), fun x => ?_⟩
      cases ho : g.own (.arg t.1 :: .blk j :: p) x with
      | none => rfl
      | some l =>
        have h1 := ok3 _ (hat _ _ _ (h.own (hza _) ho)).1
        have h2 := ok4 t ht
        dsimp only at h1
        omega
    · intro n hnx
      have hzn : ZBlk (.blk j :: p) next n := .inr hnx
      refine ⟨fun x l ho => ?_, fun t ht => ?_⟩
      · have := h.own hzn ho
        simp only [List.mem_append] at this
        rcases this with hm | hm | hm
        · obtain ⟨i', -, h2, h3⟩ := declsArgs_zone args _ 0 _ hm
          dsimp only at h2
          rw [hnext n hnx] at h2
          exact (not_suffix_len h2 (by simp)).elim
        · obtain ⟨t, ht, e⟩ := List.mem_map.1 hm
          rw [hnext n hnx] at e
          simp at e
        · obtain ⟨n', hn', hm⟩ := List.mem_flatMap.1 hm
          obtain ⟨t, ht, e⟩ := List.mem_map.1 hm
          simp only [Prod.mk.injEq] at e
          exact List.mem_map.2 ⟨t, ht, e.2.1⟩
      · apply kind_var
        refine (h _ _ _ hzn).2 ?_
        simp only [List.mem_append]
        exact .inr (.inr (List.mem_flatMap.2 ⟨n, by simp [hnx], List.mem_map.2 ⟨t, ht, rfl⟩⟩))
  | .call k args params body, p, j, next, lazy, hnext, hok, hn, h => by
    simp only [OkBlk] at hok
    simp only [declsBlk] at h
    simp only [nodesBlk] at hn
    obtain ⟨ok1, ok2, ok3, ok4⟩ := hok
    have hza : ∀ m n, n = m :: .blk j :: p → ZBlk (.blk j :: p) next n := fun m n e => .inl (by rw [e]; exact ⟨List.suffix_cons _ _, by simp⟩)
    have hall : ∀ d ∈ declsArgs (.blk j :: p) 0 args ++
        (params.zipIdx.map (fun t => (.body k :: .blk j :: p, t.1.1, if t.1.2 then some (.arg t.2 :: .blk j :: p) else none)) ++
        declsBlks (.body k :: .blk j :: p) 0 body),
        (∃ i, .arg i :: .blk j :: p <:+ d.1 ∧ d.1 ≠ .arg i :: .blk j :: p) ∨
        (d.1 = .body k :: .blk j :: p ∧ ∃ (i : Nat) (lz : Bool), params[i]? = some (d.2.1, lz) ∧
          d.2.2 = if lz then some (.arg i :: .blk j :: p) else none) ∨
        (.body k :: .blk j :: p <:+ d.1 ∧ d.1 ≠ .body k :: .blk j :: p ∧ d.1 ≠ .blk 0 :: .body k :: .blk j :: p) := by
      intro d hd
      simp only [List.mem_append] at hd
      rcases hd with hd | hd | hd
      · obtain ⟨i', -, h2, h3⟩ := declsArgs_zone args _ 0 _ hd
        exact .inl ⟨i', h2, h3⟩
      · obtain ⟨⟨⟨y, lz⟩, i⟩, ht, rfl⟩ := List.mem_map.1 hd
        rw [List.mk_mem_zipIdx_iff_getElem?] at ht
        exact .inr (.inl ⟨rfl, i, lz, ht, rfl⟩)
      · obtain ⟨j', -, h2, h3⟩ := declsBlks_zone body _ 0 _ hd
        exact .inr (.inr ⟨(List.suffix_cons _ _).trans h2, ne_of_suffix_cons h2, h3⟩)
    have hpar : ∀ (i : Nat) y lz, params[i]? = some (y, lz) →
        kindOf g (.body k :: .blk j :: p) y = some (if lz then some (.arg i :: .blk j :: p) else none) := by
      intro i y lz hi
      refine (h _ _ _ (hza _ _ rfl)).2 ?_
      simp only [List.mem_append]
      exact .inr (.inl (List.mem_map.2 ⟨((y, lz), i), by rw [List.mk_mem_zipIdx_iff_getElem?]; exact hi, rfl⟩))
    simp only [HasBlk]
    refine ⟨has_args args _ 0 _ ok1 (fun n h => hn n (by simp [h])) ?_, ?_, ?_, hn _ (by simp), ?_, ?_, ?_, ?_,
      has_blks body _ 0 _ ok4 (fun n h => hn n (by simp [h])) ?_⟩
    · refine h.left (fun n ⟨i, _, h2, h3⟩ => .inl ⟨(List.suffix_cons _ _).trans h2, ne_of_suffix_cons h2⟩) ?_
      intro d hd ⟨i', _, h2, h3⟩
      rcases List.mem_append.1 hd with hd | hd
      · obtain ⟨t, -, rfl⟩ := List.mem_map.1 hd
        dsimp only at h2
        have := suffix_one h2
        simp at this
      · obtain ⟨j', -, h4, -⟩ := declsBlks_zone body _ 0 _ hd
        have := suffix_mark h2 ((List.suffix_cons _ _).trans h4)
        simp at this
    · intro i x hi
      refine h.none (hza _ _ rfl) ?_ x
      intro d hd e
      rcases hall d hd with ⟨i', h1, h2⟩ | ⟨h1, -⟩ | ⟨h1, h2, -⟩
      · rw [e] at h1 h2
        exact h2 (by rw [suffix_one h1])
      · rw [e] at h1; simp at h1
      · rw [e] at h1
        have := suffix_one h1
        simp at this
    · intro n hnx x
      refine h.none (.inr hnx) ?_ x
      intro d hd e
      rw [hnext n hnx] at e
      rcases hall d hd with ⟨i', h1, h2⟩ | ⟨h1, -⟩ | ⟨h1, h2, -⟩
      · rw [e] at h1; exact not_suffix_len h1 (by simp)
      · rw [e] at h1; simp at h1
      · rw [e] at h1; exact not_suffix_len h1 (by simp)
    · intro x l ho
      have hd := h.own (hza _ _ rfl) ho
      rcases hall _ hd with ⟨i', h1, h2⟩ | ⟨-, i, lz, h1, -⟩ | ⟨h1, h2, -⟩
      · dsimp only at h1
        have := suffix_one h1
        simp at this
      · exact ⟨lz, List.mem_of_getElem? h1⟩
      · exact absurd rfl h2
    · intro i x hi
      exact kind_ptr (hpar i x true hi)
    · intro i x hi
      exact kind_var (hpar i x false hi)
    · intro x
      refine h.none (.inl ⟨(List.suffix_cons _ _).trans (List.suffix_cons _ _), ne_of_suffix_cons (List.suffix_cons _ _)⟩) ?_ x
      intro d hd e
      rcases hall d hd with ⟨i', h1, h2⟩ | ⟨h1, -⟩ | ⟨-, -, h3⟩
      · rw [e] at h1
        have := suffix_mark h1 (List.suffix_cons _ _)
        simp at this
      · rw [e] at h1; simp at h1
      · exact h3 e
    · refine Agree.right (A := declsArgs (.blk j :: p) 0 args ++ params.zipIdx.map _) (by rw [List.append_assoc]; exact h) ?_ ?_
      · intro n ⟨j', _, h2, _⟩
        have := (List.suffix_cons _ _).trans h2
        exact .inl ⟨(List.suffix_cons _ _).trans this, ne_of_suffix_cons this⟩
      · intro d hd ⟨j', _, h2, _⟩
        have hs := (List.suffix_cons _ _).trans h2
        rcases List.mem_append.1 hd with hd | hd
        · obtain ⟨i', -, h3, -⟩ := declsArgs_zone args _ 0 _ hd
          have := suffix_mark h3 hs
          simp at this
        · obtain ⟨t, -, rfl⟩ := List.mem_map.1 hd
          exact not_suffix_len h2 (by simp)

theorem has_blks {nodes : List Node} {g : Names} : ∀ (bs : List (SBlk V W E)) (p : Node) (j : Nat) (lazy : String → Prop), OkBlks lazy bs →
    (∀ n ∈ nodesBlks p j bs, n ∈ nodes) → Agree g (ZBlks p j) (declsBlks p j bs) → HasBlks nodes g p j bs
  | [], p, j, lazy, hok, hn, h => by simp [HasBlks]
  | b :: bs, p, j, lazy, hok, hn, h => by
    simp only [OkBlks] at hok
    simp only [declsBlks] at h
    simp only [HasBlks]
    have hnext : ∀ n, (if bs.isEmpty then none else some (.blk (j + 1) :: p)) = some n → n = .blk (j + 1) :: p := by
      intro n hn
      split at hn
      · cases hn
      · simpa using hn.symm
    refine ⟨hn _ (by simp [nodesBlks]), has_blk b p j _ lazy hnext hok.1 (fun n h => hn n (by simp [nodesBlks, h])) ?_,
      has_blks bs p (j + 1) _ hok.2 (fun n h => hn n (by simp [nodesBlks, h])) ?_⟩
    · refine h.left ?_ ?_
      · rintro n (⟨h1, h2⟩ | h1)
        · exact ⟨j, Nat.le_refl _, h1, h2⟩
        · rw [hnext n h1]
          exact ⟨j + 1, by omega, List.suffix_refl _, by simp⟩
      · intro d hd hz
        obtain ⟨j', h1, h2, h3⟩ := declsBlks_zone bs p (j + 1) d hd
        rcases hz with hz | hz
        · have := suffix_mark hz.1 h2
          simp only [Mark.blk.injEq] at this
          omega
        · exact h3 (hnext _ hz)
    · refine h.right ?_ ?_
      · rintro n ⟨j', h1, h2, h3⟩
        refine ⟨j', by omega, h2, ?_⟩
        rintro rfl
        have := suffix_one h2
        simp only [Mark.blk.injEq] at this
        omega
      · intro d hd ⟨j', h1, h2, h3⟩
        rcases declsBlk_zone b _ _ d hd with hz | hz
        · have := suffix_mark hz.1 h2
          simp only [Mark.blk.injEq] at this
          omega
        · exact h3 (hnext _ hz)
end

/-! ### The graph of locals -/

theorem flowLoop_from (nodes : List Node) : ∀ (f : Nat) (st : List (Node × Node)) (m : Node → Map) n k l,
    flowLoop nodes f st m n k = some l → ∃ n', m n' k = some l
  | 0, st, m, n, k, l, h => ⟨n, by simpa [flowLoop] using h⟩
  | f + 1, [], m, n, k, l, h => ⟨n, by simpa [flowLoop] using h⟩
  | f + 1, (a, b) :: st, m, n, k, l, h => by
    simp only [flowLoop] at h
    obtain ⟨n', h'⟩ := flowLoop_from nodes f _ _ n k l h
    unfold setMap at h'
    split at h'
    · unfold accrete at h'
      split at h'
      · exact ⟨b, h'⟩
      · rename_i h1 h2; exact ⟨a, by rw [h1]; exact h'⟩
      · rename_i h1 h2
        split at h'
        · exact ⟨a, by rw [h1]; exact h'⟩
        · exact ⟨b, by rw [h2]; exact h'⟩
    · exact ⟨n', h'⟩

theorem maps_defs (nodes : List Node) (names : List String) (h : List Chg) :
    (run nodes names h).locals.length = (allDefs names h).length ∧
    ∀ n k l, (run nodes names h).maps n k = some l → (allDefs names h)[l.loc]? = some (l.defined, k) := by
  have step : ∀ (s : State) (D : List DefAt), s.locals.length = D.length → (∀ n k l, s.maps n k = some l → D[l.loc]? = some (l.defined, k)) →
      ∀ name l n m k l', (define s name l n).maps m k = some l' → (D ++ [(n, name)])[l'.loc]? = some (l'.defined, k) := by
    intro s D h1 h2 name l n m k l' hm
    have old : ∀ m, s.maps m k = some l' → (D ++ [(n, name)])[l'.loc]? = some (l'.defined, k) := by
      intro m hm
      have := h2 m k l' hm
      rw [List.getElem?_append_left (List.getElem?_eq_some_iff.1 this).1, this]
    simp only [define, setMap] at hm
    split at hm
    · dsimp only at hm
      split at hm
      · rename_i hk
        simp only [Option.some.injEq] at hm
        rw [← hm, h1, hk]
        simp
      · exact old _ hm
    · exact old _ hm
  refine snoc_ind (P := fun h => (run nodes names h).locals.length = (allDefs names h).length ∧
    ∀ n k l, (run nodes names h).maps n k = some l → (allDefs names h)[l.loc]? = some (l.defined, k)) ?_ ?_ h
  · obtain ⟨s1, s2⟩ := seed_maps names
    refine ⟨by simp [run, seed, allDefs, s1], ?_⟩
    intro n k l hl
    obtain ⟨n', hl⟩ := flowLoop_from nodes _ _ _ n k l hl
    rw [s2, Option.map_eq_some_iff] at hl
    obtain ⟨i, hi, rfl⟩ := hl
    simpa [allDefs] using ((lastIdx_some _ _ _ _).1 hi).1
  · intro h c ⟨i1, i2⟩
    rw [run_snoc, allDefs_snoc]
    cases c with
    | newVar name n =>
      refine ⟨by simp [apply, addVar, define, i1, Chg.defs], ?_⟩
      intro m k l hl
      obtain ⟨n', hl⟩ := flowLoop_from nodes _ _ _ m k l hl
      exact step _ _ i1 i2 name (.var (run nodes names h).count) n n' k l hl
    | newLazy name to n =>
      refine ⟨by simp [apply, define, i1, Chg.defs], ?_⟩
      intro m k l hl
      obtain ⟨n', hl⟩ := flowLoop_from nodes _ _ _ m k l hl
      exact step _ _ i1 i2 name _ n n' k l hl
    | «seal» op => simpa [apply, Chg.defs] using ⟨i1, i2⟩
    | breakEdge op arg => simpa [apply, Chg.defs] using ⟨i1, i2⟩
    | sealExpr e => simpa [apply, Chg.defs] using ⟨i1, i2⟩

/-- Whatever the history, the graph of locals has the shape evaluation relies on. -/
theorem good_run {nodes : List Node} (hc : Closed nodes) (names : List String) (h : List Chg) (ha : At nodes h) :
    Good nodes (namesOf (run nodes names h)) (run nodes names h).count where
  closed := hc.closed
  look n hn x := by
    obtain ⟨i1, i2⟩ := run_inv hc names h ha
    simp only [namesOf, getAny]
    rw [i2 n hn x]
    cases hl : lastIdx (allDefs names h) n x with
    | some i =>
      have := ((lastIdx_some _ _ _ _).1 hl).1
      have hlt : i < (run nodes names h).locals.length := by rw [i1]; exact (List.getElem?_eq_some_iff.1 this).1
      simp [hlt]
    | none =>
      cases hp : par n with
      | none => simp
      | some p =>
        simp only [Option.bind_some]
        cases hm : (run nodes names h).maps p x with
        | none => simp
        | some l =>
          have := (Lexical.defined hc i2 (size p) p (Nat.le_refl _) (hc.closed n hn p hp) x l hm).1.size_le
          have hs := size_par hp
          have hne : l.defined ≠ n := by rintro e; rw [e] at this; omega
          simp [hne]
  inj n n' x x' s h1 h2 := by
    obtain ⟨-, i2⟩ := maps_defs nodes names h
    simp only [namesOf, Option.bind_eq_some_iff] at h1 h2
    obtain ⟨l, m1, e1⟩ := h1
    obtain ⟨l', m2, e2⟩ := h2
    split at e1
    · rename_i d1
      split at e2
      · rename_i d2
        have hx : l.loc = l'.loc := by
          apply Classical.byContradiction
          intro hne
          exact (slots_distinct nodes names h _ _ _ _ e1 e2).2 hne rfl
        have g1 := i2 n x l m1
        have g2 := i2 n' x' l' m2
        rw [hx, g2] at g1
        simp only [Option.some.injEq, Prod.mk.injEq] at g1
        exact ⟨by rw [← d1, ← d2, g1.1], g1.2.symm⟩
      · cases e2
    · cases e1
  lt n x s h1 := by
    simp only [namesOf, Option.bind_eq_some_iff] at h1
    obtain ⟨l, m1, e1⟩ := h1
    split at e1
    · exact (slots_distinct nodes names h _ _ _ _ e1 e1).1
    · cases e1

/-- All declarations, seeds first. -/
def allDecls (names : List String) (h : List Chg) : List Decl := names.map (fun k => ([], k, none)) ++ h.flatMap declsOf

theorem allDecls_defs (names : List String) (h : List Chg) : (allDecls names h).map (fun d => (d.1, d.2.1)) = allDefs names h := by
  simp only [allDecls, allDefs, List.map_append, List.map_map, List.map_flatMap]
  congr 1
  apply congrArg (h.flatMap ·)
  funext c
  cases c <;> rfl

theorem allDecls_kinds (nodes : List Node) (names : List String) (h : List Chg) :
    (allDecls names h).map (fun d => d.2.2) = (run nodes names h).locals.map ptrOf := by
  rw [kinds]
  simp only [allDecls, List.map_append, List.map_map, List.map_flatMap]
  congr 1
  apply congrArg (h.flatMap ·)
  funext c
  cases c <;> rfl

/-- The local a node defines. -/
theorem own_run {nodes : List Node} (hc : Closed nodes) (names : List String) (h : List Chg) (ha : At nodes h) {n : Node} (hn : n ∈ nodes)
    (x : String) : (namesOf (run nodes names h)).own n x =
      (lastIdx (allDefs names h) n x).bind fun i => (run nodes names h).locals[i]? := by
  obtain ⟨i1, i2⟩ := run_inv hc names h ha
  simp only [namesOf]
  rw [i2 n hn x]
  cases hl : lastIdx (allDefs names h) n x with
  | some i => simp
  | none =>
    cases hp : par n with
    | none => simp
    | some p =>
      simp only [Option.bind_some, Option.bind_none]
      cases hm : (run nodes names h).maps p x with
      | none => simp
      | some l =>
        have := (Lexical.defined hc i2 (size p) p (Nat.le_refl _) (hc.closed n hn p hp) x l hm).1.size_le
        have hs := size_par hp
        have hne : l.defined ≠ n := by rintro e; rw [e] at this; omega
        simp [hne]

theorem kind_run {nodes : List Node} (hc : Closed nodes) (names : List String) (h : List Chg) (ha : At nodes h) (hfn : Fn (allDecls names h))
    {n : Node} (hn : n ∈ nodes) (x : String) (k : Option Node) :
    kindOf (namesOf (run nodes names h)) n x = some k ↔ (n, x, k) ∈ allDecls names h := by
  have fwd : ∀ i, lastIdx (allDefs names h) n x = some i → ∃ k, (n, x, k) ∈ allDecls names h ∧
      ((run nodes names h).locals[i]?).map ptrOf = some k := by
    intro i hi
    have h1 := ((lastIdx_some _ _ _ _).1 hi).1
    rw [← allDecls_defs, List.getElem?_map, Option.map_eq_some_iff] at h1
    obtain ⟨⟨n', x', k'⟩, h2, h3⟩ := h1
    simp only [Prod.mk.injEq] at h3
    obtain ⟨rfl, rfl⟩ := h3
    refine ⟨k', List.mem_of_getElem? h2, ?_⟩
    rw [← List.getElem?_map, ← allDecls_kinds, List.getElem?_map, h2]
    rfl
  unfold kindOf
  rw [own_run hc names h ha hn]
  constructor
  · intro hk
    cases hl : lastIdx (allDefs names h) n x with
    | none => rw [hl] at hk; simp at hk
    | some i =>
      obtain ⟨k', h1, h2⟩ := fwd i hl
      rw [hl] at hk
      simp only [Option.bind_some] at hk
      rw [hk] at h2
      simp only [Option.some.injEq] at h2
      rw [h2]; exact h1
  · intro hk
    have hm : (n, x) ∈ allDefs names h := by rw [← allDecls_defs]; exact List.mem_map.2 ⟨_, hk, rfl⟩
    obtain ⟨i, hi⟩ := Option.isSome_iff_exists.1 ((lastIdx_isSome _ _ _).2 hm)
    obtain ⟨k', h1, h2⟩ := fwd i hi
    rw [hi]
    simp only [Option.bind_some]
    rw [h2, hfn _ _ _ _ hk h1]

/-! ### The program as a whole -/

/-- The variables a program starts with. -/
def seedEnv (seeds : List (String × V)) : Lexical.LEnv V W E :=
  seeds.foldl (fun ρ s y => if y = s.1 then some (.val s.2) else ρ y) fun _ => none

/-- `var.rs:26-28`, and the seeds set (`eval.rs`, `SeedVars`): every other variable starts out as `Nil`. -/
def startEnv (nil : V) (seeds : List (String × V)) (count : Nat) : Env V := seeds.map (·.2) ++ List.replicate (count - seeds.length) nil

theorem seedEnv_last (seeds : List (String × V)) (x : String) : (seedEnv seeds : Lexical.LEnv V W E) x =
    (lastIdx (seeds.map fun s => (([] : Node), s.1)) [] x).bind fun i => (seeds[i]?).map fun s => .val s.2 := by
  refine snoc_ind (P := fun seeds => (seedEnv seeds : Lexical.LEnv V W E) x =
    (lastIdx (seeds.map fun s => (([] : Node), s.1)) [] x).bind fun i => (seeds[i]?).map fun s => .val s.2) ?_ ?_ seeds
  · rfl
  · intro l s ih
    simp only [seedEnv, List.foldl_append, List.foldl_cons, List.foldl_nil, List.map_append, List.map_cons, List.map_nil] at ih ⊢
    rw [lastIdx_snoc]
    by_cases hx : x = s.1
    · subst hx
      simp
    · have : ¬ ((([] : Node), s.1) = ([], x)) := by simpa using Ne.symm hx
      rw [if_neg hx, if_neg this, ih]
      cases hl : lastIdx (l.map fun s => (([] : Node), s.1)) [] x with
      | none => rfl
      | some i =>
        have h1 := ((lastIdx_some _ _ _ _).1 hl).1
        have hlt : i < l.length := by simpa using (List.getElem?_eq_some_iff.1 h1).1
        simp only [Option.bind_some]
        rw [List.getElem?_append_left hlt]

theorem seed_locals (nodes : List Node) (names : List String) (h : List Chg) :
    ∀ i, i < names.length → (run nodes names h).locals[i]? = some (.var i) := by
  have hs : ∀ names : List String, (names.foldl (fun s name => addVar s name []) build).locals = (List.range names.length).map .var ∧
      (names.foldl (fun s name => addVar s name []) build).count = names.length := by
    intro names
    refine snoc_ind (P := fun names => (names.foldl (fun s name => addVar s name []) build).locals = (List.range names.length).map .var ∧
      (names.foldl (fun s name => addVar s name []) build).count = names.length) ⟨rfl, rfl⟩ ?_ names
    intro l x ⟨ih1, ih2⟩
    rw [List.foldl_append]
    simp only [List.foldl_cons, List.foldl_nil]
    generalize l.foldl (fun s name => addVar s name []) build = s at ih1 ih2
    simp [addVar, define, ih1, ih2, List.range_succ]
  refine snoc_ind (P := fun h => ∀ i, i < names.length → (run nodes names h).locals[i]? = some (.var i)) ?_ ?_ h
  · intro i hi
    simp [run, seed, (hs names).1, hi]
  · intro h c ih i hi
    have hlt := (List.getElem?_eq_some_iff.1 (ih i hi)).1
    rw [run_snoc]
    cases c with
    | newVar name n => simp only [apply, addVar, define]; rw [List.getElem?_append_left hlt]; exact ih i hi
    | newLazy name to n => simp only [apply, define]; rw [List.getElem?_append_left hlt]; exact ih i hi
    | «seal» op => exact ih i hi
    | breakEdge op arg => exact ih i hi
    | sealExpr e => exact ih i hi

theorem seeds_le (nodes : List Node) (names : List String) (h : List Chg) : names.length ≤ (run nodes names h).count := by
  apply Nat.le_of_not_lt
  intro hlt
  have := (slots_distinct nodes names h _ _ _ _ (seed_locals nodes names h _ hlt) (seed_locals nodes names h _ hlt)).1
  omega

/-- The graph of locals has the names of the program, once its declarations have been found, in whatever order and however
often. -/
theorem has_run {nodes : List Node} (hc : Closed nodes) (names : List String) (h : List Chg) (ha : At nodes h)
    (bs : List (SBlk V W E)) (hok : OkBlks (fun _ => False) bs) (hn : ∀ n ∈ nodesBlks [] 0 bs, n ∈ nodes)
    (hd : ∀ d, d ∈ h.flatMap declsOf ↔ d ∈ declsBlks [] 0 bs) :
    Fn (allDecls names h) ∧ HasBlks nodes (namesOf (run nodes names h)) [] 0 bs ∧
      ∀ x, (namesOf (run nodes names h)).own [.blk 0] x = none := by
  have hz : ∀ d ∈ h.flatMap declsOf, ZBlks [] 0 d.1 := fun d h => declsBlks_zone bs [] 0 d ((hd d).1 h)
  have hfn : Fn (allDecls names h) := by
    refine Fn.append (Fn.none ?_) ?_ ?_
    · intro d hd; obtain ⟨k, -, rfl⟩ := List.mem_map.1 hd; rfl
    · intro n x k k' h1 h2
      exact declsBlks_fn bs [] 0 _ hok n x k k' ((hd _).1 h1) ((hd _).1 h2)
    · intro d hd d' hd' e
      obtain ⟨k, -, rfl⟩ := List.mem_map.1 hd
      obtain ⟨j', -, h2, -⟩ := hz d' hd'
      rw [← e] at h2
      exact not_suffix_len h2 (by simp)
  have hag : Agree (namesOf (run nodes names h)) (ZBlks [] 0) (declsBlks [] 0 bs) := by
    intro n x k hzn
    by_cases hnn : n ∈ nodes
    · rw [kind_run hc names h ha hfn hnn, ← hd]
      simp only [allDecls, List.mem_append]
      refine ⟨fun hx => hx.resolve_left ?_, .inr⟩
      intro hx
      obtain ⟨k, -, e⟩ := List.mem_map.1 hx
      simp only [Prod.mk.injEq] at e
      obtain ⟨j', -, h2, -⟩ := hzn
      rw [← e.1] at h2
      exact not_suffix_len h2 (by simp)
    · have hdecl : ∀ k, (n, x, k) ∉ allDecls names h := by
        intro k hk
        have hm : (n, x) ∈ allDefs names h := by rw [← allDecls_defs]; exact List.mem_map.2 ⟨_, hk, rfl⟩
        rcases List.mem_append.1 hm with hm | hm
        · obtain ⟨k, -, e⟩ := List.mem_map.1 hm
          simp only [Prod.mk.injEq] at e
          obtain ⟨j', -, h2, -⟩ := hzn
          rw [← e.1] at h2
          exact not_suffix_len h2 (by simp)
        · obtain ⟨c, hc1, hc2⟩ := List.mem_flatMap.1 hm
          exact hnn (ha c hc1 _ hc2)
      constructor
      · intro hk
        unfold kindOf at hk
        rw [Option.map_eq_some_iff] at hk
        obtain ⟨l, hl, -⟩ := hk
        simp only [namesOf, Option.bind_eq_some_iff] at hl
        obtain ⟨l', m1, e1⟩ := hl
        split at e1
        · rename_i he
          have := (maps_defs nodes names h).2 n x l' m1
          rw [he, ← allDecls_defs] at this
          obtain ⟨⟨n', x', k'⟩, h1, h2⟩ := List.mem_map.1 (List.mem_of_getElem? this)
          simp only [Prod.mk.injEq] at h2
          obtain ⟨rfl, rfl⟩ := h2
          exact (hdecl _ h1).elim
        · cases e1
      · intro hk
        exact (hdecl k (List.mem_append.2 (.inr ((hd _).2 hk)))).elim
  refine ⟨hfn, has_blks bs [] 0 _ hok hn hag, ?_⟩
  intro x
  cases ho : (namesOf (run nodes names h)).own [.blk 0] x with
  | none => rfl
  | some l =>
    simp only [namesOf, Option.bind_eq_some_iff] at ho
    obtain ⟨l', m1, e1⟩ := ho
    split at e1
    · rename_i he
      have := (maps_defs nodes names h).2 _ x l' m1
      rw [he, ← allDecls_defs] at this
      obtain ⟨⟨n', x', k'⟩, h1, h2⟩ := List.mem_map.1 (List.mem_of_getElem? this)
      simp only [Prod.mk.injEq] at h2
      obtain ⟨rfl, rfl⟩ := h2
      rcases List.mem_append.1 h1 with h1 | h1
      · obtain ⟨k, -, e⟩ := List.mem_map.1 h1
        simp at e
      · obtain ⟨j', -, -, h3⟩ := hz _ h1
        exact absurd rfl h3
    · cases e1

/-- C30. However the declarations of a program were discovered, evaluating the compiled program is evaluating it with
lexical scope: in the specification an argument expression and the body of a command return a value and nothing else, and a
body starts with its parameters only. The compiled program does not panic. Excluded are programs where `let` names a lazy
parameter (`leak`). -/
theorem lexical_eval_partial {nodes : List Node} (hc : Closed nodes) (hroot : [] ∈ nodes) (seeds : List (String × V)) (h : List Chg)
    (ha : At nodes h) (bs : List (SBlk V W E)) (hok : OkBlks (fun _ => False) bs) (hn : ∀ n ∈ nodesBlks [] 0 bs, n ∈ nodes)
    (hd : ∀ d, d ∈ h.flatMap declsOf ↔ d ∈ declsBlks [] 0 bs) (c : List (Step V W E))
    (hcomp : compile (namesOf (run nodes (seeds.map (·.1)) h)) bs = some c) (nil x : V) (w : W) :
    Same (fun (a : V × Env V) (r : V) => a.1 = r)
      (evalStack c x (startEnv nil seeds (run nodes (seeds.map (·.1)) h).count) w)
      (Lexical.blks (seedEnv seeds) bs x w) := by
  have hg := good_run hc (seeds.map (·.1)) h ha
  obtain ⟨hfn, hhas, hfirst⟩ := has_run hc (seeds.map (·.1)) h ha bs hok hn hd
  have hle := seeds_le nodes (seeds.map (·.1)) h
  rw [List.length_map] at hle
  have hno : ∀ y, (([] : Node), y) ∉ h.flatMap Chg.defs := by
    intro y hy
    have : (([] : Node), y) ∈ (h.flatMap declsOf).map fun d => (d.1, d.2.1) := by
      have := allDecls_defs [] h
      simp only [allDecls, allDefs, List.map_nil, List.nil_append] at this
      rw [this]; exact hy
    obtain ⟨⟨n', x', k'⟩, h1, h2⟩ := List.mem_map.1 this
    simp only [Prod.mk.injEq] at h2
    obtain ⟨j', -, h3, -⟩ := declsBlks_zone bs [] 0 _ ((hd _).1 h1)
    dsimp only at h3
    rw [h2.1] at h3
    exact not_suffix_len h3 (by simp)
  have hrootown : ∀ y l, (namesOf (run nodes (seeds.map (·.1)) h)).look [] y = some l → ∃ i v, l = .var i ∧
      (seedEnv seeds : Lexical.LEnv V W E) y = some (.val v) ∧
      (startEnv nil seeds (run nodes (seeds.map (·.1)) h).count)[i]? = some v := by
    intro y l hl
    rw [hg.look _ hroot] at hl
    simp only [par, Option.bind_none, Option.or_none] at hl
    rw [own_run hc _ h ha hroot] at hl
    have hlast : lastIdx (allDefs (seeds.map (·.1)) h) [] y = lastIdx (seeds.map fun s => (([] : Node), s.1)) [] y := by
      unfold allDefs
      rw [lastIdx_append_none _ _ _ _ (hno y), List.map_map]
      rfl
    rw [hlast] at hl
    cases hi : lastIdx (seeds.map fun s => (([] : Node), s.1)) [] y with
    | none => rw [hi] at hl; simp at hl
    | some i =>
      have h1 := ((lastIdx_some _ _ _ _).1 hi).1
      have hlt : i < seeds.length := by simpa using (List.getElem?_eq_some_iff.1 h1).1
      rw [hi] at hl
      simp only [Option.bind_some] at hl
      rw [seed_locals nodes _ h i (by simpa using hlt)] at hl
      simp only [Option.some.injEq] at hl
      refine ⟨i, seeds[i].2, hl.symm, ?_, ?_⟩
      · rw [seedEnv_last, hi]
        simp [hlt]
      · unfold startEnv
        rw [List.getElem?_append_left (by simpa using hlt)]
        simp [hlt]
  have hlazy : LazyOk (namesOf (run nodes (seeds.map (·.1)) h)) [] fun _ => False := by
    intro y to hy
    obtain ⟨i, v, e, -⟩ := hrootown y _ hy
    cases e
  have hsim : Sim (namesOf (run nodes (seeds.map (·.1)) h)) (fun _ => none) [] [] (seedEnv seeds : Lexical.LEnv V W E)
      (startEnv nil seeds (run nodes (seeds.map (·.1)) h).count) := by
    refine ⟨List.suffix_refl _, ?_, ?_⟩
    · intro y s hy
      obtain ⟨i, v, e, h1, h2⟩ := hrootown y _ hy
      cases e
      exact ⟨v, h1, h2⟩
    · intro y to hy
      exact (hlazy y to hy).elim
  refine blks_sim hg bs _ [] 0 _ c (fun hne => lazy_first hg hlazy (HasBlks.first hhas hne) hfirst) hok hhas hcomp [] _ _
    (List.suffix_refl _) (fun hne => Sim.plain hg hsim (HasBlks.first hhas hne) rfl (List.suffix_cons _ _) hfirst) ?_ x w
  simp only [startEnv, List.length_append, List.length_map, List.length_replicate]
  omega

/-! ### What the specification says of commands -/

/-- C30, of the specification. The block after a call of a command has the environment of the call. -/
theorem call_keeps (ρ ρ' : Lexical.LEnv V W E) (k : Nat) (as : List (SArg V W E)) (params : List (String × Bool)) (body : List (SBlk V W E))
    (x v : V) (w w' : W) (h : Lexical.blk ρ (.call k as params body) x w = (.ok (v, ρ'), w')) : ρ' = ρ := by
  simp only [Lexical.blk] at h
  split at h
  · split at h
    · simp only [Prod.mk.injEq, Out.ok.injEq] at h; exact h.1.2.symm
    · simp at h
    · simp at h
  · simp at h
  · simp at h

theorem args_congr (ρ ρ' : Lexical.LEnv V W E) : ∀ (as : List (SArg V W E)), (∀ a ∈ as, Lexical.arg ρ a = Lexical.arg ρ' a) →
    Lexical.args ρ as = Lexical.args ρ' as
  | [], _ => rfl
  | a :: as, h => by
    simp only [Lexical.args]
    rw [h a (by simp), args_congr ρ ρ' as fun b hb => h b (by simp [hb])]

/-- C30, of the specification. A command sees the variables of its caller only through its arguments: called from two
places whose arguments evaluate alike, it gives the same value and has the same effects. -/
theorem call_sees_params (ρ ρ' : Lexical.LEnv V W E) (k : Nat) (as : List (SArg V W E)) (params : List (String × Bool))
    (body : List (SBlk V W E)) (h : ∀ a ∈ as, Lexical.arg ρ a = Lexical.arg ρ' a) (x : V) (w : W) :
    Same (fun a b => a.1 = b.1) (Lexical.blk ρ (.call k as params body) x w) (Lexical.blk ρ' (.call k as params body) x w) ∨
    (Lexical.blk ρ (.call k as params body) x w).1 = .panic ∧ (Lexical.blk ρ' (.call k as params body) x w).1 = .panic := by
  simp only [Lexical.blk, args_congr ρ ρ' as h]
  generalize Lexical.bindParams params (Lexical.args ρ' as) x (fun _ => none) w = r
  match r with
  | (.ok ρ'', w) =>
    dsimp only
    generalize Lexical.blks ρ'' body x w = r
    match r with
    | (.ok v, w) => exact .inl ⟨rfl, rfl⟩
    | (.err e, w) => exact .inl ⟨rfl, rfl⟩
    | (.panic, w) => exact .inr ⟨rfl, rfl⟩
  | (.err e, w) => exact .inl ⟨rfl, rfl⟩
  | (.panic, w) => exact .inr ⟨rfl, rfl⟩

/-- C30. Calling a command leaves every variable declared outside its body as it was. -/
theorem call_frame_partial {nodes : List Node} {g : Names} {count : Nat} (hg : Good nodes g count) (k : Nat) (args : List (SArg V W E))
    (params : List (String × Bool)) (body : List (SBlk V W E)) (Δ : Ptrs V W E) (b : Node) (next : Option Node) (lazy : String → Prop)
    (st : Step V W E) (hok : OkBlk lazy (.call k args params body)) (hhas : HasBlk nodes g b next (.call k args params body))
    (hc : cBlk g Δ b next (.call k args params body) = some st) (x v : V) (env env' : Env V) (w w' : W)
    (he : evalStep st x env w = (.ok (v, env'), w')) (n : Node) (y : String) (s : Nat) (ho : g.own n y = some (.var s))
    (hout : ¬ .body k :: b <:+ n) : env'[s]? = env[s]? := by
  have hw : Writes (Under g (.body k :: b)) st := by
    simp only [OkBlk] at hok
    simp only [HasBlk] at hhas
    simp only [cBlk] at hc
    split at hc
    · cases hc
    · rename_i as h1
      split at hc
      · rename_i ps ss h2 h3
        simp only [Option.some.injEq] at hc; subst hc
        simp only [Writes]
        refine ⟨fun q hq => ?_, ?_⟩
        · obtain ⟨x, hx⟩ := cParams_mem h2 q hq
          exact ⟨_, x, hx, List.suffix_refl _⟩
        · have hlz := lazy_body hg hhas.2.2.2.1 hok.2.2.1 hhas.2.2.2.2.1 hhas.2.2.2.2.2.2.1
          refine WritesL.mono (fun s hs => hs.under) ss
            (cBlks_writes hg body _ (.body k :: b) 0 _ ss ?_ hok.2.2.2 hhas.2.2.2.2.2.2.2.2 h3)
          intro hne
          exact lazy_first hg hlz (HasBlks.first hhas.2.2.2.2.2.2.2.2 hne) hhas.2.2.2.2.2.2.2.1
      · cases hc
  refine (evalStep_frame st hw x env w v env' w' he).2 s ?_
  rintro ⟨m, z, hm, hsuf⟩
  obtain ⟨rfl, -⟩ := hg.inj _ _ _ _ _ ho hm
  exact hout hsuf

/-! ### Examples -/

/-- `pipeline.rs:420-455` `let`: without arguments but a name. -/
def letInput : Nat → Prog Nat (List Nat) Unit := fun x => .setv 0 x (.ret x)

/-- `let <arg> $x`. -/
def letArg : Nat → Prog Nat (List Nat) Unit := fun x =>
  .resolve 0 x fun r => match r with
    | .ok v => .setv 0 v (.ret x)
    | .error e => .fail e

/-- `+ <arg>`, noting its operand. -/
def plus : Nat → Prog Nat (List Nat) Unit := fun x =>
  .resolve 0 x fun r => match r with
    | .ok v => .act (fun w => (w ++ [v], .ok v)) fun v => .ret (x + v)
    | .error e => .fail e

/-- `map`-like: provides `$row` to its argument, twice. -/
def twice : Nat → Prog Nat (List Nat) Unit := fun x =>
  .setv 0 x (.resolve 0 x fun r => match r with
    | .ok v => .setv 0 v (.resolve 0 v fun r => match r with
      | .ok v => .ret v
      | .error e => .fail e)
    | .error e => .fail e)

/-- The same declarations as a history of changes. -/
def chgOf : Decl → Chg
  | (n, x, none) => .newVar x n
  | (n, x, some to) => .newLazy x to n

theorem chgOf_decls (D : List Decl) : (D.map chgOf).flatMap declsOf = D := by
  induction D with
  | nil => rfl
  | cons d D ih =>
    obtain ⟨n, x, k⟩ := d
    simp only [List.map_cons, List.flatMap_cons, ih]
    cases k <;> rfl

/-- `let $y | cmd $y {+ $y} | + $y | twice {+ $row}` with `def cmd (p e:Expr) { let $y | + $p | + $e }`. -/
def sample : List (SBlk Nat (List Nat) Unit) :=
  [.prim [] [(0, "y")] [] letInput true,
   .call 0 [.var "y", .expr [.prim [.var "y"] [] [] plus false]] [("p", false), ("e", true)]
     [.prim [] [(0, "y")] [] letInput true, .prim [.var "p"] [] [] plus false, .prim [.var "e"] [] [] plus false],
   .prim [.var "y"] [] [] plus false,
   .prim [.expr [.prim [.var "row"] [] [] plus false]] [] [(0, "row")] twice false]

def sampleNodes : List Node := [] :: nodesBlks [] 0 sample

theorem sample_ok : OkBlks (fun _ => False) sample := by
  simp only [sample, OkBlks, OkBlk, OkArgs, OkArg, after, letInput, plus, twice, Safe, Lexical.keysOf]
  refine ⟨⟨trivial, by simp, by simp, by simp, by simp, fun x => ⟨(none, "y"), by simp, by simp⟩⟩,
    ⟨⟨trivial, ⟨⟨⟨trivial, trivial⟩, by simp, by simp, by simp, by simp, ?_⟩, trivial⟩, trivial⟩, by simp, by simp,
      ⟨trivial, by simp, by simp, by simp, by simp, fun x => ⟨(none, "y"), by simp, by simp⟩⟩,
      ⟨⟨trivial, trivial⟩, by simp, by simp, by simp, by simp, ?_⟩, ⟨⟨trivial, trivial⟩, by simp, by simp, by simp, by simp, ?_⟩, trivial⟩,
    ⟨⟨trivial, trivial⟩, by simp, by simp, by simp, by simp, ?_⟩,
    ⟨⟨⟨⟨⟨trivial, trivial⟩, by simp, by simp, by simp, by simp, ?_⟩, trivial⟩, trivial⟩, by simp, by simp, by simp, by simp, ?_⟩, trivial⟩
  all_goals intro x
  case refine_6 =>
    refine ⟨_, rfl, by simp, by simp, ?_⟩
    intro r
    cases r with
    | error e => trivial
    | ok v =>
      refine ⟨_, rfl, by simp, by simp, ?_⟩
      intro r
      cases r with
      | error e => trivial
      | ok v => simp [Safe]
  all_goals
    refine ⟨by simp, by simp, ?_⟩
    intro r
    cases r <;> simp [Safe]

theorem sample_closed : Closed sampleNodes := ⟨by decide +kernel, by decide +kernel⟩

/-- The hypotheses of `lexical_eval_partial` are met, in one order of discovery and in the opposite one. The command does
not disturb the caller's `y`, and the expression passed to it means the caller's `y`: from 3, `cmd` gives 6 + (6 + 3), then
`+ $y` gives 18, and `twice` doubles twice. -/
example : ∀ h ∈ [(declsBlks [] 0 sample).map chgOf, (declsBlks [] 0 sample).reverse.map chgOf],
    At sampleNodes h ∧ (∀ d, d ∈ h.flatMap declsOf ↔ d ∈ declsBlks [] 0 sample) ∧
    ∃ c, compile (namesOf (run sampleNodes [] h)) sample = some c ∧
      ∃ env w, evalStack c 3 (startEnv 0 [] (run sampleNodes [] h).count) [] = (.ok (72, env), w) := by
  intro h hh
  have key : ∀ D : List Decl, (∀ d, d ∈ D ↔ d ∈ declsBlks [] 0 sample) → (∀ c ∈ D.map chgOf, ∀ d ∈ c.defs, d.1 ∈ sampleNodes) →
      (match compile (namesOf (run sampleNodes [] (D.map chgOf))) sample with
        | some c => match evalStack c 3 (startEnv 0 [] (run sampleNodes [] (D.map chgOf)).count) [] with
          | (.ok (v, _), _) => v == 72
          | _ => false
        | none => false) = true →
      At sampleNodes (D.map chgOf) ∧ (∀ d, d ∈ (D.map chgOf).flatMap declsOf ↔ d ∈ declsBlks [] 0 sample) ∧
      ∃ c, compile (namesOf (run sampleNodes [] (D.map chgOf))) sample = some c ∧
        ∃ env w, evalStack c 3 (startEnv 0 [] (run sampleNodes [] (D.map chgOf)).count) [] = (.ok (72, env), w) := by
    intro D hD hA hR
    refine ⟨hA, by rw [chgOf_decls]; exact hD, ?_⟩
    split at hR
    · rename_i c hcomp
      refine ⟨c, hcomp, ?_⟩
      split at hR
      · rename_i v env w he
        refine ⟨env, w, ?_⟩
        rw [he, eq_of_beq hR]
      · cases hR
    · cases hR
  simp only [List.mem_cons, List.not_mem_nil, or_false] at hh
  rcases hh with rfl | rfl
  · exact key _ (fun d => Iff.rfl) (by decide +kernel) (by decide +kernel)
  · exact key _ (fun d => List.mem_reverse) (by decide +kernel) (by decide +kernel)

/-- A variable that no block can read is not declared, and its `let` compiles: nothing is written. -/
theorem let_last (g : Names) (x : String) (hx : ∀ to, g.look [.arg 0, .blk 0] x ≠ some (.ptr to)) :
    ∃ c, compile g [.prim [] [(0, x)] [] letInput true] = some c ∧
      ∀ (v : Nat) (env : Env Nat) (w : List Nat), (evalStack c v env w).1 = .ok (v, env) := by
  have hl : letSlot (V := Nat) (W := List Nat) (E := Unit) g (fun _ => none) [.blk 0] none (0, x) = some none := by
    unfold letSlot
    split
    · rename_i to h
      exact absurd h (hx to)
    · rfl
  simp [compile, cBlks, cBlk, cArgs, mapOpt, hl, evalStack, evalStep, evalArgs, letInput, runProg]

/-- `let $y | setit $y | + $y` with `def setit (x:Expr) { let 5 $x }`. -/
def leaky : List (SBlk Nat (List Nat) Unit) :=
  [.prim [] [(0, "y")] [] letInput true,
   .call 0 [.var "y"] [("x", true)] [.prim [.lit 5] [(1, "x")] [] letArg true],
   .prim [.var "y"] [] [] plus false]

def leakyNodes : List Node := [] :: nodesBlks [] 0 leaky

/-- What the compiler declares for it: `let` follows the lazy parameter to the caller's `$y`, and declares `y` for the
block after the call. -/
def leakyHistory : List Chg := [.newVar "y" [.blk 1], .newLazy "x" [.arg 0, .blk 1] [.body 0, .blk 1], .newVar "y" [.blk 2]]

/-- C30 is false as the code stands: a command can change a variable of its caller. `let 5 $x` inside a command, where `x`
is a lazy parameter and the argument is `$y`, rebinds the `y` of the caller: from 1, `+ $y` gives 6. With lexical scope it
is 2. -/
theorem leak :
    (∃ c env w, compile (namesOf (run leakyNodes [] leakyHistory)) leaky = some c ∧
      evalStack c 1 (startEnv 0 [] (run leakyNodes [] leakyHistory).count) [] = (.ok (6, env), w)) ∧
    Lexical.blks (fun _ => none) leaky 1 [] = (.ok 2, [1]) := by
  constructor
  · have hR : (match compile (namesOf (run leakyNodes [] leakyHistory)) leaky with
        | some c => match evalStack c 1 (startEnv 0 [] (run leakyNodes [] leakyHistory).count) [] with
          | (.ok (v, _), _) => v == 6
          | _ => false
        | none => false) = true := by decide +kernel
    split at hR
    · rename_i c hcomp
      split at hR
      · rename_i v env w he
        exact ⟨c, env, w, hcomp, by rw [he, eq_of_beq hR]⟩
      · cases hR
    · cases hR
  · rfl

end Verif.Step
