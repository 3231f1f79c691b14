import Verif.Spec.Comp
/-! Syntax graphs and compilers given by tables, for examples. -/
namespace Verif.Comp
open Verif
variable {T : Type} [DecidableEq T]

def look {α : Type} (d : α) : List (Nat × α) → Nat → α
  | [], _ => d
  | (m, a) :: xs, n => if m = n then a else look d xs n

theorem look_cases {α : Type} (d : α) : ∀ (xs : List (Nat × α)) (n : Nat), look d xs n = d ∨ (n, look d xs n) ∈ xs
  | [], _ => .inl rfl
  | (m, a) :: xs, n => by
    unfold look
    split
    · rename_i h; subst h; exact .inr (by simp)
    · exact (look_cases d xs n).imp_right fun h => List.mem_cons_of_mem _ h

theorem look_mem {α : Type} {xs : List (Nat × List α)} {n : Nat} {a : α} (h : a ∈ look [] xs n) : ∃ l, (n, l) ∈ xs ∧ a ∈ l := by
  rcases look_cases [] xs n with e | e
  · rw [e] at h; cases h
  · exact ⟨_, e, h⟩

/-- A program given by tables. -/
structure Tab (T : Type) where
  places : List Loc.Node
  /-- The expressions with their blocks. -/
  blocks : List (Nat × List Nat)
  /-- The blocks with their arguments. -/
  args : List (Nat × List Nat)
  /-- The blocks with their commands. -/
  cmds : List (Nat × List (Option T × Cmd))
  /-- The definitions with their block, expression and parameters. -/
  defs : List (Nat × Nat × Nat × List (String × Blk.PTy T))
  /-- The literals and variables, variables with their name. -/
  lits : List (Nat × Option String)
  /-- The nodes with those above them, from the root on. -/
  path : List (Nat × List Nat)
  full : List T
  inp : List (Nat × Ty.Kn T)
  out : List (Nat × Ty.Kn T)
  edges : List Ty.Edge

/-- The key under which a node is listed. -/
def keyOf (xs : List (Nat × List Nat)) (n : Nat) : Nat :=
  match xs.find? fun x => n ∈ x.2 with
  | some x => x.1
  | none => 0

def Tab.ast (p : Tab T) : Ast T where
  places := p.places
  exprs := p.blocks.map (·.1)
  ops := p.args.map (·.1)
  blocks := look [] p.blocks
  parent := keyOf p.blocks
  args := look [] p.args
  opOf := keyOf p.args
  cmds := look [] p.cmds
  owner d := (look (0, 0, []) p.defs d).1
  body d := (look (0, 0, []) p.defs d).2.1
  params d := (look (0, 0, []) p.defs d).2.2
  flagged _ := false
  lits := p.lits.map (·.1)
  var := look none p.lits
  under a b := a ∈ (look [] p.path b)
  path n := look [] p.path n ++ [n]

def Tab.kn (p : Tab T) (n : Nat) : Ty.Side → Ty.Kn T
  | .inp => look (.inferred p.full) p.inp n
  | .out => look (.inferred p.full) p.out n

def Tab.start (p : Tab T) : S T :=
  ⟨⟨p.kn, p.edges, [], []⟩, Loc.seed p.places [], [], [], [], [], [], 0, [], []⟩

def okSet : Ty.Kn T → Bool
  | .inferred ts => decide ts.Nodup
  | _ => true

/-- The definitions called by a list of implementations. -/
def called (l : List (Option T × Cmd)) : List (Option T × Nat) := l.filterMap fun c => c.2.def?.map fun d => (c.1, d)

theorem mem_called {l : List (Option T × Cmd)} {k : Option T} {d : Nat} : (k, d) ∈ called l ↔ (k, Cmd.defn d) ∈ l := by
  simp only [called, List.mem_filterMap, Option.map_eq_some_iff, Prod.mk.injEq]
  constructor
  · rintro ⟨⟨k', c⟩, h, d', hd, rfl, rfl⟩
    cases c with
    | intrinsic => cases hd
    | defn => cases hd; exact h
  · intro h; exact ⟨_, h, d, rfl, rfl, rfl⟩

instance (g : Ty.State T) (op d : Nat) (k : Option T) : Decidable (Entered g op d k) :=
  match k with
  | none => inferInstanceAs (Decidable (_ ∈ _))
  | some _ => inferInstanceAs (Decidable (_ ∨ _))

def isArg (q : Loc.Node) : Loc.Node → Bool
  | .arg _ :: p => p = q
  | _ => false

theorem isArg_spec {q p : Loc.Node} (h : isArg q p = true) : ∃ i, p = .arg i :: q := by
  unfold isArg at h
  split at h
  · rename_i i p'; exact ⟨i, by rw [of_decide_eq_true h]⟩
  · cases h

/-- A decidable form of `Ast.Wf` and `Start`. -/
def Tab.ok (p : Tab T) (names : List String) : Bool :=
  decide (p.places.Nodup) &&
  decide (p.ast.ops.Nodup) &&
  (p.ast.ops.all fun op => decide (op < p.ast.count ∧ p.ast.parent op ∈ p.ast.exprs)) &&
  (p.ast.exprs.all fun e => decide (e < p.ast.count ∧ p.ast.blocks e ≠ [])) &&
  (p.args.all fun x => x.2.all fun a => decide (a < p.ast.count ∧ p.ast.opOf a = x.1 ∧ a ∉ p.ast.ops ∧ a ∉ p.ast.bodies ∧
    isArg (p.ast.place x.1) (p.ast.place a) = true)) &&
  (p.ast.bodies.all fun e => decide (e < p.ast.count)) &&
  (p.cmds.all fun x => (called x.2).all fun c => decide (p.ast.owner c.2 = x.1)) &&
  (p.blocks.all fun x => x.2.all fun op => decide (op ∈ p.ast.ops)) &&
  (p.ast.lits.all fun n => decide (n ∉ p.ast.exprs ∧ n ∉ p.ast.ops)) &&
  (p.ast.defs.all fun d => decide (d ∉ p.ast.lits)) &&
  (p.lits.all fun x => x.2.all fun v => decide (v ∈ names)) &&
  (p.defs.all fun x => x.2.2.2.all fun q => decide (q.1 ∈ names)) &&
  decide p.full.Nodup && (p.inp.all fun x => okSet x.2) && (p.out.all fun x => okSet x.2) &&
  (p.inp.all fun x => decide (x.2 = .any → x.1 ∈ p.ast.lits)) &&
  (p.ast.exprs.all fun e => (p.ast.flows e).all fun x => decide (x ∈ p.edges)) &&
  (p.ast.ops.all fun op => (called (p.ast.cmds op)).all fun c =>
    decide (⟨c.2, p.ast.body c.2, .ii⟩ ∈ p.edges ∧ Entered p.start.tg op c.2 c.1)) &&
  (p.edges.all fun x => decide (x.flow = .ii → x.src ∈ p.ast.lits → x.dst ∈ p.ast.lits)) &&
  (p.ast.ops.all fun op => decide (op ∉ p.ast.bodies)) &&
  (p.ast.defs.all fun d => p.ast.defs.all fun d' => decide (p.ast.body d = p.ast.body d' → d = d')) &&
  (p.ast.defs.all fun d => !p.start.lg.isSealed (p.ast.place (p.ast.body d)))

theorem Tab.wf {p : Tab T} {names : List String} (h : p.ok names = true) : p.ast.Wf names ∧ Start p.ast p.start := by
  simp only [Tab.ok, Bool.and_eq_true, decide_eq_true_eq, List.all_eq_true] at h
  obtain ⟨⟨⟨⟨⟨⟨⟨⟨⟨⟨⟨⟨⟨⟨⟨⟨⟨⟨⟨⟨⟨h1, h2⟩, h3⟩, h4⟩, h5⟩, h6⟩, h7⟩, h8⟩, h9⟩, h10⟩, h11⟩, h12⟩, h13⟩, h14⟩, h15⟩, h16⟩, h17⟩, h18⟩, h19⟩, h20⟩, h21⟩, h22⟩ := h
  have ha : ∀ op, ∀ a ∈ p.ast.args op, a < p.ast.count ∧ p.ast.opOf a = op ∧ a ∉ p.ast.ops ∧ a ∉ p.ast.bodies ∧
      isArg (p.ast.place op) (p.ast.place a) = true := by
    intro op a h
    obtain ⟨l, hl, hx⟩ := look_mem h
    exact h5 _ hl a hx
  constructor
  · refine ⟨h1, fun op h => (h3 op h).1, h2, fun e h => (h4 e h).1, fun op a h => (ha op a h).1, fun op a h => (ha op a h).2.1,
      fun op a h => (ha op a h).2.2.1, fun op a h => (ha op a h).2.2.2.1, h6, ?_, ?_, fun op h => (h3 op h).2, fun e h => (h4 e h).2,
      fun n h => (h9 n h).1, fun n h => (h9 n h).2, h10, ?_, ?_, ?_, h20, h21, fun op a h => isArg_spec (ha op a h).2.2.2.2⟩
    · intro op _ c hc d hd
      obtain ⟨l, hl, hx⟩ := look_mem hc
      obtain ⟨k, c⟩ := c
      dsimp only at hd
      subst hd
      exact h7 _ hl (k, d) (mem_called.2 hx)
    · intro e op h
      obtain ⟨l, hl, hx⟩ := look_mem h
      exact h8 _ hl op hx
    · intro n v h
      rcases look_cases none p.lits n with e | e
      · simp only [Tab.ast] at h; rw [e] at h; cases h
      · exact List.mem_map.2 ⟨_, e, rfl⟩
    · intro n v h
      rcases look_cases none p.lits n with e | e
      · simp only [Tab.ast] at h; rw [e] at h; cases h
      · have h' : look none p.lits n = some v := h
        rw [h'] at e
        have := h11 _ e
        simpa using this
    · intro d q hq
      rcases look_cases (0, 0, []) p.defs d with e | e
      · simp only [Tab.ast] at hq; rw [e] at hq; cases hq
      · exact h12 _ e q hq
  · have hs : ∀ k : Ty.Kn T, okSet k = true → ∀ ts, k = Ty.Kn.inferred ts → ts.Nodup := by
      intro k hk ts e; subst e; simpa [okSet] using hk
    refine ⟨?_, rfl, rfl, ?_, h17, ?_, h19, fun q h => (by cases h), rfl, rfl, rfl, rfl, rfl, fun d hd => by simpa using h22 d hd⟩
    · intro n sd ts e
      cases sd with
      | inp =>
        have e' : look (.inferred p.full) p.inp n = .inferred ts := e
        rcases look_cases (.inferred p.full) p.inp n with h | h
        · rw [h] at e'; cases e'; exact h13
        · exact hs _ (h14 _ h) ts e'
      | out =>
        have e' : look (.inferred p.full) p.out n = .inferred ts := e
        rcases look_cases (.inferred p.full) p.out n with h | h
        · rw [h] at e'; cases e'; exact h13
        · exact hs _ (h15 _ h) ts e'
    · intro n e
      have e' : look (.inferred p.full) p.inp n = .any := e
      rcases look_cases (.inferred p.full) p.inp n with h | h
      · rw [h] at e'; cases e'
      · exact h16 _ h e'
    · intro op ho k d hd
      exact h18 op ho (k, d) (mem_called.2 hd)

end Verif.Comp
