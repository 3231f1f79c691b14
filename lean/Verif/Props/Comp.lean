import Verif.Lemmas.CompCalls
import Verif.Lemmas.CompTab
import Verif.Model.Cmds
/-! C67-C72: compiling a program. -/
namespace Verif.Comp
open Verif
set_option linter.unusedSectionVars false
variable {T : Type} [DecidableEq T]

/-- C67: compiling ends. There is a result, a compiler or an error, that does not change however many more rounds are
allowed. -/
theorem compiling_ends {A : Ast T} {I : Builtins T} {names : List String} {ord : List Nat → List Nat} {s : S T} (hw : A.Wf names)
    (hn : I.Named names) (hord : OrderOk ord) (hs : Start A s) (root : Nat) :
    ∃ F r, ∀ f, F ≤ f → compile A I ord f root s = some r := by
  obtain ⟨F, hF⟩ := compile_ends hw hn hord s (start_inv hs) root
  obtain ⟨r, hr⟩ := Option.isSome_iff_exists.1 hF
  exact ⟨F, r, fun f hf => compile_mono hf _ _ _ hr⟩

/-- C68, as far as it holds: when compiling panics for want of an error to report, types are being tried, and the program
itself is compiled. -/
theorem panics_only_when_compiled_partial {A : Ast T} {I : Builtins T} {names : List String} {ord : List Nat → List Nat} {s : S T}
    (hw : A.Wf names) (hn : I.Named names) (hord : OrderOk ord) (hs : Start A s) {root : Nat} (hr : root ∈ A.exprs) {t : T}
    (ht : Ty.Settled (s.tg.kn root .inp) t) {f : Nat} (h : compile A I ord f root s = some (.error .expect)) :
    ∃ s' : S T, s.depth < s'.depth ∧ root ∈ s'.exprs ∧ ∃ o, Pipe s'.steps (A.blocks root) t o := by
  have hi := start_inv hs
  have hk : Kept A I (fun _ : S T => True) := ⟨fun _ _ _ _ _ => trivial, fun _ _ _ _ _ _ => trivial⟩
  rcases compile_traced hw hn hord hk f root s _ hi trivial h with h | ⟨_, s', _, hg, hf, hc, hb, hx⟩ | ⟨h, _⟩
  · rcases h with h | h | h <;> cases h
  · have hin := expect_done hw hg.inv hf hc hb hr (hg.later.keeps _ _ _ ht)
    rcases hx with hx | hx
    · exact absurd hin hx
    · obtain ⟨_, i, o, h1, _, h3⟩ := hg.inv.exprs _ hin
      have e : i = t := settled_eq h1 (hg.later.keeps _ _ _ ht)
      subst e
      exact ⟨s', hx, hin, o, h3⟩
  · cases h

/-- C69, as far as it holds: types are tried at most five deep, counting those that were adopted, and a program is refused
for that only if it got there. -/
theorem five_deep_partial {A : Ast T} {I : Builtins T} {names : List String} {ord : List Nat → List Nat} {s : S T} (hw : A.Wf names)
    (hn : I.Named names) (hord : OrderOk ord) (hs : Start A s) (hd : s.depth = 0) {root f : Nat} :
    (∀ c, compile A I ord f root s = some (.ok c) → c.depth ≤ 5) ∧
    (compile A I ord f root s = some (.error .depth) → ∃ s' : S T, Later s s' ∧ s'.depth = 5) := by
  have hi := start_inv hs
  have key := fun r => compile_traced hw hn hord (depth_kept A I) f root s r hi (by show s.depth ≤ 5; omega)
  refine ⟨fun c h => key _ h, fun h => ?_⟩
  rcases key _ h with h | ⟨h, _⟩ | ⟨_, s', h1, h2, h3⟩
  · rcases h with h | h | h <;> cases h
  · cases h
  · exact ⟨s', h2.later, Nat.le_antisymm h1 h3⟩

/-- C70: what is compiled fits together. The program is a pipeline from its input type to some output type, and so is every
expression that was compiled; every step is what the implementation for its input type does. -/
theorem compiled_fits {A : Ast T} {I : Builtins T} {names : List String} {ord : List Nat → List Nat} {s c : S T} (hw : A.Wf names)
    (hn : I.Named names) (hord : OrderOk ord) (hs : Start A s) {root f : Nat} {t : T} (ht : Ty.Settled (s.tg.kn root .inp) t)
    (h : compile A I ord f root s = some (.ok c)) :
    (∃ o, Pipe c.steps (A.blocks root) t o) ∧
    (∀ e ∈ c.exprs, ∃ i o, Ty.Settled (c.tg.kn e .inp) i ∧ Ty.Settled (c.tg.kn e .out) o ∧ Pipe c.steps (A.blocks e) i o) ∧
    (∀ op u v, (op, u, v) ∈ c.steps → StepOk A I c op u v) := by
  have hi := start_inv hs
  obtain ⟨hg, _⟩ := compile_ok hw hn hord f root s c h hi
  have hroot := compile_done f h
  have hex : ∀ e ∈ c.exprs, ∃ i o, Ty.Settled (c.tg.kn e .inp) i ∧ Ty.Settled (c.tg.kn e .out) o ∧ Pipe c.steps (A.blocks e) i o :=
    fun e he => (hg.inv.exprs e he).2
  refine ⟨?_, hex, fun op u v hx => ?_⟩
  · obtain ⟨i, o, h1, _, h3⟩ := hex root hroot
    have e : i = t := settled_eq h1 (hg.later.keeps _ _ _ ht)
    subst e
    exact ⟨o, h3⟩
  · have := compile_traced hw hn hord (steps_kept hw hn) f root s _ hi
      ⟨⟨hs.calls⟩, fun x hx => by rw [hs.steps] at hx; cases hx⟩ h
    exact this.2 _ hx

theorem Points.expr {A : Ast T} {s : S T} {n m : Nat} (hn : A.var n = none) (h : Points A s n m) : m = n := by
  cases h with
  | here => rfl
  | there hv => rw [hn] at hv; cases hv

/-- C71, as far as it holds: an expression is compiled for the input it is given, if it is written in place. -/
theorem arguments_fit_partial {A : Ast T} {I : Builtins T} {names : List String} {ord : List Nat → List Nat} {s c : S T} (hw : A.Wf names)
    (hn : I.Named names) (hord : OrderOk ord) (hs : Start A s) {root f : Nat} {t : T} (ht : Ty.Settled (s.tg.kn root .inp) t)
    (h : compile A I ord f root s = some (.ok c)) :
    ∀ op u v, (op, u, v) ∈ c.steps → (∃ d, Chosen A op u (.defn d)) ∨ ∃ i, Chosen A op u (.intrinsic i) ∧ ArgsFit A I c i op u v := by
  obtain ⟨_, hex, hst⟩ := compiled_fits hw hn hord hs ht h
  intro op u v hx
  rcases hst op u v hx with ⟨i, hc, s', anon, h1, h2, h3, h4⟩ | ⟨d, hc, _⟩
  · refine .inr ⟨i, hc, s', anon, h1, h2, h3, fun a w hsup hcon => ?_⟩
    have hr : Ready A s' a := h4 a _ hcon
    obtain ⟨m, o, hp, ho, hh⟩ := hr
    refine ⟨m, hp, fun hm => ?_⟩
    have hvm : A.var m = none := by
      cases hv : A.var m with
      | none => rfl
      | some x => exact absurd hm (hw.lit_expr m (hw.var_lit m x hv))
    rcases hh with ⟨x, slot, hv, _⟩ | ⟨_, hin, hout⟩
    · rw [hvm] at hv; cases hv
    · obtain ⟨x, o', h5, h6, h7⟩ := hex m (h1.2.1 m (hin hm))
      have e1 : o' = o := settled_eq h6 (h1.2.2 _ _ _ hout)
      subst e1
      refine ⟨x, o', h7, fun e => ?_, fun y hy => ?_⟩
      · subst e
        have hmet : Met A s' a (.supplied w) := h4 a _ hsup
        rcases hmet with hl | hl
        · exact absurd hm (hw.lit_expr a hl)
        · exact settled_eq h5 (h1.2.2 _ _ _ hl)
      · have hmet : Met A s' a (.returns y) := h4 a _ hy
        exact settled_eq ho hmet
  · exact .inl ⟨d, hc⟩

/-- C72, as far as it holds: a call of a definition that uses its parameters is in keeping with the declaration. -/
theorem calls_as_declared_partial {A : Ast T} {I : Builtins T} {names : List String} {ord : List Nat → List Nat} {s c : S T} (hw : A.Wf names)
    (hn : I.Named names) (hord : OrderOk ord) (hs : Start A s) {root f : Nat} (h : compile A I ord f root s = some (.ok c)) :
    ∀ op t u, (op, t, u) ∈ c.steps → (∃ i, Chosen A op t (.intrinsic i)) ∨ CallOk A I c op t := by
  intro op t u hx
  have := compile_traced hw hn hord (calls_kept hw hn) f root s _ (start_inv hs) (fun x hx => by rw [hs.steps] at hx; cases hx) h
  exact (this _ hx).imp_left fun ⟨i, hc, _⟩ => ⟨i, hc⟩

/-! ### Programs -/

/-- What some built-in commands do (`lang/impls/intrinsics/`): `ls`, `filter` on tables, `get` on rows, `let` with at most one
variable, `is-finite`, `len`, `ls` on tables, `filter` on strings, `\` with a number, `get` on rows with a number for want of a
value, `let` with a number, `+` with one argument, and `get` on types without fields. -/
def commands (A : Ast Tp) : Builtins Tp := fun s i op t =>
  match i with
  | 0 => ([.output .tab], .ok .tab [])
  | 1 => ([.output .tab, .next, .supplied .row, .returns .bool, .concrete], .ok .tab [])
  | 2 => ([.next, .supplied .nil, .returns .str, .concrete, .infer],
      match outputTy A s op with | some t => .ok t [] | none => .fail false)
  | 3 => (match A.args op with
      | [] => [.addsVars false, .output t, .varsAdded]
      | _ => [.addsVars false, .output t, .obligeArgs t, .next, .createVar t, .varsAdded], .ok t [])
  | 4 => ([], .ok .bool [])
  | 5 => ([.output .num], .ok .num [])
  | 6 => ([.output .tab], .ok .tab [])
  | 7 => ([.output .str, .next, .supplied .str, .returns .bool, .concrete], .ok .str [])
  | 9 => ([.next, .supplied t, .concrete, .output .num], .ok .num [])
  | 10 => ([.next, .supplied .nil, .returns .str, .concrete, .next, .supplied .nil, .concrete], .ok .num [])
  | 11 => ([.addsVars false, .output t, .obligeArgs t, .next, .supplied t, .concrete, .next, .createVar .num, .varsAdded], .ok t [])
  | 12 => ([.output t, .obligeArgs t, .next, .supplied t, .returns t, .concrete], .ok t [])
  | _ => ([.next, .supplied t, .concrete], .fail true)

theorem commands_named (A : Ast Tp) (names : List String) : (commands A).Named names := by
  intro s i op t name u h
  unfold commands at h
  split at h <;> (try dsimp only at h) <;> (try split at h) <;> simp at h

def base (k : Nat) : Nat := 2 + 6 * k

def allTypes : List Tp := [.nil, .num, .str, .tab, .row, .bool]

/-- `ls | filter {get size | let | is-finite} | filter {get size | let | is-finite} | …`, with so many filters. What `get` puts
out is not known from what comes next. -/
def chain (n : Nat) : Tab Tp where
  places := [] :: [.blk 0] :: (List.range n).flatMap fun k =>
    [[.blk (k + 1)], [.arg 0, .blk (k + 1)], [.blk 0, .arg 0, .blk (k + 1)], [.blk 1, .arg 0, .blk (k + 1)],
      [.blk 2, .arg 0, .blk (k + 1)], [.arg 0, .blk 0, .arg 0, .blk (k + 1)]]
  blocks := (0, 1 :: (List.range n).map base) :: (List.range n).map fun k => (base k + 1, [base k + 2, base k + 3, base k + 4])
  args := (1, []) :: (List.range n).flatMap fun k =>
    [(base k, [base k + 1]), (base k + 2, [base k + 5]), (base k + 3, []), (base k + 4, [])]
  cmds := (1, [(some .tab, .intrinsic 6), (none, .intrinsic 0)]) :: (List.range n).flatMap fun k =>
    [(base k, [(some .str, .intrinsic 7), (some .tab, .intrinsic 1)]), (base k + 2, [(some .row, .intrinsic 2), (none, .intrinsic 8)]),
      (base k + 3, [(none, .intrinsic 3)]), (base k + 4, [(some .num, .intrinsic 4)])]
  defs := []
  lits := (List.range n).map fun k => (base k + 5, none)
  path := (1, [0]) :: (List.range n).flatMap fun k =>
    [(base k, [0]), (base k + 1, [0, base k]), (base k + 2, [0, base k, base k + 1]), (base k + 3, [0, base k, base k + 1]),
      (base k + 4, [0, base k, base k + 1]), (base k + 5, [0, base k, base k + 1, base k + 2])]
  full := allTypes
  inp := (0, .known .nil) :: (List.range n).flatMap fun k =>
    [(base k, .inferred [.str, .tab]), (base k + 4, .inferred [.num]), (base k + 5, .any)]
  out := (List.range n).map fun k => (base k + 5, .known .str)
  edges := ⟨0, 1, .ii⟩ :: ((List.range n).flatMap fun k =>
      [⟨base k + 1, base k + 2, .ii⟩, ⟨base k + 2, base k + 3, .oi⟩, ⟨base k + 3, base k + 4, .oi⟩, ⟨base k + 4, base k + 1, .oo⟩]) ++
    links 0 (1 :: (List.range n).map base)

def runChain (n : Nat) : Option (Except Err (S Tp)) := compile (chain n).ast (commands (chain n).ast) id 60 0 (chain n).start

def isOk : Option (Except Err (S Tp)) → Bool
  | some (.ok _) => true
  | _ => false

def isErr (e : Err) : Option (Except Err (S Tp)) → Bool
  | some (.error x) => decide (x = e)
  | _ => false

theorem isErr_eq {e : Err} {x : Option (Except Err (S Tp))} (h : isErr e x = true) : x = some (.error e) := by
  unfold isErr at h
  split at h
  · simp only [decide_eq_true_eq] at h; rw [h]
  · cases h

/-- C69 does not hold: each filter compiles, five do, six do not. -/
theorem six_filters_refused :
    isOk (runChain 1) = true ∧ isOk (runChain 5) = true ∧ (chain 6).ok [] = true ∧ runChain 6 = some (.error .depth) :=
  ⟨by decide +kernel, by decide +kernel, by decide +kernel, isErr_eq (by decide +kernel)⟩

theorem orderOk_id : OrderOk id := fun _ _ h => h

/-- For C67, C70 and C71: one filter. -/
example : (chain 1).ast.Wf [] ∧ Start (chain 1).ast (chain 1).start ∧ ((commands (chain 1).ast).Named []) ∧
    Ty.Settled ((chain 1).start.tg.kn 0 .inp) .nil ∧ isOk (runChain 1) = true :=
  ⟨(Tab.wf (p := chain 1) (by decide +kernel)).1, (Tab.wf (p := chain 1) (names := []) (by decide +kernel)).2, commands_named _ _,
    .inl rfl, by decide +kernel⟩

/-- `ls | filter {get size | let $y | is-finite} | foo {len:TableRow | get b}`, with `def foo (x:Expr) { len }`: the definition
does not use its argument. -/
def unused : Tab Tp where
  places := [
    [], [.blk 0], [.blk 1], [.arg 0, .blk 1], [.blk 2], [.arg 0, .blk 2],
    [.blk 0, .arg 0, .blk 1], [.arg 0, .blk 0, .arg 0, .blk 1], [.blk 1, .arg 0, .blk 1], [.arg 0, .blk 1, .arg 0, .blk 1],
    [.blk 2, .arg 0, .blk 1], [.blk 0, .arg 0, .blk 2], [.blk 1, .arg 0, .blk 2], [.arg 0, .blk 1, .arg 0, .blk 2],
    [.body 1, .body 0, .blk 2], [.body 0, .blk 2], [.blk 0, .body 0, .blk 2]]
  blocks := [(0, [1, 2, 4]), (3, [6, 8, 10]), (5, [11, 12]), (15, [16])]
  args := [(1, []), (2, [3]), (4, [5]), (6, [7]), (8, [9]), (10, []), (11, []), (12, [13]), (16, [])]
  cmds := [(1, [(some .tab, .intrinsic 6), (none, .intrinsic 0)]), (2, [(some .str, .intrinsic 7), (some .tab, .intrinsic 1)]),
    (4, [(none, .defn 14)]), (6, [(some .row, .intrinsic 2), (none, .intrinsic 8)]), (8, [(none, .intrinsic 3)]),
    (10, [(some .num, .intrinsic 4)]), (11, [(some .str, .intrinsic 5), (some .tab, .intrinsic 5)]),
    (12, [(some .row, .intrinsic 2), (none, .intrinsic 8)]), (16, [(some .str, .intrinsic 5), (some .tab, .intrinsic 5)])]
  defs := [(14, 4, 15, [("x", .expr)])]
  lits := [(7, none), (9, some "y"), (13, none)]
  path := [(1, [0]), (2, [0]), (3, [0, 2]), (4, [0]), (5, [0, 4]), (6, [0, 2, 3]), (7, [0, 2, 3, 6]), (8, [0, 2, 3]), (9, [0, 2, 3, 8]),
    (10, [0, 2, 3]), (11, [0, 4, 5]), (12, [0, 4, 5]), (13, [0, 4, 5, 12]), (14, [0, 4]), (15, [0, 4, 14]), (16, [0, 4, 14, 15])]
  full := allTypes
  inp := [(0, .known .nil), (2, .inferred [.str, .tab]), (7, .any), (10, .inferred [.num]), (11, .inferred [.str, .tab]), (13, .any),
    (16, .inferred [.str, .tab])]
  out := [(7, .known .str), (11, .obliged .row), (13, .known .str)]
  edges := [⟨0, 1, .ii⟩, ⟨3, 6, .ii⟩, ⟨5, 11, .ii⟩, ⟨15, 16, .ii⟩, ⟨4, 0, .oo⟩, ⟨10, 3, .oo⟩, ⟨12, 5, .oo⟩, ⟨16, 15, .oo⟩,
    ⟨1, 2, .oi⟩, ⟨2, 4, .oi⟩, ⟨6, 8, .oi⟩, ⟨8, 10, .oi⟩, ⟨11, 12, .oi⟩, ⟨14, 15, .ii⟩, ⟨15, 14, .oo⟩, ⟨4, 14, .ii⟩, ⟨14, 4, .oo⟩]

/-- C68 does not hold: this program makes the compiler panic. -/
theorem unused_argument_panics :
    unused.ok ["x", "y"] = true ∧ 0 ∈ unused.ast.exprs ∧ Ty.Settled (unused.start.tg.kn 0 .inp) .nil ∧
    compile unused.ast (commands unused.ast) id 40 0 unused.start = some (.error .expect) :=
  ⟨by decide +kernel, by decide +kernel, .inl rfl, isErr_eq (by decide +kernel)⟩

/-- `\ 5 | foo {get size 0}`, with `def foo (x:Expr) { let {+ 1} $y | + $x }`. -/
def late : Tab Tp where
  places := [
    [], [.blk 0], [.arg 0, .blk 0], [.blk 1], [.arg 0, .blk 1], [.blk 0, .arg 0, .blk 1], [.arg 0, .blk 0, .arg 0, .blk 1],
    [.arg 1, .blk 0, .arg 0, .blk 1], [.body 1, .body 0, .blk 1], [.body 0, .blk 1], [.blk 0, .body 0, .blk 1],
    [.arg 0, .blk 0, .body 0, .blk 1], [.blk 0, .arg 0, .blk 0, .body 0, .blk 1], [.arg 1, .blk 0, .body 0, .blk 1],
    [.blk 1, .body 0, .blk 1], [.arg 0, .blk 1, .body 0, .blk 1], [.arg 0, .blk 0, .arg 0, .blk 0, .body 0, .blk 1]]
  blocks := [(0, [1, 3]), (4, [5]), (9, [10, 14]), (11, [12])]
  args := [(1, [2]), (3, [4]), (5, [6, 7]), (10, [11, 13]), (12, [16]), (14, [15])]
  cmds := [(1, [(none, .intrinsic 9)]), (3, [(none, .defn 8)]), (5, [(some .row, .intrinsic 10), (none, .intrinsic 8)]),
    (10, [(none, .intrinsic 11)]), (12, [(some .num, .intrinsic 12), (some .str, .intrinsic 12), (some .tab, .intrinsic 12)]),
    (14, [(some .num, .intrinsic 12), (some .str, .intrinsic 12), (some .tab, .intrinsic 12)])]
  defs := [(8, 3, 9, [("x", .expr)])]
  lits := [(2, none), (6, none), (7, none), (16, none), (13, some "y"), (15, some "x")]
  path := [(1, [0]), (2, [0, 1]), (3, [0]), (4, [0, 3]), (5, [0, 3, 4]), (6, [0, 3, 4, 5]), (7, [0, 3, 4, 5]), (8, [0, 3]), (9, [0, 3, 8]),
    (10, [0, 3, 8, 9]), (11, [0, 3, 8, 9, 10]), (12, [0, 3, 8, 9, 10, 11]), (13, [0, 3, 8, 9, 10]), (14, [0, 3, 8, 9]),
    (15, [0, 3, 8, 9, 14]), (16, [0, 3, 8, 9, 10, 11, 12])]
  full := allTypes
  inp := [(0, .known .nil), (2, .any), (6, .any), (7, .any), (16, .any), (12, .inferred [.num, .str, .tab]), (14, .inferred [.num, .str, .tab])]
  out := [(2, .known .num), (6, .known .str), (7, .known .num), (16, .known .num)]
  edges := [⟨0, 1, .ii⟩, ⟨4, 5, .ii⟩, ⟨9, 10, .ii⟩, ⟨11, 12, .ii⟩, ⟨3, 0, .oo⟩, ⟨5, 4, .oo⟩, ⟨14, 9, .oo⟩, ⟨12, 11, .oo⟩, ⟨1, 3, .oi⟩,
    ⟨10, 14, .oi⟩, ⟨8, 9, .ii⟩, ⟨9, 8, .oo⟩, ⟨3, 8, .ii⟩, ⟨8, 3, .oo⟩]

/-- Whether compiling succeeded and the compiler is as asked. -/
def okAnd (p : S Tp → Bool) : Option (Except Err (S Tp)) → Bool
  | some (.ok c) => p c
  | _ => false

theorem okAnd_eq {p : S Tp → Bool} {x : Option (Except Err (S Tp))} (h : okAnd p x = true) : ∃ c, x = some (.ok c) ∧ p c = true := by
  unfold okAnd at h
  split at h
  · rename_i c; exact ⟨c, rfl, h⟩
  · cases h

/-- C71 does not hold: this program compiles. `+` gives the argument a number, but it is compiled for rows. -/
theorem late_argument_misfits :
    late.ok ["x", "y"] = true ∧ ∃ c, compile late.ast (commands late.ast) id 60 0 late.start = some (.ok c) ∧
      (14, .num, .num) ∈ c.steps ∧ Chosen late.ast 14 .num (.intrinsic 12) ∧
      (∀ s, (15, .supplied .num) ∈ asked (late.ast.args 14) none (commands late.ast s 12 14 .num).1 ∧
        (15, .concrete) ∈ asked (late.ast.args 14) none (commands late.ast s 12 14 .num).1) ∧
      Points late.ast c 15 4 ∧ (∃ o, Pipe c.steps (late.ast.blocks 4) .row o) ∧ ¬ ∃ o, Pipe c.steps (late.ast.blocks 4) .num o := by
  refine ⟨by decide +kernel, ?_⟩
  have h : okAnd (fun c => decide ((14, Tp.num, Tp.num) ∈ c.steps) && decide ((5, Tp.row, Tp.num) ∈ c.steps) &&
      (c.steps.all fun x => decide (x.1 = 5 → x.2.1 ≠ .num)) &&
      decide (Loc.get c.lg (late.ast.place 15) "x" = some (some (.ptr (late.ast.place 4)))))
      (compile late.ast (commands late.ast) id 60 0 late.start) = true := by decide +kernel
  obtain ⟨c, hc, h⟩ := okAnd_eq h
  simp only [Bool.and_eq_true, decide_eq_true_eq, List.all_eq_true] at h
  obtain ⟨⟨⟨h1, h2⟩, h3⟩, h4⟩ := h
  refine ⟨c, hc, h1, .inl (by decide), fun s => ⟨.head _, .tail _ (.tail _ (.head _))⟩, .there (v := "x") (by decide) h4 rfl (.here 4),
    ⟨_, .cons h2 (.nil _)⟩, ?_⟩
  rintro ⟨o, hp⟩
  have e : late.ast.blocks 4 = [5] := by decide
  rw [e] at hp
  cases hp with
  | cons hm _ => exact h3 _ hm rfl rfl

/-- `ls | foo 'no' 'more'`, with `def foo (x:Num) { len }`. -/
def surplus : Tab Tp where
  places := [
    [], [.blk 0], [.blk 1], [.arg 0, .blk 1], [.arg 1, .blk 1], [.body 1, .body 0, .blk 1], [.body 0, .blk 1], [.blk 0, .body 0, .blk 1]]
  blocks := [(0, [1, 2]), (6, [7])]
  args := [(1, []), (2, [3, 4]), (7, [])]
  cmds := [(1, [(some .tab, .intrinsic 6), (none, .intrinsic 0)]), (2, [(none, .defn 5)]),
    (7, [(some .str, .intrinsic 5), (some .tab, .intrinsic 5)])]
  defs := [(5, 2, 6, [("x", .ty .num)])]
  lits := [(3, none), (4, none)]
  path := [(1, [0]), (2, [0]), (3, [0, 2]), (4, [0, 2]), (5, [0, 2]), (6, [0, 2, 5]), (7, [0, 2, 5, 6])]
  full := allTypes
  inp := [(0, .known .nil), (3, .any), (4, .any), (7, .inferred [.str, .tab])]
  out := [(3, .known .str), (4, .known .str)]
  edges := [⟨0, 1, .ii⟩, ⟨6, 7, .ii⟩, ⟨2, 0, .oo⟩, ⟨7, 6, .oo⟩, ⟨1, 2, .oi⟩, ⟨5, 6, .ii⟩, ⟨6, 5, .oo⟩, ⟨2, 5, .ii⟩, ⟨5, 2, .oo⟩]

/-- C72 does not hold: this program compiles. `foo` takes one number and is given two strings. -/
theorem surplus_arguments_compile :
    surplus.ok ["x"] = true ∧ ∃ c, compile surplus.ast (commands surplus.ast) id 40 0 surplus.start = some (.ok c) ∧
      (2, .tab, .num) ∈ c.steps ∧ Chosen surplus.ast 2 .tab (.defn 5) ∧ surplus.ast.params 5 = [("x", .ty .num)] ∧
      surplus.ast.args 2 = [3, 4] ∧ Ty.Settled (c.tg.kn 3 .out) .str := by
  refine ⟨by decide +kernel, ?_⟩
  have h : okAnd (fun c => decide ((2, Tp.tab, Tp.num) ∈ c.steps) && decide (c.tg.kn 3 .out = .known .str))
      (compile surplus.ast (commands surplus.ast) id 40 0 surplus.start) = true := by decide +kernel
  obtain ⟨c, hc, h⟩ := okAnd_eq h
  simp only [Bool.and_eq_true, decide_eq_true_eq] at h
  exact ⟨c, hc, h.1, .inr ⟨fun x hx => by simp [surplus, Tab.ast, look] at hx, by decide⟩, rfl, rfl, .inl h.2⟩

/-- `\ 5 | foo 7`, with `def foo (x:Num) { + $x }`. -/
def declares : Tab Tp where
  places := [
    [], [.blk 0], [.arg 0, .blk 0], [.blk 1], [.arg 0, .blk 1], [.body 1, .body 0, .blk 1], [.body 0, .blk 1], [.blk 0, .body 0, .blk 1],
    [.arg 0, .blk 0, .body 0, .blk 1]]
  blocks := [(0, [1, 3]), (6, [7])]
  args := [(1, [2]), (3, [4]), (7, [8])]
  cmds := [(1, [(none, .intrinsic 9)]), (3, [(none, .defn 5)]),
    (7, [(some .num, .intrinsic 12), (some .str, .intrinsic 12), (some .tab, .intrinsic 12)])]
  defs := [(5, 3, 6, [("x", .ty .num)])]
  lits := [(2, none), (4, none), (8, some "x")]
  path := [(1, [0]), (2, [0, 1]), (3, [0]), (4, [0, 3]), (5, [0, 3]), (6, [0, 3, 5]), (7, [0, 3, 5, 6]), (8, [0, 3, 5, 6, 7])]
  full := allTypes
  inp := [(0, .known .nil), (2, .any), (4, .any), (7, .inferred [.num, .str, .tab])]
  out := [(2, .known .num), (4, .known .num)]
  edges := [⟨0, 1, .ii⟩, ⟨6, 7, .ii⟩, ⟨3, 0, .oo⟩, ⟨7, 6, .oo⟩, ⟨1, 3, .oi⟩, ⟨5, 6, .ii⟩, ⟨6, 5, .oo⟩, ⟨3, 5, .ii⟩, ⟨5, 3, .oo⟩]

/-- For C72: a call whose parameter is used. -/
example : declares.ast.Wf ["x"] ∧ Start declares.ast declares.start ∧ ((commands declares.ast).Named ["x"]) ∧
    okAnd (fun c => decide ((3, Tp.num, Tp.num) ∈ c.steps) && decide (5 ∈ c.callsite.map (·.1)))
      (compile declares.ast (commands declares.ast) id 40 0 declares.start) = true :=
  ⟨(Tab.wf (p := declares) (by decide +kernel)).1, (Tab.wf (p := declares) (names := ["x"]) (by decide +kernel)).2, commands_named _ _,
    by decide +kernel⟩

end Verif.Comp
