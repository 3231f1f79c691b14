import Verif.Lemmas.EvalLib
import Verif.Props.Comp
/-! Evaluating compiled programs (C76). -/
namespace Verif.Comp
open Verif
variable {T V : Type} [DecidableEq T]

/-! ### Before compiling -/

theorem seed_locals (nodes : List Loc.Node) (seeds : List String) :
    (Loc.seed nodes seeds).locals = (List.range seeds.length).map .var ∧ (Loc.seed nodes seeds).count = seeds.length := by
  have key : (seeds.foldl (fun s name => Loc.addVar s name []) Loc.build).locals = (List.range seeds.length).map .var ∧
      (seeds.foldl (fun s name => Loc.addVar s name []) Loc.build).count = seeds.length := by
    refine Loc.snoc_ind (P := fun seeds => (seeds.foldl (fun s name => Loc.addVar s name []) Loc.build).locals = (List.range seeds.length).map .var ∧
      (seeds.foldl (fun s name => Loc.addVar s name []) Loc.build).count = seeds.length) ⟨rfl, rfl⟩ (fun l a h => ?_) seeds
    rw [List.foldl_append, List.foldl_cons, List.foldl_nil]
    generalize l.foldl (fun s name => Loc.addVar s name []) Loc.build = b at h
    simp only [Loc.addVar, Loc.define, h.1, h.2, List.length_append, List.length_cons, List.length_nil, List.range_succ, List.map_append,
      List.map_cons, List.map_nil, and_self]
  exact key

theorem Begun.vars {A : Ast T} {I : Builtins T} {E : Exec T V} {names seeds : List String} {s : S T} (hw : A.Wf names) (hpl : A.Placed)
    (hs : Start A s) (h : Begun A E seeds s) : Vars A I E seeds.length s (seeds.map fun k => ([], k)) [] := by
  obtain ⟨h1, h2⟩ := seed_locals A.places seeds
  refine ⟨⟨?_, ?_, ?_, ?_⟩, ?_, ?_, ?_, ?_, ?_, ?_, ⟨hs.calls⟩, h.inputs, h.literals⟩
  · have := Loc.lexical_seed (hpl.ok hw) seeds
    rw [h.lg]
    simpa [Loc.allDefs] using this
  · rw [h.lg, h1]; simp
  · rw [h.lg, h2]; simp
  · rw [h.slots]; simp
  · exact List.pairwise_of_forall_mem_list fun a ha b _ _ => by
      obtain ⟨k, _, e⟩ := List.mem_map.1 ha
      rw [← e]
  · intro i q name u hi _
    have hlt := (List.getElem?_eq_some_iff.1 hi).1
    rw [List.getElem?_map] at hi
    obtain ⟨k, _, e⟩ := Option.map_eq_some_iff.1 hi
    cases e
    exact .seed rfl (by simpa using hlt)
  · rw [h.binds, hs.callsite]; rfl
  · rw [h.binds]; exact fun _ h => (by cases h)
  · exact fun _ h => (by cases h)
  · refine ⟨by rw [h.codes, hs.steps]; rfl, by rw [hs.steps]; simp, by rw [h.codes]; rfl, fun k k' K K' _ h => (by simp at h), fun k x K _ h => (by simp at h),
      fun i p name he => ?_⟩
    rw [List.getElem?_map] at he
    obtain ⟨k, _, e⟩ := Option.map_eq_some_iff.1 he
    injection e with e
    cases e

/-- C76, for programs whose definitions have no expressions for parameters, and different names for their at most 256
parameters. Let the built-in commands announce their variables steadily, and their closures do as announced. If compiling
succeeds, the whole program can be evaluated on every value of its input type, from every environment in which the variables
given with the program have values of their types: evaluation ends, in an error or with a value of the program's output type.
No variable is read that has not been set, no variable is set to a value of another type, every environment has a place for it,
and no check of the type of an argument, a block or an expression fails. -/
theorem evaluation_is_safe_partial {A : Ast T} {I : Builtins T} {E : Exec T V} {names seeds : List String} {ord : List Nat → List Nat} {s c : S T}
    (hw : A.Wf names) (hpl : A.Placed) (hn : I.Named names) (hst : I.Steady A) (hE : E.Sound A I) (hs : Start A s) (hb : Begun A E seeds s)
    (hord : OrderOk ord) {f root : Nat} (hroot : A.place root = []) (h : compile A I ord f root s = some (.ok c)) :
    ∃ t u, Ty.Settled (c.tg.kn root .inp) t ∧ Ty.Settled (c.tg.kn root .out) u ∧
      ∀ n ≥ c.steps.length, ∀ v env, E.ty v = t → Ready0 E c seeds env → Safe E u (evalExpr A E c n root v env) := by
  have hi := start_inv hs
  have tr := compile_traced hw hn hord (vars_kept (E := E) (m := seeds.length) hw hn hpl hst hE) f root s _ hi ⟨_, _, hb.vars hw hpl hs⟩ h
  obtain ⟨D, H, hv⟩ : ∃ D H, Vars A I E seeds.length c D H := tr
  have hic : Inv A c := (compile_ok hw hn hord f root s c h hi).1.inv
  obtain ⟨he, t, u, h1, h2, h3⟩ := hic.exprs root (compile_done f h)
  refine ⟨t, u, h1, h2, fun n hle v env hty hr => ?_⟩
  have W := hv.world
  have hlen : c.codes.length = c.steps.length := by rw [← W.codes]; simp
  have hd : Done A c (c.prior c.codes.length) root t u := ⟨he, h1, h2, h3, fun op ho => by
    have := Pipe.ops h3 op ho
    rw [show c.steps.map (·.1) = c.ops from rfl, ← W.ops] at this
    simpa [S.prior] using this⟩
  have henv : EnvOk A E c D (c.callsite.map (·.1)) (A.place root) env := by
    refine ⟨hr.length, fun i ⟨q, name, hq, hanc, _⟩ => ?_⟩
    have e : q = [] := by
      rw [hroot] at hanc
      cases hanc with
      | refl => rfl
      | step hp _ => cases hp
    subst e
    obtain ⟨w, hw'⟩ := hv.locs.slot hq
    cases hv.src i _ _ w hq hw' with
    | seed _ hi => exact hr.seeds i hi
    | builtin s0 j op t n ho hnp hw'' ht hg hc hq hn => exact absurd hq.symm (hn.not_root hw hpl ho)
    | param d j p a hd hq hp ha ht =>
      obtain ⟨k, p, hb⟩ := hpl.body d hd
      rw [hb] at hq; cases hq
  have := evalExpr_fine hw hpl W n c.codes.length (by omega) root t u hd (c.callsite.map (·.1))
    (fun k' K' _ hK => hv.seen K' (List.mem_of_getElem? hK)) v env hty henv
  cases hx : evalExpr A E c n root v env with
  | ok r => rw [hx] at this; exact this.1
  | err => trivial
  | stuck => rw [hx] at this; exact this
  | more => rw [hx] at this; exact this

/-- C76, for programs of the modelled commands in which no `let` sets two variables of the same name: nothing is left to
assume of the commands. -/
theorem library_programs_are_safe_partial {A : Ast Tp} {names seeds : List String} {ord : List Nat → List Nat} {s c : S Tp} {files : Option Nat}
    {lit : Nat → Val} (hw : A.Wf names) (hpl : A.Placed) (htd : A.Tidy) (hrow : "row" ∈ names) (hs : Start A s)
    (hb : Begun A (libraryExec files lit) seeds s) (hord : OrderOk ord) {f root : Nat} (hroot : A.place root = [])
    (h : compile A (library A) ord f root s = some (.ok c)) :
    ∃ t u, Ty.Settled (c.tg.kn root .inp) t ∧ Ty.Settled (c.tg.kn root .out) u ∧
      ∀ n ≥ c.steps.length, ∀ v env, v.ty = t → Ready0 (libraryExec files lit) c seeds env →
        Safe (libraryExec files lit) u (evalExpr A (libraryExec files lit) c n root v env) :=
  evaluation_is_safe_partial hw hpl (library_named A hrow) (library_steady hw htd) (library_sound hw htd files lit) hs hb hord hroot h

/-! ### Programs -/

/-- A decidable form of `Ast.Placed`. -/
def Tab.placed (p : Tab Tp) : Bool :=
  (p.places.all fun n => (Loc.par n).all fun q => decide (q ∈ p.places)) &&
  (p.places.all fun
    | .arg _ :: q => match q with | .blk _ :: _ => true | _ => false
    | _ => true) &&
  (p.ast.exprs.all fun e => (List.range (p.ast.blocks e).length).all fun j =>
    decide ((p.ast.blocks e)[j]?.map p.ast.place = some (.blk j :: p.ast.place e))) &&
  (p.ast.ops.all fun op => decide (op ∈ p.ast.blocks (p.ast.parent op))) &&
  (p.ast.defs.all fun d => match p.ast.place (p.ast.body d) with | .body _ :: _ => true | _ => false) &&
  (p.ast.defs.all fun d => (p.ast.params d).all fun q => match q.2 with | .expr => false | _ => true) &&
  (p.ast.defs.all fun d => decide ((p.ast.params d).map (·.1)).Nodup) &&
  (p.ast.defs.all fun d => decide ((p.ast.params d).length ≤ 256))

theorem Tab.isPlaced {p : Tab Tp} (h : p.placed = true) : p.ast.Placed := by
  simp only [Tab.placed, Bool.and_eq_true, List.all_eq_true, decide_eq_true_eq] at h
  obtain ⟨⟨⟨⟨⟨⟨⟨h1, h2⟩, h3⟩, h4⟩, h5⟩, h6⟩, h7⟩, h8⟩ := h
  refine ⟨fun n hn q hq => ?_, fun i q hq => ?_, fun e he j op hj => ?_, h4, fun d hd => ?_, fun d hd q hq e => ?_, h7, h8⟩
  · have := h1 n hn
    rw [hq] at this
    exact of_decide_eq_true this
  · have := h2 _ hq
    dsimp only at this
    split at this
    · exact ⟨_, _, rfl⟩
    · cases this
  · have := h3 e he j (List.mem_range.2 (List.getElem?_eq_some_iff.1 hj).1)
    rw [hj] at this
    simpa using this
  · have := h5 d hd
    split at this
    · rename_i k q e; exact ⟨k, q, e⟩
    · cases this
  · have := h6 d hd q hq
    rw [e] at this
    cases this

/-- A decidable form of `Begun` and `Ast.Tidy`. -/
def Tab.begun (p : Tab Tp) (lit : Nat → Val) : Bool :=
  (p.ast.ops.all fun op => (p.ast.args op).all fun a =>
    decide (a ∉ p.ast.lits → a ∉ p.ast.exprs → ⟨op, a, .ii⟩ ∈ p.edges ∧ ⟨op, a, .io⟩ ∈ p.edges)) &&
  (p.ast.lits.all fun n => decide (p.ast.var n = none → p.kn n .out = .known (lit n).ty)) &&
  (p.args.all fun x => decide x.2.Nodup) &&
  (p.ast.ops.all fun op => (p.ast.cmds op).all fun c => match c.2 with
    | .intrinsic 5 => (binders (p.ast.args op)).all fun b => (binders (p.ast.args op)).all fun b' => decide (p.ast.var b = p.ast.var b' → b = b')
    | _ => true)

theorem Tab.hasBegun {p : Tab Tp} {lit : Nat → Val} (h : p.begun lit = true) (files : Option Nat) :
    Begun p.ast (libraryExec files lit) [] p.start ∧ p.ast.Tidy := by
  simp only [Tab.begun, Bool.and_eq_true, List.all_eq_true, decide_eq_true_eq] at h
  obtain ⟨⟨⟨h1, h2⟩, h3⟩, h4⟩ := h
  refine ⟨⟨rfl, rfl, rfl, rfl, h1, fun n hn hv => .inl (h2 n hn hv)⟩, fun op => ?_, fun op ho t hg => ?_⟩
  · rcases look_cases [] p.args op with e | e
    · show (look [] p.args op).Nodup
      rw [e]; exact .nil
    · exact h3 _ e
  · obtain ⟨c, hc, e⟩ : ∃ c ∈ p.ast.cmds op, c.2 = .intrinsic 5 := by
      unfold Ast.getImpl at hg
      split at hg
      · rename_i c hc; exact ⟨c, List.mem_of_find?_eq_some hc, by simpa using hg⟩
      · obtain ⟨c, hc, e⟩ := Option.map_eq_some_iff.1 hg
        exact ⟨c, List.mem_of_find?_eq_some hc, e⟩
    have := h4 op ho c hc
    rw [e] at this
    simp only [List.all_eq_true, decide_eq_true_eq] at this
    exact fun b hb b' hb' v h h' => this b hb b' hb' (h.trans h'.symm)

/-- `ls | fold 0 { let $acc | \ $row | \ $acc | + 1 } | foo 7 | + #i`, with `def foo (x:Num) { + $x }`. -/
def counts : Tab Tp where
  places := [
    [], [.blk 0], [.blk 1], [.arg 0, .blk 1], [.arg 1, .blk 1], [.blk 0, .arg 1, .blk 1], [.arg 0, .blk 0, .arg 1, .blk 1],
    [.blk 1, .arg 1, .blk 1], [.arg 0, .blk 1, .arg 1, .blk 1], [.blk 2, .arg 1, .blk 1], [.arg 0, .blk 2, .arg 1, .blk 1],
    [.blk 3, .arg 1, .blk 1], [.arg 0, .blk 3, .arg 1, .blk 1], [.blk 2], [.arg 0, .blk 2], [.body 1, .body 0, .blk 2], [.body 0, .blk 2],
    [.blk 0, .body 0, .blk 2], [.arg 0, .blk 0, .body 0, .blk 2], [.blk 3], [.arg 0, .blk 3]]
  blocks := [(0, [1, 2, 13, 19]), (4, [5, 7, 9, 11]), (16, [17])]
  args := [(1, []), (2, [3, 4]), (5, [6]), (7, [8]), (9, [10]), (11, [12]), (13, [14]), (17, [18]), (19, [20])]
  cmds := [(1, [(none, .intrinsic 0)]), (2, [(some .tab, .intrinsic 6)]), (5, [(none, .intrinsic 5)]), (7, [(none, .intrinsic 1)]),
    (9, [(none, .intrinsic 1)]), (11, [(some .num, .intrinsic 3), (some .str, .intrinsic 3), (some .tab, .intrinsic 3)]), (13, [(none, .defn 15)]),
    (17, [(some .num, .intrinsic 3), (some .str, .intrinsic 3), (some .tab, .intrinsic 3)]),
    (19, [(some .num, .intrinsic 3), (some .str, .intrinsic 3), (some .tab, .intrinsic 3)])]
  defs := [(15, 13, 16, [("x", .ty .num)])]
  lits := [(3, none), (6, some "acc"), (8, some "row"), (10, some "acc"), (12, none), (14, none), (18, some "x")]
  path := [(1, [0]), (2, [0]), (3, [0, 2]), (4, [0, 2]), (5, [0, 2, 4]), (6, [0, 2, 4, 5]), (7, [0, 2, 4]), (8, [0, 2, 4, 7]), (9, [0, 2, 4]),
    (10, [0, 2, 4, 9]), (11, [0, 2, 4]), (12, [0, 2, 4, 11]), (13, [0]), (14, [0, 13]), (15, [0, 13]), (16, [0, 13, 15]), (17, [0, 13, 15, 16]),
    (18, [0, 13, 15, 16, 17]), (19, [0]), (20, [0, 19])]
  full := allTypes
  inp := [(0, .known .nil), (2, .inferred [.tab]), (3, .any), (11, .inferred [.num, .str, .tab]), (12, .any), (14, .any),
    (17, .inferred [.num, .str, .tab]), (19, .inferred [.num, .str, .tab])]
  out := [(3, .known .num), (12, .known .num), (14, .known .num)]
  edges := [⟨0, 1, .ii⟩, ⟨1, 2, .oi⟩, ⟨2, 13, .oi⟩, ⟨13, 19, .oi⟩, ⟨19, 0, .oo⟩, ⟨4, 5, .ii⟩, ⟨5, 7, .oi⟩, ⟨7, 9, .oi⟩, ⟨9, 11, .oi⟩, ⟨11, 4, .oo⟩,
    ⟨16, 17, .ii⟩, ⟨17, 16, .oo⟩, ⟨15, 16, .ii⟩, ⟨16, 15, .oo⟩, ⟨13, 15, .ii⟩, ⟨15, 13, .oo⟩, ⟨19, 20, .ii⟩, ⟨19, 20, .io⟩]

def countsLits : Nat → Val
  | 12 => .num 1
  | 14 => .num 7
  | _ => .num 0

/-- What is evaluated to. -/
def okWith (v : Val) : Res (Val × List Val) → Bool
  | .ok r => decide (r.1 = v)
  | _ => false

def isStuck : Res (Val × List Val) → Bool
  | .stuck => true
  | _ => false

/-- For C76: three files make 20, whatever the environment holds. -/
example : counts.ast.Wf ["acc", "row", "x"] ∧ counts.ast.Placed ∧ counts.ast.Tidy ∧ Start counts.ast counts.start ∧
    Begun counts.ast (libraryExec (some 3) countsLits) [] counts.start ∧ OrderOk id ∧ counts.ast.place 0 = [] ∧
    ∃ c, compile counts.ast (library counts.ast) id 60 0 counts.start = some (.ok c) ∧
      Ready0 (libraryExec (some 3) countsLits) c [] (List.replicate c.slots.length .nil) ∧ 0 < c.slots.length ∧
      okWith (.num 20) (evalExpr counts.ast (libraryExec (some 3) countsLits) c c.steps.length 0 .nil (List.replicate c.slots.length .nil)) = true := by
  refine ⟨(Tab.wf (p := counts) (by decide +kernel)).1, Tab.isPlaced (by decide +kernel), (Tab.hasBegun (lit := countsLits) (by decide +kernel) none).2,
    (Tab.wf (p := counts) (names := ["acc", "row", "x"]) (by decide +kernel)).2, (Tab.hasBegun (by decide +kernel) _).1, orderOk_id, rfl, ?_⟩
  have h : okAnd (fun c => decide (0 < c.slots.length) &&
      okWith (.num 20) (evalExpr counts.ast (libraryExec (some 3) countsLits) c c.steps.length 0 .nil (List.replicate c.slots.length .nil)))
      (compile counts.ast (library counts.ast) id 60 0 counts.start) = true := by decide +kernel
  obtain ⟨c, hc, h⟩ := okAnd_eq h
  simp only [Bool.and_eq_true, decide_eq_true_eq] at h
  exact ⟨c, hc, ⟨by simp, fun i hi => absurd hi (by simp)⟩, h⟩

/-- `let 1 $x 'a' $x | \ 2`. -/
def rebinds : Tab Tp where
  places := [[], [.blk 0], [.arg 0, .blk 0], [.arg 1, .blk 0], [.arg 2, .blk 0], [.arg 3, .blk 0], [.blk 1], [.arg 0, .blk 1]]
  blocks := [(0, [1, 6])]
  args := [(1, [2, 3, 4, 5]), (6, [7])]
  cmds := [(1, [(none, .intrinsic 5)]), (6, [(none, .intrinsic 1)])]
  defs := []
  lits := [(2, none), (3, some "x"), (4, none), (5, some "x"), (7, none)]
  path := [(1, [0]), (2, [0, 1]), (3, [0, 1]), (4, [0, 1]), (5, [0, 1]), (6, [0]), (7, [0, 6])]
  full := allTypes
  inp := [(0, .known .nil), (2, .any), (4, .any), (7, .any)]
  out := [(2, .known .num), (4, .known .str), (7, .known .num)]
  edges := [⟨0, 1, .ii⟩, ⟨1, 6, .oi⟩, ⟨6, 0, .oo⟩]

def rebindsLits : Nat → Val
  | 4 => .str "a"
  | _ => .num 1

/-- C76 does not hold of all programs: a program in which `let` sets a variable twice, to values of different types, is
compiled, but evaluating it panics: `set_data` asserts that the value has the type of the variable (`var.rs:96-100`). -/
theorem rebinding_is_stuck :
    rebinds.ast.Wf ["row", "x"] ∧ rebinds.ast.Placed ∧ Start rebinds.ast rebinds.start ∧
    Begun rebinds.ast (libraryExec none rebindsLits) [] rebinds.start ∧
    ∃ c u, compile rebinds.ast (library rebinds.ast) id 60 0 rebinds.start = some (.ok c) ∧
      Ty.Settled (c.tg.kn 0 .inp) .nil ∧ Ty.Settled (c.tg.kn 0 .out) u ∧
      ∃ env, Ready0 (libraryExec none rebindsLits) c [] env ∧
        evalExpr rebinds.ast (libraryExec none rebindsLits) c c.steps.length 0 .nil env = .stuck := by
  refine ⟨(Tab.wf (p := rebinds) (by decide +kernel)).1, Tab.isPlaced (by decide +kernel),
    (Tab.wf (p := rebinds) (names := ["row", "x"]) (by decide +kernel)).2, ?_, ?_⟩
  · refine ⟨rfl, rfl, rfl, rfl, fun op ho a ha h1 h2 => ?_, fun n hn hv => .inl ?_⟩
    · have : rebinds.ast.ops.all (fun op => (rebinds.ast.args op).all fun a => decide (a ∈ rebinds.ast.lits)) = true := by decide +kernel
      simp only [List.all_eq_true, decide_eq_true_eq] at this
      exact absurd (this op ho a ha) h1
    · have : rebinds.ast.lits.all (fun n => decide (rebinds.ast.var n = none → rebinds.kn n .out = .known (rebindsLits n).ty)) = true := by decide +kernel
      simp only [List.all_eq_true, decide_eq_true_eq] at this
      exact this n hn hv
  have h : okAnd (fun c => decide (c.tg.kn 0 .inp = .known .nil) && decide (c.tg.kn 0 .out = .known .num) &&
      isStuck (evalExpr rebinds.ast (libraryExec none rebindsLits) c c.steps.length 0 .nil (List.replicate c.slots.length .nil)))
      (compile rebinds.ast (library rebinds.ast) id 60 0 rebinds.start) = true := by decide +kernel
  obtain ⟨c, hc, h⟩ := okAnd_eq h
  simp only [Bool.and_eq_true, decide_eq_true_eq] at h
  refine ⟨c, .num, hc, .inl h.1.1, .inl h.1.2, List.replicate c.slots.length .nil, ⟨List.length_replicate, fun i hi => absurd hi (by simp)⟩, ?_⟩
  cases hx : evalExpr rebinds.ast (libraryExec none rebindsLits) c c.steps.length 0 .nil (List.replicate c.slots.length .nil) with
  | stuck => rfl
  | ok r => rw [hx] at h; cases h.2
  | err => rw [hx] at h; cases h.2
  | more => rw [hx] at h; cases h.2

/-- `\ 3 | foo $y | + $y`, with `def foo (x:Expr) { if #f { let 5 $x | \ 1 } 1 }`. -/
def unset : Tab Tp where
  places := [
    [], [.blk 0], [.arg 0, .blk 0], [.blk 1], [.arg 0, .blk 1], [.body 1, .body 0, .blk 1], [.body 0, .blk 1], [.blk 0, .body 0, .blk 1],
    [.arg 0, .blk 0, .body 0, .blk 1], [.arg 1, .blk 0, .body 0, .blk 1], [.blk 0, .arg 1, .blk 0, .body 0, .blk 1],
    [.arg 0, .blk 0, .arg 1, .blk 0, .body 0, .blk 1], [.arg 1, .blk 0, .arg 1, .blk 0, .body 0, .blk 1], [.blk 1, .arg 1, .blk 0, .body 0, .blk 1],
    [.arg 0, .blk 1, .arg 1, .blk 0, .body 0, .blk 1], [.arg 2, .blk 0, .body 0, .blk 1], [.blk 2], [.arg 0, .blk 2]]
  blocks := [(0, [1, 3, 16]), (6, [7]), (9, [10, 13])]
  args := [(1, [2]), (3, [4]), (7, [8, 9, 15]), (10, [11, 12]), (13, [14]), (16, [17])]
  cmds := [(1, [(none, .intrinsic 1)]), (3, [(none, .defn 5)]), (7, [(none, .intrinsic 4)]), (10, [(none, .intrinsic 5)]), (13, [(none, .intrinsic 1)]),
    (16, [(some .num, .intrinsic 3), (some .str, .intrinsic 3), (some .tab, .intrinsic 3)])]
  defs := [(5, 3, 6, [("x", .expr)])]
  lits := [(2, none), (4, some "y"), (8, none), (11, none), (12, some "x"), (14, none), (15, none), (17, some "y")]
  path := [(1, [0]), (2, [0, 1]), (3, [0]), (4, [0, 3]), (5, [0, 3]), (6, [0, 3, 5]), (7, [0, 3, 5, 6]), (8, [0, 3, 5, 6, 7]), (9, [0, 3, 5, 6, 7]),
    (10, [0, 3, 5, 6, 7, 9]), (11, [0, 3, 5, 6, 7, 9, 10]), (12, [0, 3, 5, 6, 7, 9, 10]), (13, [0, 3, 5, 6, 7, 9]), (14, [0, 3, 5, 6, 7, 9, 13]),
    (15, [0, 3, 5, 6, 7]), (16, [0]), (17, [0, 16])]
  full := allTypes
  inp := [(0, .known .nil), (2, .any), (8, .any), (11, .any), (14, .any), (15, .any), (16, .inferred [.num, .str, .tab])]
  out := [(2, .known .num), (8, .known .bool), (11, .known .num), (14, .known .num), (15, .known .num)]
  edges := [⟨0, 1, .ii⟩, ⟨1, 3, .oi⟩, ⟨3, 16, .oi⟩, ⟨16, 0, .oo⟩, ⟨6, 7, .ii⟩, ⟨7, 6, .oo⟩, ⟨5, 6, .ii⟩, ⟨6, 5, .oo⟩, ⟨3, 5, .ii⟩, ⟨5, 3, .oo⟩,
    ⟨9, 10, .ii⟩, ⟨10, 13, .oi⟩, ⟨13, 9, .oo⟩]

def unsetLits : Nat → Val
  | 8 => .bool false
  | _ => .num 1

/-- C76 does not hold of definitions with expressions for parameters either: `let` in the body sets a variable of the block
after the call, but the body may not get there. The program is compiled, and `$y` is read although it was never set: what
evaluation does depends on what the environment happens to hold. The code fills it with `Nil`, and panics. -/
theorem unset_variable_is_stuck :
    unset.ast.Wf ["row", "x", "y"] ∧ Start unset.ast unset.start ∧ Begun unset.ast (libraryExec none unsetLits) [] unset.start ∧ unset.ast.Tidy ∧
    ∃ c, compile unset.ast (library unset.ast) id 60 0 unset.start = some (.ok c) ∧
      evalExpr unset.ast (libraryExec none unsetLits) c c.steps.length 0 .nil (List.replicate c.slots.length .nil) = .stuck ∧
      ∀ k ∈ [1, 2], okWith (.num (1 + k)) (evalExpr unset.ast (libraryExec none unsetLits) c c.steps.length 0 .nil (List.replicate c.slots.length (.num k))) = true := by
  refine ⟨(Tab.wf (p := unset) (by decide +kernel)).1, (Tab.wf (p := unset) (names := ["row", "x", "y"]) (by decide +kernel)).2,
    (Tab.hasBegun (by decide +kernel) _).1, (Tab.hasBegun (lit := unsetLits) (by decide +kernel) none).2, ?_⟩
  have h : okAnd (fun c => isStuck (evalExpr unset.ast (libraryExec none unsetLits) c c.steps.length 0 .nil (List.replicate c.slots.length .nil)) &&
      [1, 2].all fun k => okWith (.num (1 + k)) (evalExpr unset.ast (libraryExec none unsetLits) c c.steps.length 0 .nil (List.replicate c.slots.length (.num k))))
      (compile unset.ast (library unset.ast) id 60 0 unset.start) = true := by decide +kernel
  obtain ⟨c, hc, h⟩ := okAnd_eq h
  rw [Bool.and_eq_true, List.all_eq_true] at h
  refine ⟨c, hc, ?_, h.2⟩
  cases hx : evalExpr unset.ast (libraryExec none unsetLits) c c.steps.length 0 .nil (List.replicate c.slots.length .nil) with
  | stuck => rfl
  | ok r => rw [hx] at h; cases h.1
  | err => rw [hx] at h; cases h.1
  | more => rw [hx] at h; cases h.1

end Verif.Comp
