import Verif.Lemmas.ProgBegin
import Verif.Props.Eval
import Verif.Props.Parse
/-! Programs as they are written (C77). -/
namespace Verif.Prog
open Verif Verif.Exp Verif.Comp
variable {D : Defs} {e : Expr} {g : Graph} {T V : Type} [DecidableEq T] {Y : Types T} {fn : String → Option String → Nat}

/-- A type that was not found out, but may have been annotated. -/
def Loose (k : Ty.Kn T) : Prop := (∃ ts, k = .inferred ts) ∨ ∃ t, k = .obliged t

theorem note_keeps_loose {A : Ast T} {s : S T} {c : Note T} (hc : Annotates g c)
    (h : ∀ n sd, Annotable g n sd → Loose (s.tg.kn n sd)) :
    match apply1 A s c.chg with
    | .ok r => ∀ n sd, Annotable g n sd → Loose (r.1.tg.kn n sd)
    | .error x => x ≠ .crash := by
  cases c with
  | anon t =>
    intro n sd hn
    show Loose (Ty.addTy t (s.tg.kn n sd))
    rcases h n sd hn with ⟨ts, h1⟩ | ⟨u, h1⟩ <;> rw [h1]
    · exact Or.inl ⟨_, rfl⟩
    · exact Or.inr ⟨_, rfl⟩
  | oblige m sm t =>
    unfold Note.chg apply1 Ty.applyChg Ty.setKn
    dsimp only
    by_cases he : s.tg.kn m sm = .obliged t
    · rw [if_pos he]; exact h
    · rw [if_neg he]
      have key : match Ty.canFlow (.obliged t) (s.tg.kn m sm) with
          | .ok () => True
          | .error x => stopErr x ≠ .crash := by
        rcases h m sm hc with ⟨ts, h1⟩ | ⟨u, h1⟩ <;> rw [h1]
        · by_cases hm : t ∈ ts
          · simp [Ty.canFlow, hm]
          · simp [Ty.canFlow, hm, stopErr]
        · by_cases hm : t = u
          · simp [Ty.canFlow, hm]
          · simp [Ty.canFlow, hm, stopErr]
      cases hf : Ty.canFlow (.obliged t) (s.tg.kn m sm) with
      | error x => rw [hf] at key; exact key
      | ok _ =>
        intro n sd hn
        show Loose ((Ty.State.set s.tg m sm (.obliged t)).kn n sd)
        unfold Ty.State.set
        by_cases hx : n = m ∧ sd = sm
        · simp only [hx, and_self, if_true]; exact Or.inr ⟨_, rfl⟩
        · have := h n sd hn
          simpa [hx] using this

theorem Net.loose (N : Net D g) {root : T} {n : Nat} {sd : Ty.Side} (h : Annotable g n sd) : Loose (knStart Y g root n sd) := by
  have hout : ∀ x, g.nodes[n]? = some x → leafTy Y x = none → Loose (knStart Y g root n .out) := by
    intro x hx hl
    unfold knStart knOut
    dsimp only
    rw [hx, Option.bind_some, hl]
    exact Or.inl ⟨_, rfl⟩
  rcases h with ⟨f, hf⟩ | ⟨he, rfl⟩
  · cases sd with
    | out => exact hout _ hf rfl
    | inp =>
      have h0 : n ≠ 0 := by rintro rfl; rw [N.root] at hf; cases hf
      have hk : keyTy g n = none := by
        unfold keyTy
        rw [List.findSome?_eq_none_iff]
        intro x hx
        obtain ⟨h1, h2⟩ := mem_inEdges.1 hx
        rw [(N.inv.kind x h1 _ (by rw [h2]; exact hf)).2 rfl]
      unfold knStart knInp
      dsimp only
      rw [if_neg h0, hf]
      dsimp only
      rw [hk]
      show Loose (reduced Y (impls g n))
      unfold reduced
      split
      · split
        · exact Or.inl ⟨_, rfl⟩
        · exact Or.inl ⟨_, rfl⟩
      · exact Or.inl ⟨_, rfl⟩
  · exact hout _ he rfl

/-- **C77**: the compiler starts on every program in which all expressions have blocks: the annotated types are taken, or one of
them contradicts what is known; nothing panics. -/
theorem starting_goes_on (hg : init D e = .ok g) (hf : Filled D e) (root : T) (seeds : List (String × T)) {notes : List (Note T)}
    (hn : ∀ c ∈ notes, Annotates g c) : begins (ast D Y fn g) Y g root seeds notes ≠ .error .crash := by
  obtain ⟨_, _, h0, _⟩ := init_done hg
  unfold begins
  rw [if_neg]
  · have hl : ∀ n sd, Annotable g n sd → Loose ((start (ast D Y fn g) Y g root seeds).tg.kn n sd) := by
      intro n sd h
      show Loose ((typeGraph (ast D Y fn g) Y g root).kn n sd)
      rw [(typeGraph_add (g := g) (Y := Y) (ast D Y fn g) root).kn]
      exact (net hg).loose h
    revert hl
    generalize start (ast D Y fn g) Y g root seeds = s
    generalize false = b
    induction notes generalizing s b with
    | nil => intro _ h; cases h
    | cons c notes ih =>
      intro hl
      rw [List.map_cons, applyAll]
      have hc := note_keeps_loose (A := ast D Y fn g) (hn c List.mem_cons_self) hl
      cases ha : apply1 (ast D Y fn g) s c.chg with
      | ok r =>
        rw [ha] at hc
        exact ih (fun c hc => hn c (List.mem_cons_of_mem _ hc)) r.1 (b || r.2) hc
      | error x =>
        rw [ha] at hc
        intro h
        exact hc (by injection h)
  · simp only [List.any_eq_true, List.isEmpty_iff, not_exists, not_and]
    intro x hx
    obtain ⟨y, h1, h2⟩ := mem_numbered.1 hx
    rw [isExpr_iff.1 h2] at h1
    exact (net hg).blocks_ne h0 hf h1

theorem root_known {root : T} {seeds : List (String × T)} {notes : List (Note T)} {s : S T}
    (h : begins (ast D Y fn g) Y g root seeds notes = .ok s) : Ty.Settled (s.tg.kn 0 .inp) root := by
  obtain ⟨hn, _⟩ := begins_noted h
  refine hn.settled _ _ _ ?_
  rw [(typeGraph_add (g := g) (Y := Y) (ast D Y fn g) root).kn]
  exact Or.inl rfl

/-- **C77**: a program is written as an expression that uses definitions; every expression has a block. If it is expanded
without an error, it is as the compiler needs it: the nodes the compiler looks for are there, each block belongs to one
expression, each argument to one block, each definition to one call. If the annotated types do not contradict what is known, the
compiler starts as it should. -/
theorem programs_are_well_formed (hg : init D e = .ok g) (hf : Filled D e) (more : List String) :
    (ast D Y fn g).Wf (graphNames D g ++ more) ∧
    ∀ root seeds notes s, Y.all.Nodup → begins (ast D Y fn g) Y g root seeds notes = .ok s →
      Start (ast D Y fn g) s ∧ Ty.Settled (s.tg.kn 0 .inp) root := by
  obtain ⟨_, _, h0, _⟩ := init_done hg
  exact ⟨(net hg).wf h0 hf fun x hx => List.mem_append_left _ hx, fun root seeds notes s hY h => ⟨(net hg).starts hY h, root_known h⟩⟩

/-- C67 and C70 for programs as they are written: compiling ends. If it succeeds, the blocks of the program take an input of the
given type to an output; so do those of every compiled expression, and every step is what the implementation for its input
does. -/
theorem programs_compile {I : Builtins T} {ord : List Nat → List Nat} {root : T} {seeds : List (String × T)} {notes : List (Note T)} {s : S T}
    {more : List String} (hg : init D e = .ok g) (hf : Filled D e) (hY : Y.all.Nodup) (hn : I.Named more) (hord : OrderOk ord)
    (hs : begins (ast D Y fn g) Y g root seeds notes = .ok s) :
    (∃ F r, ∀ f, F ≤ f → compile (ast D Y fn g) I ord f 0 s = some r) ∧
    ∀ f c, compile (ast D Y fn g) I ord f 0 s = some (.ok c) →
      (∃ o, Pipe c.steps (below g 0) root o) ∧
      (∀ x ∈ c.exprs, ∃ i o, Ty.Settled (c.tg.kn x .inp) i ∧ Ty.Settled (c.tg.kn x .out) o ∧ Pipe c.steps (below g x) i o) ∧
      ∀ op u v, (op, u, v) ∈ c.steps → StepOk (ast D Y fn g) I c op u v := by
  obtain ⟨hw, h1⟩ := programs_are_well_formed (Y := Y) (fn := fn) hg hf more
  obtain ⟨hst, hr⟩ := h1 root seeds notes s hY hs
  have hn' : I.Named (graphNames D g ++ more) := fun s i op t name u h => List.mem_append_right _ (hn s i op t name u h)
  have N := net hg
  refine ⟨compiling_ends hw hn' hord hst 0, fun f c h => ?_⟩
  obtain ⟨k1, k2, k3⟩ := compiled_fits hw hn' hord hst hr h
  refine ⟨?_, ?_, k3⟩
  · rw [← N.blocks_eq N.root]; exact k1
  · intro x hx
    obtain ⟨i, o, k4, k5, k6⟩ := k2 x hx
    refine ⟨i, o, k4, k5, ?_⟩
    have hi : Inv (ast D Y fn g) c := (compile_ok hw hn' hord f 0 s c h (start_inv hst)).1.inv
    obtain ⟨y, k7, k8⟩ := mem_numbered.1 (hi.exprs x hx).1
    rw [isExpr_iff.1 k8] at k7
    rw [← N.blocks_eq k7]; exact k6

/-- The values of literals (`eng/arg.rs:222-240`), given what numbers are written as. -/
def value (num : String → Int) (g : Graph) (n : Nat) : Val :=
  match g.nodes[n]? with
  | some (.arg (.ident x)) => .str x
  | some (.arg (.num x)) => .num (num x)
  | some (.pound 't') => .bool true
  | some (.pound 'f') => .bool false
  | some (.pound 'b') => .str "\n"
  | _ => .nil

/-- The types of the modelled commands; `get` gives those with a name. -/
def types (get : String → Tp) : Types Tp := ⟨get, .str, .num, .bool, .nil, [.nil, .bool, .num, .str, .tab, .row]⟩

theorem value_ty {get : String → Tp} {num : String → Int} {n : Nat} {x : Exp.Node} {t : Tp} (h : g.nodes[n]? = some x)
    (ht : leafTy (types get) x = some t) : (value num g n).ty = t := by
  unfold value
  rw [h]
  unfold leafTy types at ht
  split at ht
  · cases ht; rfl
  · cases ht; rfl
  · rename_i c
    dsimp only at ht
    split at ht
    · rename_i hc; subst hc; cases ht; rfl
    · split at ht
      · rename_i hc
        rcases hc with rfl | rfl <;> cases ht <;> rfl
      · split at ht
        · rename_i hc; subst hc; cases ht; rfl
        · cases ht
  · cases ht

/-- C76 for programs as they are written, of the modelled commands: the definitions it uses have no expressions for parameters and
different names for their at most 256 parameters, and no `let` is given the same name twice. If the program is expanded and
compiled without an error, it can be evaluated on every value of its input type: evaluation ends, in an error or with a value of
the program's output type. -/
theorem programs_evaluate_partial {get : String → Tp} {num : String → Int} {files : Option Nat} {ord : List Nat → List Nat} {root : Tp}
    {seeds : List (String × Tp)} {notes : List (Note Tp)} {s c : S Tp} (hg : init D e = .ok g) (hf : Filled D e) (hD : Simple D e)
    (hl : LetsDiffer D e "let") (hfn : ∀ f ty, fn f ty = 5 → f = "let") (hord : OrderOk ord)
    (hs : begins (ast D (types get) fn g) (types get) g root seeds notes = .ok s) {f : Nat}
    (h : compile (ast D (types get) fn g) (library (ast D (types get) fn g)) ord f 0 s = some (.ok c)) :
    ∃ u, Ty.Settled (c.tg.kn 0 .out) u ∧
      ∀ n ≥ c.steps.length, ∀ v env, v.ty = root → Ready0 (libraryExec files (value num g)) c (seeds.map (·.1)) env →
        Safe (libraryExec files (value num g)) u
          (evalExpr (ast D (types get) fn g) (libraryExec files (value num g)) c n 0 v env) := by
  obtain ⟨_, _, h0, _⟩ := init_done hg
  have N := net hg
  obtain ⟨hw, h1⟩ := programs_are_well_formed (Y := types get) (fn := fn) hg hf ["row"]
  obtain ⟨hst, hr⟩ := h1 root seeds notes s (by show List.Nodup [_, _, _, _, _, _]; decide) hs
  have hrow : "row" ∈ graphNames D g ++ ["row"] := List.mem_append_right _ (List.mem_singleton.2 rfl)
  have hb : Begun (ast D (types get) fn g) (libraryExec files (value num g)) (seeds.map (·.1)) s :=
    N.begun hs fun n x t h2 h3 => value_ty h2 h3
  have hp : (ast D (types get) fn g).place 0 = [] := by rw [place_eq N.pos]; exact spot_zero
  obtain ⟨t, u, h2, h3, h4⟩ := library_programs_are_safe_partial hw (N.placed h0 hD) (N.tidy h0 hfn hl) hrow hst hb hord hp h
  refine ⟨u, h3, fun n hn v env hv => h4 n hn v env ?_⟩
  have hgrow := (compile_ok hw (library_named _ hrow) hord f 0 s c h (start_inv hst)).1
  rw [hv]
  exact settled_eq (hgrow.later.keeps _ _ _ hr) h2

/-! ### Text -/

mutual
/-- All expressions in it have blocks. -/
def FullE : Expr → Prop
  | .mk _ bs => bs ≠ [] ∧ FullBs bs
def FullBs : List Exp.Blk → Prop
  | [] => True
  | b :: bs => FullB b ∧ FullBs bs
def FullB : Exp.Blk → Prop
  | .mk _ _ _ ts => FullTs ts
def FullTs : List Term → Prop
  | [] => True
  | t :: ts => FullT t ∧ FullTs ts
def FullT : Term → Prop
  | .expr e => FullE e
  | _ => True
end

theorem FullBs.mem : ∀ {bs : List Exp.Blk}, FullBs bs → ∀ b ∈ bs, FullB b
  | _ :: _, ⟨h, h'⟩, b, hb => by
    rcases List.mem_cons.1 hb with e | hb
    · rw [e]; exact h
    · exact FullBs.mem h' b hb

theorem FullTs.mem : ∀ {ts : List Term}, FullTs ts → ∀ t ∈ ts, FullT t
  | _ :: _, ⟨h, h'⟩, t, ht => by
    rcases List.mem_cons.1 ht with e | ht
    · rw [e]; exact h
    · exact FullTs.mem h' t ht

mutual
theorem full_readE {k : Parse.Env} : ∀ e : Parse.Expr, Parse.GoodE k e → FullE (readE e)
  | .mk bs _, h => ⟨by
      cases bs with
      | nil => exact absurd rfl h.1
      | cons b bs => simp [readBs], full_readBs bs h.2.1⟩
theorem full_readBs {k : Parse.Env} : ∀ bs : List Parse.Blk, Parse.GoodBs k bs → FullBs (readBs bs)
  | [], _ => trivial
  | b :: bs, h => ⟨full_readB b h.1, full_readBs bs h.2⟩
theorem full_readB {k : Parse.Env} : ∀ b : Parse.Blk, Parse.GoodB k b → FullB (readB b)
  | .mk _ _ _ ts, h => full_readTs ts h.2.2.2
theorem full_readTs {k : Parse.Env} : ∀ ts : List Parse.Term, Parse.GoodTs k ts → FullTs (readTs ts)
  | [], _ => trivial
  | t :: ts, h => ⟨full_readT t h.1, full_readTs ts h.2⟩
theorem full_readT {k : Parse.Env} : ∀ t : Parse.Term, Parse.GoodT k t → FullT (readT t)
  | .flag _, _ => trivial
  | .arg a, h => full_readA a h
theorem full_readA {k : Parse.Env} : ∀ a : Parse.Arg, Parse.GoodA k a → FullT (readA a)
  | .ident _, _ => trivial
  | .num _, _ => trivial
  | .pound _, _ => trivial
  | .var _, _ => trivial
  | .expr e, h => full_readE e h
  | .dot lhs _ _, h => ⟨by simp, ⟨full_readA lhs h.1, trivial, trivial⟩, trivial⟩
end

/-- What is read from text has blocks in every expression. -/
theorem filled_of_text {K : Parse.Env → Prop} (L : ∀ k, K k → Parse.Laws k) (hD : FromText K D) {k : Parse.Env} (hk : K k) {text rest : Parse.Str} {x : Parse.Expr}
    (h : Parse.expression k text = .ok rest x) : Filled D (readE x) := by
  have key : ∀ y, Written D (readE x) y → FullE y := by
    intro y hy
    induction hy with
    | top => exact full_readE x (Parse.expression_good (L k hk) h).1
    | body _ _ hd =>
      obtain ⟨im, h1, _, ps, h2⟩ := hd
      obtain ⟨k1, _, _, d, hk1, h3, _, _, _, h4⟩ := hD _ im h1 ps _ h2
      rw [h4]
      exact full_readE _ (Parse.definition_good (L k1 hk1) h3).2.2.2.2.1
    | @arg z y op i o ts _ hb ht ih =>
      obtain ⟨out, bs⟩ := z
      exact FullTs.mem (FullBs.mem ih.2 _ hb) _ ht
  intro y hy
  obtain ⟨o, bs⟩ := y
  exact (key _ hy).1

theorem str_inj {a b : Parse.Str} (h : str a = str b) : a = b := by
  have := congrArg String.toList h
  simpa [str] using this

/-- The parser lets no two parameters of a definition have the same name. -/
theorem simple_of_text {K : Parse.Env → Prop} (L : ∀ k, K k → Parse.Laws k) (hD : FromText K D) {e : Expr} (hs : Short D e) : Simple D e := by
  intro f hf im him ps b hb
  obtain ⟨h1, h2⟩ := hs f hf im him ps b hb
  refine ⟨h1, ?_, h2⟩
  obtain ⟨k1, _, _, d, hk1, h3, _, _, h4, _⟩ := hD f im him ps b hb
  have hn := (Parse.definition_good (L k1 hk1) h3).2.2.2.1
  rw [h4, List.map_map]
  have : (d.params.map ((fun p : Exp.Param => p.name) ∘ readParam)) = (d.params.map (·.name)).map str := by
    rw [List.map_map]; rfl
  rw [this]
  unfold List.Nodup at hn ⊢
  rw [List.pairwise_map]
  exact hn.imp fun h e => h (str_inj e)

/-- **C77**: C67 and C70 for text: a program and definitions that are read from any text, if it is expanded without an error.
Starting does not panic; from where it starts, compiling ends; if compiling succeeds, the blocks that are written take an input
of the given type to an output. -/
theorem text_compiles {K : Parse.Env → Prop} (L : ∀ k, K k → Parse.Laws k) (hD : FromText K D) {k : Parse.Env} (hk : K k) {text rest : Parse.Str} {x : Parse.Expr}
    (ht : Parse.expression k text = .ok rest x) (hg : init D (readE x) = .ok g) (hY : Y.all.Nodup) {I : Builtins T} {more : List String}
    (hn : I.Named more) {ord : List Nat → List Nat} (hord : OrderOk ord) {root : T} {seeds : List (String × T)} {notes : List (Note T)}
    (ha : ∀ c ∈ notes, Annotates g c) :
    begins (ast D Y fn g) Y g root seeds notes ≠ .error .crash ∧
    ∀ s, begins (ast D Y fn g) Y g root seeds notes = .ok s →
      (∃ F r, ∀ f, F ≤ f → compile (ast D Y fn g) I ord f 0 s = some r) ∧
      ∀ f c, compile (ast D Y fn g) I ord f 0 s = some (.ok c) →
        (∃ o, Pipe c.steps (below g 0) root o) ∧
        (∀ x ∈ c.exprs, ∃ i o, Ty.Settled (c.tg.kn x .inp) i ∧ Ty.Settled (c.tg.kn x .out) o ∧ Pipe c.steps (below g x) i o) ∧
        ∀ op u v, (op, u, v) ∈ c.steps → StepOk (ast D Y fn g) I c op u v :=
  have hf := filled_of_text L hD hk ht
  ⟨starting_goes_on hg hf root seeds ha, fun _ hs => programs_compile hg hf hY hn hord hs⟩

/-- **C77**: C76 for text, with the modelled commands: the definitions it uses have at most 256 parameters, none of them an expression, and no
`let` is given the same name twice. That the parameters of a definition differ is up to the parser. -/
theorem text_evaluates_partial {K : Parse.Env → Prop} (L : ∀ k, K k → Parse.Laws k) (hD : FromText K D) {k : Parse.Env} (hk : K k) {text rest : Parse.Str} {x : Parse.Expr} (hsh : Short D (readE x))
    (ht : Parse.expression k text = .ok rest x) (hg : init D (readE x) = .ok g) (hl : LetsDiffer D (readE x) "let")
    (hfn : ∀ f ty, fn f ty = 5 → f = "let") {get : String → Tp} {num : String → Int} {files : Option Nat} {ord : List Nat → List Nat}
    (hord : OrderOk ord) {root : Tp} {seeds : List (String × Tp)} {notes : List (Note Tp)} {s c : S Tp}
    (hs : begins (ast D (types get) fn g) (types get) g root seeds notes = .ok s) {f : Nat}
    (h : compile (ast D (types get) fn g) (library (ast D (types get) fn g)) ord f 0 s = some (.ok c)) :
    ∃ u, Ty.Settled (c.tg.kn 0 .out) u ∧
      ∀ n ≥ c.steps.length, ∀ v env, v.ty = root → Ready0 (libraryExec files (value num g)) c (seeds.map (·.1)) env →
        Safe (libraryExec files (value num g)) u
          (evalExpr (ast D (types get) fn g) (libraryExec files (value num g)) c n 0 v env) :=
  programs_evaluate_partial hg (filled_of_text L hD hk ht) (simple_of_text L hD hsh) hl hfn hord hs h

/-! ### A program -/

/-- `{ let $acc | \ $row | \ $acc | + 1 }`. -/
def step : Expr := .mk none [.mk (some "let") none none [.plain (.var "acc")], .mk (some "\\") none none [.plain (.var "row")],
  .mk (some "\\") none none [.plain (.var "acc")], .mk (some "+") none none [.plain (.num "1")]]

/-- `ls | fold 0 { let $acc | \ $row | \ $acc | + 1 } | foo 7 | + #i`. -/
def counting : Expr := .mk none [.mk (some "ls") none none [], .mk (some "fold") none none [.plain (.num "0"), .expr step],
  .mk (some "foo") none none [.plain (.num "7")], .mk (some "+") none none [.pound 'i']]

/-- `def foo (x:Num) { + $x }`. -/
def fooBody : Expr := .mk none [.mk (some "+") none none [.plain (.var "x")]]

def someDefs : Defs where
  impls f :=
    if f = "foo" then [⟨none, some ([⟨"x", some "Num"⟩], fooBody)⟩]
    else if f = "+" then [⟨some "Num", none⟩, ⟨some "Str", none⟩, ⟨some "Table", none⟩]
    else if f = "fold" then [⟨some "Table", none⟩]
    else if f = "ls" ∨ f = "\\" ∨ f = "let" then [⟨none, none⟩] else []
  isTy t := t = "Num"

def someFn (f : String) (_ : Option String) : Nat :=
  if f = "ls" then 0 else if f = "\\" then 1 else if f = "+" then 3 else if f = "let" then 5 else if f = "fold" then 6 else 9

def someTy (t : String) : Tp := if t = "Num" then .num else if t = "Str" then .str else .tab

def someNum (x : String) : Int := if x = "7" then 7 else if x = "1" then 1 else 0

theorem counting_written {x : Expr} (h : Written someDefs counting x) : x = counting ∨ x = step ∨ x = fooBody := by
  have only : ∀ f ty b, IsDef someDefs f ty b → b = fooBody := by
    rintro f ty b ⟨im, h1, _, ps, h2⟩
    simp only [someDefs] at h1
    split at h1
    · rw [List.mem_singleton.1 h1] at h2; cases h2; rfl
    · split at h1
      · simp only [List.mem_cons, List.not_mem_nil, or_false] at h1
        rcases h1 with rfl | rfl | rfl <;> cases h2
      · split at h1
        · rw [List.mem_singleton.1 h1] at h2; cases h2
        · split at h1
          · rw [List.mem_singleton.1 h1] at h2; cases h2
          · cases h1
  induction h with
  | top => exact Or.inl rfl
  | body _ _ h => exact Or.inr (Or.inr (only _ _ _ h))
  | arg _ h1 h2 ih =>
    rcases ih with rfl | rfl | rfl <;> simp [counting, step, fooBody, Expr.blks] at h1
    · rcases h1 with ⟨_, _, _, rfl⟩ | ⟨_, _, _, rfl⟩ | ⟨_, _, _, rfl⟩ | ⟨_, _, _, rfl⟩ <;> simp at h2
      exact Or.inr (Or.inl h2)
    · rcases h1 with ⟨_, _, _, rfl⟩ | ⟨_, _, _, rfl⟩ | ⟨_, _, _, rfl⟩ | ⟨_, _, _, rfl⟩ <;> simp at h2
    · rcases h1 with ⟨_, _, _, rfl⟩; simp at h2

theorem counting_ok : Filled someDefs counting ∧ Simple someDefs counting ∧ LetsDiffer someDefs counting "let" ∧ ∀ f ty, someFn f ty = 5 → f = "let" := by
  refine ⟨?_, ?_, ?_, ?_⟩
  · intro x hx
    rcases counting_written hx with rfl | rfl | rfl <;> simp [counting, step, fooBody, Expr.blks]
  · intro f _ im him ps b hb
    have : ps = [⟨"x", some "Num"⟩] := by
      simp only [someDefs] at him
      split at him
      · rw [List.mem_singleton.1 him] at hb; cases hb; rfl
      · split at him
        · simp only [List.mem_cons, List.not_mem_nil, or_false] at him
          rcases him with rfl | rfl | rfl <;> cases hb
        · split at him
          · rw [List.mem_singleton.1 him] at hb; cases hb
          · split at him
            · rw [List.mem_singleton.1 him] at hb; cases hb
            · cases him
    subst this
    simp
  · intro x hx i o ts hb
    rcases counting_written hx with rfl | rfl | rfl <;> simp [counting, step, fooBody, Expr.blks] at hb
    rw [hb.2.2]
    simp [isFlag, letNames, varName]
  · intro f ty h
    unfold someFn at h
    split at h
    · cases h
    · split at h
      · cases h
      · split at h
        · cases h
        · split at h
          · assumption
          · split at h <;> cases h

/-- Whether the program is expanded, started, compiled, and evaluated to this value. -/
def runsTo (files : Nat) (v : Val) (notes : List (Note Tp)) : Bool :=
  match init someDefs counting with
  | .error _ => false
  | .ok g =>
    match begins (ast someDefs (types someTy) someFn g) (types someTy) g .nil [] notes with
    | .error _ => false
    | .ok s => okAnd (fun c => okWith v (evalExpr (ast someDefs (types someTy) someFn g) (libraryExec (some files) (value someNum g)) c c.steps.length 0 .nil
        (List.replicate c.slots.length .nil))) (compile (ast someDefs (types someTy) someFn g) (library (ast someDefs (types someTy) someFn g)) id 60 0 s)

theorem runs_to {files : Nat} {v : Val} {notes : List (Note Tp)} (h : runsTo files v notes = true) : ∃ g s c,
    init someDefs counting = .ok g ∧ begins (ast someDefs (types someTy) someFn g) (types someTy) g .nil [] notes = .ok s ∧
    compile (ast someDefs (types someTy) someFn g) (library (ast someDefs (types someTy) someFn g)) id 60 0 s = some (.ok c) ∧
    okWith v (evalExpr (ast someDefs (types someTy) someFn g) (libraryExec (some files) (value someNum g)) c c.steps.length 0 .nil
      (List.replicate c.slots.length .nil)) = true := by
  unfold runsTo at h
  split at h
  · cases h
  · rename_i g hg
    split at h
    · cases h
    · rename_i s hs
      obtain ⟨c, h1, h2⟩ := okAnd_eq h
      exact ⟨g, s, c, hg, hs, h1, h2⟩

/-- For C77: the program, with an output that is annotated to be a number, meets what the theorems assume. With three files it
makes 20. -/
example : Filled someDefs counting ∧ Simple someDefs counting ∧ LetsDiffer someDefs counting "let" ∧ (∀ f ty, someFn f ty = 5 → f = "let") ∧
    ∃ g s c, init someDefs counting = .ok g ∧ (∀ x ∈ [(.oblige 0 .out .num : Note Tp)], Annotates g x) ∧
      begins (ast someDefs (types someTy) someFn g) (types someTy) g .nil [] [.oblige 0 .out .num] = .ok s ∧
      compile (ast someDefs (types someTy) someFn g) (library (ast someDefs (types someTy) someFn g)) id 60 0 s = some (.ok c) ∧
      Ready0 (libraryExec (some 3) (value someNum g)) c [] (List.replicate c.slots.length .nil) ∧
      okWith (.num 20) (evalExpr (ast someDefs (types someTy) someFn g) (libraryExec (some 3) (value someNum g)) c c.steps.length 0 .nil
        (List.replicate c.slots.length .nil)) = true := by
  obtain ⟨h1, h2, h3, h4⟩ := counting_ok
  obtain ⟨g, s, c, k1, k2, k3, k4⟩ := runs_to (show runsTo 3 (.num 20) [.oblige 0 .out .num] = true by decide +kernel)
  refine ⟨h1, h2, h3, h4, g, s, c, k1, ?_, k2, k3, ⟨by simp, fun i hi => absurd hi (by simp)⟩, k4⟩
  intro x hx
  rw [List.mem_singleton.1 hx]
  exact Or.inr ⟨(net k1).root, rfl⟩

/-- Annotated to be a string, it is refused: the types contradict each other. -/
example : runsTo 3 (.num 20) [.oblige 0 .out .str] = false := by decide +kernel

/-! ### As text -/

def stepText : Parse.Expr := .mk [.mk none (.single "let".toList) none [.arg (.var "acc".toList)],
  .mk none (.single ['\\']) none [.arg (.var "row".toList)], .mk none (.single ['\\']) none [.arg (.var "acc".toList)],
  .mk none (.single ['+']) none [.arg (.num ['1'])]] none

def countingText : Parse.Expr := .mk [.mk none (.single "ls".toList) none [],
  .mk none (.single "fold".toList) none [.arg (.num ['0']), .arg (.expr stepText)],
  .mk none (.single "foo".toList) none [.arg (.num ['7'])], .mk none (.single ['+']) none [.arg (.pound 'i')]] none

theorem counting_reads : Parse.expression Parse.plain "ls | fold 0 { let $acc | \\ $row | \\ $acc | + 1 } | foo 7 | + #i".toList =
    .ok [] countingText := Parse.reads_eq (by decide +kernel)

theorem counting_text : readE countingText = counting := by
  simp only [countingText, stepText, counting, step, readE, readBs, readB, readTs, readT, readA, readOp, str, String.ofList_toList,
    Option.map_none]

def fooText : Parse.DefImpl := ⟨"foo".toList, none, [⟨['x'], some "Num".toList⟩],
  .mk [.mk none (.single ['+']) none [.arg (.var ['x'])]] none⟩

theorem foo_reads : Parse.definitionImpl Parse.plain "def foo (x:Num) { + $x }".toList = .ok [] fooText :=
  Parse.readsDef_eq (by decide +kernel)

theorem defs_text : FromText (· = Parse.plain) someDefs := by
  intro f im him ps b hb
  have : f = "foo" ∧ im = ⟨none, some ([⟨"x", some "Num"⟩], fooBody)⟩ := by
    simp only [someDefs] at him
    split at him
    · rename_i hf
      exact ⟨hf, List.mem_singleton.1 him⟩
    · split at him
      · simp only [List.mem_cons, List.not_mem_nil, or_false] at him
        rcases him with rfl | rfl | rfl <;> cases hb
      · split at him
        · rw [List.mem_singleton.1 him] at hb; cases hb
        · split at him
          · rw [List.mem_singleton.1 him] at hb; cases hb
          · cases him
  obtain ⟨rfl, rfl⟩ := this
  cases hb
  refine ⟨_, _, _, fooText, rfl, foo_reads, ?_, rfl, ?_, ?_⟩
  · simp [fooText, str]
  · simp only [fooText, List.map, readParam, str, Option.map_some, String.ofList_toList]
  · simp only [fooText, fooBody, readE, readBs, readB, readTs, readT, readA, readOp, str, Option.map_none]

/-- For C77: the text of the program and of its definition meet what the theorems about text assume. -/
example : FromText (· = Parse.plain) someDefs ∧
    ∃ x g, Short someDefs (readE x) ∧ Parse.expression Parse.plain "ls | fold 0 { let $acc | \\ $row | \\ $acc | + 1 } | foo 7 | + #i".toList = .ok [] x ∧
      init someDefs (readE x) = .ok g ∧ LetsDiffer someDefs (readE x) "let" := by
  obtain ⟨_, h2, h3, _⟩ := counting_ok
  obtain ⟨g, _, _, k1, _⟩ := runs_to (show runsTo 3 (.num 20) [.oblige 0 .out .num] = true by decide +kernel)
  exact ⟨defs_text, countingText, g, by rw [counting_text]; exact fun f hf im him ps b hb => ⟨(h2 f hf im him ps b hb).1, (h2 f hf im him ps b hb).2.2⟩,
    counting_reads,
    by rw [counting_text]; exact k1, by rw [counting_text]; exact h3⟩

end Verif.Prog
