import Verif.Lemmas.Notes
import Verif.Props.Prog
/-! The types a program is annotated with (C78). -/
namespace Verif.Prog
open Verif Verif.Exp Verif.Comp
variable {D : Defs} {e : Expr} {g : Graph} {T : Type} [DecidableEq T] {Y : Types T} {fn : String → Option String → Nat}

/-! ### The annotated types are taken -/

theorem obliged_settles {a b : Ty.State T} {n : Nat} {sd : Ty.Side} {t : T} (h : Ty.applyChg a (.oblige n sd t) = .ok b) :
    Ty.Settled (b.kn n sd) t := by
  unfold Ty.applyChg Ty.setKn at h
  dsimp only at h
  split at h
  · rename_i he; cases h; exact Or.inr he
  · split at h
    · cases h
      right
      show (Ty.State.set a n sd (.obliged t)).kn n sd = _
      unfold Ty.State.set
      simp
    · cases h

theorem applyAll_settles {A : Ast T} : ∀ (notes : List (Note T)) (s s' : S T) (b b' : Bool),
    applyAll A s b (notes.map Note.chg) = .ok (s', b') → ∀ n sd t, Note.oblige n sd t ∈ notes → Ty.Settled (s'.tg.kn n sd) t := by
  intro notes
  induction notes with
  | nil => intro s s' b b' _ n sd t h; cases h
  | cons c notes ih =>
    intro s s' b b' h n sd t hm
    rw [List.map_cons, applyAll] at h
    cases ha : apply1 A s c.chg with
    | error x => rw [ha] at h; cases h
    | ok r =>
      rw [ha] at h
      dsimp only at h
      rcases List.mem_cons.1 hm with e1 | hm
      · subst e1
        refine (applyAll_noted notes _ _ _ _ h).1.settled _ _ _ ?_
        unfold Note.chg apply1 at ha
        dsimp only at ha
        cases hx : Ty.applyChg s.tg (.oblige n sd t) with
        | error x => rw [hx] at ha; cases ha
        | ok y =>
          rw [hx] at ha
          cases ha
          exact obliged_settles hx
      · exact ih _ _ _ _ h n sd t hm

theorem begins_settles {A : Ast T} {root : T} {seeds : List (String × T)} {notes : List (Note T)} {s : S T}
    (h : begins A Y g root seeds notes = .ok s) {n : Nat} {sd : Ty.Side} {t : T} (hm : Note.oblige n sd t ∈ notes) :
    Ty.Settled (s.tg.kn n sd) t := by
  unfold begins at h
  split at h
  · cases h
  · split at h
    · rename_i r hr
      cases h
      exact applyAll_settles notes _ r.1 false r.2 hr n sd t hm
    · cases h

theorem notes_annotate {ns : List Ann} {anon : List T} (h : Fine g ns) : ∀ c ∈ notesOf Y ns anon, Annotates g c := by
  intro c hc
  rcases List.mem_append.1 hc with hc | hc
  · obtain ⟨a, ha, rfl⟩ := List.mem_map.1 hc
    exact h a ha
  · obtain ⟨t, _, rfl⟩ := List.mem_map.1 hc
    trivial

theorem initN_init {ns : List Ann} (h : initN D e = .ok (g, ns)) : init D e = .ok g := map_eq_ok (initN_graph e) h

/-- **C78**: the annotated types are honoured. A program is expanded and compiled without an error. Then every block with an
annotated input or output type is compiled for that type, and every expression with an annotated type ends with that type:
those of the program, and those in the bodies of the definitions it uses. -/
theorem annotations_are_honoured {I : Builtins T} {ord : List Nat → List Nat} {root : T} {seeds : List (String × T)} {anon : List T}
    {ns : List Ann} {s c : S T} {more : List String} (hg : initN D e = .ok (g, ns)) (hf : Filled D e) (hY : Y.all.Nodup)
    (hn : I.Named more) (hord : OrderOk ord) (hs : begins (ast D Y fn g) Y g root seeds (notesOf Y ns anon) = .ok s) {f : Nat}
    (h : compile (ast D Y fn g) I ord f 0 s = some (.ok c)) :
    (ShowsE g 0 e ∧ AnnotsE (Gets Y g c) g 0 e) ∧
    ∀ (d : Nat) name ty, g.nodes[d]? = some (.defn name ty) → ∃ im ∈ D.impls name, im.ty = ty ∧ ∃ ps b, im.defn = some (ps, b) ∧
      below g d = [d + 1] ∧ ShowsE g (d + 1) b ∧ AnnotsE (Gets Y g c) g (d + 1) b := by
  have hgi := initN_init hg
  have hc := initN_collects hg
  have N := net hgi
  obtain ⟨hw, h1⟩ := programs_are_well_formed (Y := Y) (fn := fn) hgi hf more
  obtain ⟨hst, _⟩ := h1 root seeds _ s hY hs
  have hn' : I.Named (graphNames D g ++ more) := fun s i op t name u h => List.mem_append_right _ (hn s i op t name u h)
  have hgrow := (compile_ok hw hn' hord f 0 s c h (start_inv hst)).1
  have key : ∀ n sd t, In ns n sd t → Gets Y g c n sd t := by
    intro n sd t hm
    have hm' : Note.oblige n sd (Y.get t) ∈ notesOf Y ns anon := List.mem_append_left _ (List.mem_map.2 ⟨_, hm, rfl⟩)
    have hset : Ty.Settled (c.tg.kn n sd) (Y.get t) := hgrow.later.keeps _ _ _ (begins_settles hs hm')
    cases sd with
    | inp => exact fun u v hx => settled_eq (hgrow.inv.steps _ hx).2.1 hset
    | out =>
      refine ⟨fun u v hx => settled_eq (hgrow.inv.steps _ hx).2.2 hset, fun hx => ?_⟩
      obtain ⟨h2, i, o, _, h4, h5⟩ := hgrow.inv.exprs n hx
      have e1 := settled_eq h4 hset
      obtain ⟨y, k7, k8⟩ := mem_numbered.1 h2
      rw [isExpr_iff.1 k8] at k7
      refine ⟨i, ?_⟩
      rw [← N.blocks_eq k7, ← e1]
      exact h5
  refine ⟨⟨hc.shows, AnnotsE.mono key _ _ hc.annots⟩, ?_⟩
  intro d name ty hd
  obtain ⟨im, h2, h3, ps, b, h4, h5, h6, h7⟩ := hc.bodies d name ty hd
  exact ⟨im, h2, h3, ps, b, h4, h5, h6, AnnotsE.mono key _ _ h7⟩

theorem AnnotsBs.last {P : Nat → Ty.Side → String → Prop} : ∀ {bs : List Exp.Blk} {b : Exp.Blk} {ms : List Nat},
    AnnotsBs P g ms (bs ++ [b]) → ∃ ms' m, ms = ms' ++ [m] ∧ AnnotsB P g m b
  | [], b, ms, h => by
    obtain ⟨m, ms', rfl, h1, h2⟩ := h
    rw [show ms' = [] from h2]
    exact ⟨[], m, rfl, h1⟩
  | b0 :: bs, b, ms, h => by
    obtain ⟨m, ms', rfl, _, h2⟩ := h
    obtain ⟨ms2, m2, rfl, h3⟩ := AnnotsBs.last h2
    exact ⟨m :: ms2, m2, rfl, h3⟩

theorem pipe_last {st : List (Nat × T × T)} {m : Nat} {o : T} : ∀ {ms : List Nat} {i : T}, Pipe st (ms ++ [m]) i o → ∃ u, (m, u, o) ∈ st
  | [], i, h => by
    generalize hL : ([] ++ [m] : List Nat) = L at h
    cases h with
    | nil => cases hL
    | cons h1 h2 =>
      injection hL with e1 e2
      subst e1 e2
      cases h2
      exact ⟨_, h1⟩
  | x :: ms, i, h => by
    generalize hL : (x :: ms ++ [m] : List Nat) = L at h
    cases h with
    | nil => cases hL
    | cons h1 h2 =>
      injection hL with e1 e2
      subst e1 e2
      exact pipe_last h2

theorem pipe_first {st : List (Nat × T × T)} {m : Nat} {ms : List Nat} {i o : T} (h : Pipe st (m :: ms) i o) : ∃ v, (m, i, v) ∈ st := by
  generalize hL : m :: ms = L at h
  cases h with
  | nil => cases hL
  | cons h1 _ =>
    injection hL with e1 e2
    subst e1
    exact ⟨_, h1⟩

/-- **C78**: what annotations say of a whole pipeline. If the first block's input is annotated, the program is compiled for no other
input. If the last block's output is annotated, the program's output is of that type. -/
theorem annotated_ends {I : Builtins T} {ord : List Nat → List Nat} {root : T} {seeds : List (String × T)} {anon : List T}
    {ns : List Ann} {s c : S T} {more : List String} {out : Option String} {blks : List Exp.Blk} (hg : initN D (.mk out blks) = .ok (g, ns))
    (hf : Filled D (.mk out blks)) (hY : Y.all.Nodup) (hn : I.Named more) (hord : OrderOk ord)
    (hs : begins (ast D Y fn g) Y g root seeds (notesOf Y ns anon) = .ok s) {f : Nat}
    (h : compile (ast D Y fn g) I ord f 0 s = some (.ok c)) :
    (∀ op t o ts bs, blks = .mk op (some t) o ts :: bs → root = Y.get t) ∧
    (∀ op i t ts bs, blks = bs ++ [.mk op i (some t) ts] → Ty.Settled (c.tg.kn 0 .out) (Y.get t) ∧ Pipe c.steps (below g 0) root (Y.get t)) := by
  have hgi := initN_init hg
  have N := net hgi
  obtain ⟨hw, h1⟩ := programs_are_well_formed (Y := Y) (fn := fn) hgi hf more
  obtain ⟨hst, hr⟩ := h1 root seeds _ s hY hs
  have hn' : I.Named (graphNames D g ++ more) := fun s i op t name u h => List.mem_append_right _ (hn s i op t name u h)
  have hgrow := (compile_ok hw hn' hord f 0 s c h (start_inv hst)).1
  obtain ⟨_, i, o, h3, h4, h5⟩ := hgrow.inv.exprs 0 (compile_done f h)
  have e1 := settled_eq h3 (hgrow.later.keeps _ _ _ hr)
  have h6 : Pipe c.steps (below g 0) root o := by rw [← N.blocks_eq N.root, ← e1]; exact h5
  obtain ⟨⟨_, _, ha⟩, _⟩ := annotations_are_honoured hg hf hY hn hord hs h
  constructor
  · intro op t o' ts bs hb
    subst hb
    obtain ⟨m, ms, hms, hm, _⟩ := ha
    rw [hms] at h6
    obtain ⟨v, hv⟩ := pipe_first h6
    exact hm.1 t rfl _ _ hv
  · intro op i' t ts bs hb
    subst hb
    obtain ⟨ms, m, hms, hm⟩ := AnnotsBs.last ha
    rw [hms] at h6
    obtain ⟨u, hu⟩ := pipe_last h6
    have e2 := (hm.2.1 t rfl).1 _ _ hu
    rw [hms, ← e2]
    exact ⟨h4, h6⟩

mutual
theorem text_readE {P : Nat → Ty.Side → String → Prop} : ∀ (x : Parse.Expr) (n : Nat), ShowsE g n (readE x) → AnnotsE P g n (readE x) →
    TextE P g n x
  | .mk bs out, n, hs, ha => by
    rw [readE] at hs ha
    exact ⟨hs.1, fun t ht => ha.1 (str t) (by rw [ht]; rfl), text_readBs bs _ hs.2 ha.2⟩
theorem text_readBs {P : Nat → Ty.Side → String → Prop} : ∀ (bs : List Parse.Blk) (ms : List Nat), ShowsBs g ms (readBs bs) →
    AnnotsBs P g ms (readBs bs) → TextBs P g ms bs
  | [], _, hs, _ => hs
  | b :: bs, ms, hs, ha => by
    rw [readBs] at hs ha
    obtain ⟨m, ms', rfl, h1, h2⟩ := hs
    obtain ⟨m', ms'', he, k1, k2⟩ := ha
    cases he
    exact ⟨m, ms', rfl, text_readB b m h1 k1, text_readBs bs ms' h2 k2⟩
theorem text_readB {P : Nat → Ty.Side → String → Prop} : ∀ (b : Parse.Blk) (m : Nat), ShowsB g m (readB b) → AnnotsB P g m (readB b) →
    TextB P g m b
  | .mk i op o ts, m, hs, ha => by
    rw [readB] at hs ha
    obtain ⟨⟨f, hf, h1⟩, h2⟩ := hs
    refine ⟨?_, fun t ht => ha.1 (str t) (by rw [ht]; rfl), fun t ht => ha.2.1 (str t) (by rw [ht]; rfl), text_readTs ts _ h2 ha.2.2⟩
    unfold readOp at hf
    split at hf
    · cases hf; exact ⟨_, Or.inl rfl, h1⟩
    · cases hf; exact ⟨_, Or.inr ⟨_, rfl⟩, h1⟩
    · cases hf
theorem text_readTs {P : Nat → Ty.Side → String → Prop} : ∀ (ts : List Parse.Term) (ks : List Nat), ShowsTs g ks (readTs ts) →
    AnnotsTs P g ks (readTs ts) → TextTs P g ks ts
  | [], _, hs, _ => hs
  | t :: ts, ks, hs, ha => by
    rw [readTs] at hs ha
    obtain ⟨m, ms', rfl, h1, h2⟩ := hs
    obtain ⟨m', ms'', he, k1, k2⟩ := ha
    cases he
    exact ⟨m, ms', rfl, text_readT t m h1 k1, text_readTs ts ms' h2 k2⟩
theorem text_readT {P : Nat → Ty.Side → String → Prop} : ∀ (t : Parse.Term) (k : Nat), ShowsT g k (readT t) → AnnotsT P g k (readT t) →
    TextT P g k t
  | .flag _, _, hs, _ => hs
  | .arg a, k, hs, ha => text_readA a k hs ha
theorem text_readA {P : Nat → Ty.Side → String → Prop} : ∀ (a : Parse.Arg) (k : Nat), ShowsT g k (readA a) → AnnotsT P g k (readA a) →
    TextA P g k a
  | .ident _, _, hs, _ => hs
  | .num _, _, hs, _ => hs
  | .pound _, _, hs, _ => hs
  | .var _, _, hs, _ => hs
  | .expr e, k, hs, ha => text_readE e k hs ha
  | .dot lhs rhs out, k, hs, ha => by
    rw [readA] at hs ha
    obtain ⟨h1, m, ms, h2, ⟨⟨f, hf, h3⟩, a, ks, h4, h5, b, ks', h6, h7, h8⟩, h9⟩ := hs
    obtain ⟨_, m', ms', k2, ⟨_, k3, a', ks1, k4, k5, _⟩, _⟩ := ha
    have e1 : ms = [] := h9
    have e2 : ks' = [] := h8
    cases hf
    subst e1 e2 h6
    rw [h2] at k2
    cases k2
    rw [h4] at k4
    cases k4
    exact ⟨h1, m, a, b, h2, h3, fun t ht => k3 (str t) (by rw [ht]; rfl), h4, text_readA lhs a h5 k5, h7⟩
end

/-- **C77, C78**: for text, with the types that are annotated in it: C67 and C70. Starting does not panic, compiling ends. If it
succeeds, the program is compiled as it is written: its blocks take an input of the given type to an output, in the order
written, and each annotated type is the type of its block or expression. So are the definitions it uses. -/
theorem noted_text_compiles {K : Parse.Env → Prop} (L : ∀ k, K k → Parse.Laws k) (hD : FromText K D) {k : Parse.Env} (hk : K k) {text rest : Parse.Str} {x : Parse.Expr}
    (ht : Parse.expression k text = .ok rest x) {ns : List Ann} (hg : initN D (readE x) = .ok (g, ns)) (hY : Y.all.Nodup) {I : Builtins T}
    {more : List String} (hn : I.Named more) {ord : List Nat → List Nat} (hord : OrderOk ord) {root : T} {seeds : List (String × T)}
    {anon : List T} :
    begins (ast D Y fn g) Y g root seeds (notesOf Y ns anon) ≠ .error .crash ∧
    ∀ s, begins (ast D Y fn g) Y g root seeds (notesOf Y ns anon) = .ok s →
      (∃ F r, ∀ f, F ≤ f → compile (ast D Y fn g) I ord f 0 s = some r) ∧
      ∀ f c, compile (ast D Y fn g) I ord f 0 s = some (.ok c) →
        TextE (Gets Y g c) g 0 x ∧
        (∃ o, Pipe c.steps (below g 0) root o) ∧
        (∀ x ∈ c.exprs, ∃ i o, Ty.Settled (c.tg.kn x .inp) i ∧ Ty.Settled (c.tg.kn x .out) o ∧ Pipe c.steps (below g x) i o) ∧
        (∀ op u v, (op, u, v) ∈ c.steps → StepOk (ast D Y fn g) I c op u v) ∧
        ∀ (d : Nat) name ty, g.nodes[d]? = some (.defn name ty) → ∃ k text rest df, K k ∧ Parse.definitionImpl k text = .ok rest df ∧
          name = str df.name ∧ ty = df.inTy.map str ∧ below g d = [d + 1] ∧ TextE (Gets Y g c) g (d + 1) df.body := by
  have hf := filled_of_text L hD hk ht
  refine ⟨starting_goes_on (initN_init hg) hf root seeds (notes_annotate (initN_collects hg).fine), fun s hs =>
    ⟨(programs_compile (initN_init hg) hf hY hn hord hs).1, fun f c h => ?_⟩⟩
  obtain ⟨h1, h2, h3⟩ := (programs_compile (initN_init hg) hf hY hn hord hs).2 f c h
  obtain ⟨⟨k1, k2⟩, k3⟩ := annotations_are_honoured hg hf hY hn hord hs h
  refine ⟨text_readE x 0 k1 k2, h1, h2, h3, ?_⟩
  intro d name ty hd
  obtain ⟨im, m1, m2, ps, b, m3, m4, m5, m6⟩ := k3 d name ty hd
  obtain ⟨k1, text, rest, df, r0, r1, r2, r3, _, rfl⟩ := hD name im m1 ps b m3
  exact ⟨k1, text, rest, df, r0, r1, r2, by rw [← m2, r3], m4, text_readE df.body _ m5 m6⟩

/-- **C78**: with the modelled commands, a program whose last block's output is annotated evaluates to a value of that type, or to an
error. -/
theorem annotated_text_evaluates_partial {K : Parse.Env → Prop} (L : ∀ k, K k → Parse.Laws k) (hD : FromText K D) {k : Parse.Env} (hk : K k) {text rest : Parse.Str}
    {x : Parse.Expr} (hsh : Short D (readE x)) (ht : Parse.expression k text = .ok rest x) {ns : List Ann} (hg : initN D (readE x) = .ok (g, ns))
    (hl : LetsDiffer D (readE x) "let") (hfn : ∀ f ty, fn f ty = 5 → f = "let") {get : String → Tp} {num : String → Int}
    {files : Option Nat} {ord : List Nat → List Nat} (hord : OrderOk ord) {root : Tp} {seeds : List (String × Tp)} {anon : List Tp}
    {s c : S Tp} (hs : begins (ast D (types get) fn g) (types get) g root seeds (notesOf (types get) ns anon) = .ok s) {f : Nat}
    (h : compile (ast D (types get) fn g) (library (ast D (types get) fn g)) ord f 0 s = some (.ok c)) {op i : Option String} {t : String}
    {ts : List Term} {bs : List Exp.Blk} (hlast : (readE x).blks = bs ++ [.mk op i (some t) ts]) :
    ∀ n ≥ c.steps.length, ∀ v env, v.ty = root → Ready0 (libraryExec files (value num g)) c (seeds.map (·.1)) env →
      Safe (libraryExec files (value num g)) (get t)
        (evalExpr (ast D (types get) fn g) (libraryExec files (value num g)) c n 0 v env) := by
  obtain ⟨u, h1, h2⟩ := text_evaluates_partial (num := num) (files := files) L hD hk hsh ht (initN_init hg) hl hfn hord hs h
  have hf := filled_of_text L hD hk ht
  have hx : readE x = .mk (readE x).out (readE x).blks := by cases readE x; rfl
  rw [hx] at hg hf
  have h3 := (annotated_ends (more := ["row"]) hg hf (by show List.Nodup [_, _, _, _, _, _]; decide)
    (library_named _ (List.mem_singleton.2 rfl)) hord hs h).2 _ _ _ _ _ hlast
  have e : u = get t := settled_eq h1 h3.1
  rw [← e]
  exact h2

/-! ### A program with annotated types -/

/-- `{ let $acc | \ $row | \ $acc | + 1 }:Num`. -/
def stepNoted : Expr := .mk (some "Num") step.blks

/-- `:Nil ls:Table | fold 0 { let $acc | \ $row | \ $acc | + 1 }:Num | foo:Num 7 |:Num +:Num #i`. -/
def annotated : Expr := .mk none [.mk (some "ls") (some "Nil") (some "Table") [],
  .mk (some "fold") none none [.plain (.num "0"), .expr stepNoted],
  .mk (some "foo") none (some "Num") [.plain (.num "7")], .mk (some "+") (some "Num") (some "Num") [.pound 'i']]

/-- `def foo (x:Num) { +:Num $x }`. -/
def fooNoted : Expr := .mk none [.mk (some "+") none (some "Num") [.plain (.var "x")]]

def annotatedDefs : Defs where
  impls f := if f = "foo" then [⟨none, some ([⟨"x", some "Num"⟩], fooNoted)⟩] else someDefs.impls f
  isTy t := t ∈ ["Nil", "Num", "Str", "Table"]

def annotatedTy (t : String) : Tp := if t = "Nil" then .nil else someTy t

theorem annotated_def {f : String} {im : Impl} {ps : List Param} {b : Expr} (h : im ∈ annotatedDefs.impls f) (hb : im.defn = some (ps, b)) :
    f = "foo" ∧ im = ⟨none, some ([⟨"x", some "Num"⟩], fooNoted)⟩ := by
  simp only [annotatedDefs, someDefs] at h
  split at h
  · rename_i hf
    exact ⟨hf, List.mem_singleton.1 h⟩
  · split at h
    · simp only [List.mem_cons, List.not_mem_nil, or_false] at h
      rcases h with rfl | rfl | rfl <;> cases hb
    · split at h
      · rw [List.mem_singleton.1 h] at hb; cases hb
      · split at h
        · rw [List.mem_singleton.1 h] at hb; cases hb
        · cases h

theorem annotated_written {x : Expr} (h : Written annotatedDefs annotated x) : x = annotated ∨ x = stepNoted ∨ x = fooNoted := by
  induction h with
  | top => exact Or.inl rfl
  | body _ _ h =>
    obtain ⟨im, h1, _, ps, h2⟩ := h
    obtain ⟨_, rfl⟩ := annotated_def h1 h2
    cases h2
    exact Or.inr (Or.inr rfl)
  | arg _ h1 h2 ih =>
    rcases ih with rfl | rfl | rfl <;> simp [annotated, stepNoted, step, fooNoted, Expr.blks] at h1
    · rcases h1 with ⟨_, _, _, rfl⟩ | ⟨_, _, _, rfl⟩ | ⟨_, _, _, rfl⟩ | ⟨_, _, _, rfl⟩ <;> simp at h2
      exact Or.inr (Or.inl h2)
    · rcases h1 with ⟨_, _, _, rfl⟩ | ⟨_, _, _, rfl⟩ | ⟨_, _, _, rfl⟩ | ⟨_, _, _, rfl⟩ <;> simp at h2
    · rcases h1 with ⟨_, _, _, rfl⟩; simp at h2

theorem annotated_ok : Filled annotatedDefs annotated ∧ Short annotatedDefs annotated ∧ LetsDiffer annotatedDefs annotated "let" := by
  refine ⟨?_, ?_, ?_⟩
  · intro x hx
    rcases annotated_written hx with rfl | rfl | rfl <;> simp [annotated, stepNoted, step, fooNoted, Expr.blks]
  · intro f _ im him ps b hb
    obtain ⟨_, rfl⟩ := annotated_def him hb
    cases hb
    simp
  · intro x hx i o ts hb
    rcases annotated_written hx with rfl | rfl | rfl <;> simp [annotated, stepNoted, step, fooNoted, Expr.blks] at hb
    rw [hb.2.2]
    simp [isFlag, letNames, varName]

def annotatedText : Parse.Expr := .mk [.mk (some "Nil".toList) (.single "ls".toList) (some "Table".toList) [],
  .mk none (.single "fold".toList) none [.arg (.num ['0']), .arg (.expr (.mk [.mk none (.single "let".toList) none [.arg (.var "acc".toList)],
    .mk none (.single ['\\']) none [.arg (.var "row".toList)], .mk none (.single ['\\']) none [.arg (.var "acc".toList)],
    .mk none (.single ['+']) none [.arg (.num ['1'])]] (some "Num".toList)))],
  .mk none (.single "foo".toList) (some "Num".toList) [.arg (.num ['7'])],
  .mk (some "Num".toList) (.single ['+']) (some "Num".toList) [.arg (.pound 'i')]] none

theorem annotated_reads : Parse.expression Parse.plain
    ":Nil ls:Table | fold 0 { let $acc | \\ $row | \\ $acc | + 1 }:Num | foo:Num 7 |:Num +:Num #i".toList = .ok [] annotatedText :=
  Parse.reads_eq (by decide +kernel)

theorem annotated_text : readE annotatedText = annotated := by
  simp only [annotatedText, annotated, stepNoted, step, Expr.blks, readE, readBs, readB, readTs, readT, readA, readOp, str,
    String.ofList_toList, Option.map_none, Option.map_some]

def fooNotedText : Parse.DefImpl := ⟨"foo".toList, none, [⟨['x'], some "Num".toList⟩],
  .mk [.mk none (.single ['+']) (some "Num".toList) [.arg (.var ['x'])]] none⟩

theorem foo_noted_reads : Parse.definitionImpl Parse.plain "def foo (x:Num) { +:Num $x }".toList = .ok [] fooNotedText :=
  Parse.readsDef_eq (by decide +kernel)

theorem annotated_defs_text : FromText (· = Parse.plain) annotatedDefs := by
  intro f im him ps b hb
  obtain ⟨rfl, rfl⟩ := annotated_def him hb
  cases hb
  refine ⟨_, _, _, fooNotedText, rfl, foo_noted_reads, ?_, rfl, ?_, ?_⟩
  · simp [fooNotedText, str]
  · simp only [fooNotedText, List.map, readParam, str, Option.map_some, String.ofList_toList]
  · simp only [fooNotedText, fooNoted, readE, readBs, readB, readTs, readT, readA, readOp, str, Option.map_none, Option.map_some,
      String.ofList_toList]

/-- The types that are collected from the program: the last is of the body of `foo`. -/
def collected : List Ann := [(1, .inp, "Nil"), (1, .out, "Table"), (5, .out, "Num"), (7, .inp, "Num"),
  (7, .out, "Num"), (4, .out, "Num"), (21, .out, "Num")]

/-- Whether the program is expanded with these types, started, compiled, and evaluated to this value. -/
def notedRuns (e : Expr) (files : Nat) (v : Val) (ns : List Ann) : Bool :=
  match initN annotatedDefs e with
  | .error _ => false
  | .ok r => decide (r.2 = ns) &&
    match begins (ast annotatedDefs (types annotatedTy) someFn r.1) (types annotatedTy) r.1 .nil [] (notesOf (types annotatedTy) ns []) with
    | .error _ => false
    | .ok s => okAnd (fun c => okWith v (evalExpr (ast annotatedDefs (types annotatedTy) someFn r.1) (libraryExec (some files) (value someNum r.1)) c
        c.steps.length 0 .nil (List.replicate c.slots.length .nil)))
        (compile (ast annotatedDefs (types annotatedTy) someFn r.1) (library (ast annotatedDefs (types annotatedTy) someFn r.1)) id 60 0 s)

theorem noted_runs {e : Expr} {files : Nat} {v : Val} {ns : List Ann} (h : notedRuns e files v ns = true) : ∃ g s c,
    initN annotatedDefs e = .ok (g, ns) ∧
    begins (ast annotatedDefs (types annotatedTy) someFn g) (types annotatedTy) g .nil [] (notesOf (types annotatedTy) ns []) = .ok s ∧
    compile (ast annotatedDefs (types annotatedTy) someFn g) (library (ast annotatedDefs (types annotatedTy) someFn g)) id 60 0 s = some (.ok c) ∧
    okWith v (evalExpr (ast annotatedDefs (types annotatedTy) someFn g) (libraryExec (some files) (value someNum g)) c c.steps.length 0 .nil
      (List.replicate c.slots.length .nil)) = true := by
  unfold notedRuns at h
  split at h
  · cases h
  · rename_i r hg
    rw [Bool.and_eq_true] at h
    obtain ⟨h1, h⟩ := h
    split at h
    · cases h
    · rename_i s hs
      obtain ⟨c, h2, h3⟩ := okAnd_eq h
      have e1 : r.2 = ns := of_decide_eq_true h1
      exact ⟨r.1, s, c, by rw [hg, ← e1], hs, h2, h3⟩

/-- For C78: the text of the program and of its definition meet what the theorems assume. With three files it makes 20. -/
example : FromText (· = Parse.plain) annotatedDefs ∧
    ∃ x g s c, Short annotatedDefs (readE x) ∧ Parse.expression Parse.plain
        ":Nil ls:Table | fold 0 { let $acc | \\ $row | \\ $acc | + 1 }:Num | foo:Num 7 |:Num +:Num #i".toList = .ok [] x ∧
      initN annotatedDefs (readE x) = .ok (g, collected) ∧ LetsDiffer annotatedDefs (readE x) "let" ∧
      (∃ bs op i ts, (readE x).blks = bs ++ [.mk op i (some "Num") ts]) ∧
      begins (ast annotatedDefs (types annotatedTy) someFn g) (types annotatedTy) g .nil [] (notesOf (types annotatedTy) collected []) = .ok s ∧
      compile (ast annotatedDefs (types annotatedTy) someFn g) (library (ast annotatedDefs (types annotatedTy) someFn g)) id 60 0 s = some (.ok c) ∧
      okWith (.num 20) (evalExpr (ast annotatedDefs (types annotatedTy) someFn g) (libraryExec (some 3) (value someNum g)) c c.steps.length 0 .nil
        (List.replicate c.slots.length .nil)) = true := by
  obtain ⟨_, h2, h3⟩ := annotated_ok
  obtain ⟨g, s, c, k1, k2, k3, k4⟩ := noted_runs (show notedRuns annotated 3 (.num 20) collected = true by decide +kernel)
  refine ⟨annotated_defs_text, annotatedText, g, s, c, by rw [annotated_text]; exact h2, annotated_reads, ?_, ?_, ?_, k2, k3, k4⟩
  · rw [annotated_text]; exact k1
  · rw [annotated_text]; exact h3
  · rw [annotated_text]
    exact ⟨[_, _, _], _, _, _, rfl⟩

/-- `ls:Num` is refused, and `:Num ls` is for another input. -/
example : notedRuns (.mk none [.mk (some "ls") none (some "Table") []]) 3 (.tab 3) [(1, .out, "Table")] = true ∧
    notedRuns (.mk none [.mk (some "ls") none (some "Num") []]) 3 (.tab 3) [(1, .out, "Num")] = false ∧
    notedRuns (.mk none [.mk (some "ls") (some "Num") none []]) 3 (.tab 3) [(1, .inp, "Num")] = false := by decide +kernel

end Verif.Prog
