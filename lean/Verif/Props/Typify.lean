import Verif.Spec.Typify
import Verif.Props.Prog
import Verif.Props.ExpandArgs
/-! C88: what `typify` shows. -/
namespace Verif.Typify
open Verif Verif.Exp Verif.Prog
open Verif.Trace (Text)
set_option linter.unusedSectionVars false

variable {T : Type} [DecidableEq T] {D : Defs} {g : Graph}

theorem ops_rev (g : Graph) (e : Nat) : ((outEdges g e).map (·.dst)).filter (at' g isOp) = (blocks g e).reverse := by
  unfold blocks; rw [List.reverse_reverse]

theorem firstOp_eq (N : Net D g) {n : Nat} (hn : g.nodes[n]? = some .expr) : firstOp g n = (below g n).head? := by
  unfold firstOp
  rw [ops_rev, List.getLast?_reverse, N.blocks_eq hn]

theorem takeWhile_next {l : List Nat} {m : Nat} (h : m ∉ l) (r : List Nat) : (l ++ m :: r).takeWhile (· ≠ m) = l := by
  induction l with
  | nil => simp
  | cons a l ih =>
    simp only [List.mem_cons, not_or] at h
    rw [List.cons_append, List.takeWhile_cons, if_pos (by simpa using fun e => h.1 e.symm), ih h.2]

theorem nextOp_eq (N : Net D g) {n m : Nat} (hn : g.nodes[n]? = some .expr) {pre post : List Nat} (hb : below g n = pre ++ m :: post) :
    nextOp g m = post.head? := by
  have hm : m ∈ below g n := by rw [hb]; simp
  have hp : parent g m = n := N.parent_eq (mem_below.1 hm) hn
  have hd := N.below_nodup n
  rw [hb] at hd
  have hd2 := (List.nodup_append.1 hd).2.1
  unfold nextOp
  rw [hp, ops_rev, N.blocks_eq hn, hb, List.reverse_append, List.reverse_cons, List.append_assoc, List.singleton_append,
    takeWhile_next (by rw [List.mem_reverse]; exact (List.nodup_cons.1 hd2).1), List.getLast?_reverse]

theorem fmtTy_colon (name : T → Text) (t : Option T) : fmtTy name t = colon name t := by cases t <;> rfl

theorem implFor_runs {get : String → T} {op : Nat} {t : T} :
    (runs g get op t = true → ∃ c ty, implFor g get op t = some c ∧ ⟨op, c, .keyed ty⟩ ∈ g.edges) ∧
    (runs g get op t = false → implFor g get op t = none) := by
  constructor
  · intro h
    obtain ⟨e, he, h1⟩ := List.any_eq_true.1 h
    obtain ⟨h1, h2⟩ := (Bool.and_eq_true _ _).mp h1
    have hs : e.src = op := of_decide_eq_true h1
    unfold implFor
    cases hf : (outEdges g op).find? (fun e => keyIs get t e.rel) with
    | some x =>
      obtain ⟨h3, h4⟩ := mem_outEdges.1 (List.mem_of_find?_eq_some hf)
      have h5 := List.find?_some hf
      unfold keyIs at h5
      split at h5
      · rename_i s hs
        refine ⟨x.dst, some s, rfl, ?_⟩
        rw [← h4, ← hs]; exact h3
      · cases h5
    | none =>
      have hno := List.find?_eq_none.1 hf e (mem_outEdges.2 ⟨he, hs⟩)
      have hrel : e.rel = .keyed none := by
        split at h2
        · assumption
        · rename_i s hs2
          exact absurd (show keyIs get t e.rel = true by rw [hs2]; exact h2) hno
        · cases h2
      have hm : e ∈ (outEdges g op).filter (·.rel = .keyed none) :=
        List.mem_filter.2 ⟨mem_outEdges.2 ⟨he, hs⟩, decide_eq_true hrel⟩
      dsimp only
      cases hl : ((outEdges g op).filter (·.rel = .keyed none)).getLast? with
      | none => rw [List.getLast?_eq_none_iff.1 hl] at hm; cases hm
      | some x =>
        obtain ⟨h3, h4⟩ := List.mem_filter.1 (List.mem_of_getLast? hl)
        obtain ⟨h5, h6⟩ := mem_outEdges.1 h3
        refine ⟨x.dst, none, rfl, ?_⟩
        have := of_decide_eq_true h4
        rw [← h6, ← this]; exact h5
  · intro h
    have hall : ∀ e ∈ outEdges g op, keyIs get t e.rel = false ∧ e.rel ≠ .keyed none := by
      intro e he
      obtain ⟨h1, h2⟩ := mem_outEdges.1 he
      have := List.any_eq_false.1 h e h1
      simp only [h2, decide_true, Bool.true_and] at this
      constructor
      · unfold keyIs
        split
        · rename_i s hs
          rw [hs] at this
          simpa using this
        · rfl
      · intro hk
        rw [hk] at this
        exact this rfl
    unfold implFor
    rw [List.find?_eq_none.2 (fun e he => by rw [(hall e he).1]; simp)]
    dsimp only
    rw [List.filter_eq_nil_iff.2 (fun e he => by simpa using (hall e he).2)]
    rfl

theorem argsFor_eq (N : Net D g) (K : Known T) (v : Bool) (op : Nat) :
    argsFor g K.get op (K.kn op .inp).ty = some (if (style g K v).full op then (termsOf g op false).take 256 else []) := by
  have hs : (style g K v).full op = (K.kn op .inp).ty.any (runs g K.get op) := rfl
  rw [hs]
  generalize (K.kn op .inp).ty = o
  unfold argsFor
  cases o with
  | none => rfl
  | some t =>
    simp only [Option.bind_some, Option.any_some]
    by_cases hr : runs g K.get op t = true
    · obtain ⟨c, ty, h1, h2⟩ := implFor_runs.1 hr
      rw [h1, if_pos hr]
      exact terms_received N.inv h2 false
    · rw [implFor_runs.2 (Bool.eq_false_iff.2 hr), if_neg hr]

theorem flagged_eq {k : Nat} {t : Term} (h : ShowsT g k t) : (match g.nodes[k]? with
    | some x => x.isFlag
    | none => false) = t.flagged := by
  obtain ⟨x, h1, h2⟩ := h.isFlag
  rw [h1]
  cases t <;> exact h2

/-- The arguments, one after the other. -/
theorem fmtArgs_eq {S : Style} {F : Nat → Option Text} : ∀ (ts : List Term) (ks : List Nat) (n : Nat), ShowsTs g ks ts →
    (∀ k t, k ∈ ks → t ∈ ts → ShowsT g k t → t.flagged = false → F k = some (textT g S k t)) →
    fmtArgs F ((ks.filter fun n => (match g.nodes[n]? with
      | some x => x.isFlag
      | none => false) == false).take n) = some (textTs g S n ks ts) := by
  intro ts
  induction ts with
  | nil => intro ks n h _; cases h; cases n <;> simp [fmtArgs, textTs]
  | cons t ts ih =>
    rintro ks n ⟨k, ks', rfl, h1, h2⟩ hF
    have ih' := fun n => ih ks' n h2 (fun k t hk ht => hF k t (List.mem_cons_of_mem _ hk) (List.mem_cons_of_mem _ ht))
    rw [List.filter_cons, flagged_eq h1]
    cases hf : t.flagged with
    | true =>
      have e : textTs g S n (k :: ks') (t :: ts) = textTs g S n ks' ts := by
        cases n <;> (conv => lhs; unfold textTs
                     simp only [hf, if_true])
      rw [e, if_neg (by simp)]
      exact ih' n
    | false =>
      rw [if_pos (by rfl)]
      cases n with
      | zero =>
        have e : textTs g S 0 (k :: ks') (t :: ts) = [] := by
          conv => lhs; unfold textTs
          simp only [hf]; rfl
        rw [e]; rfl
      | succ n =>
        have e : textTs g S (n + 1) (k :: ks') (t :: ts) = ' ' :: textT g S k t ++ textTs g S n ks' ts := by
          conv => lhs; unfold textTs
          simp only [hf]; rfl
        rw [List.take_succ_cons, fmtArgs, ih' n, hF k t List.mem_cons_self List.mem_cons_self h1 hf, e]
        rfl

/-- How many rounds are enough for a node. -/
def need (g : Graph) (n : Nat) : Nat := (g.nodes.length - n) * (g.nodes.length + 2)

theorem need_lt {n k : Nat} (h : n < k) (hk : k < g.nodes.length) : need g k + (g.nodes.length + 2) ≤ need g n := by
  unfold need
  have e : (g.nodes.length - k + 1) * (g.nodes.length + 2) = (g.nodes.length - k) * (g.nodes.length + 2) + (g.nodes.length + 2) := by
    rw [Nat.add_mul, Nat.one_mul]
  rw [← e]
  exact Nat.mul_le_mul_right _ (by omega)

theorem below_short (N : Net D g) (n : Nat) : (below g n).length ≤ g.nodes.length := by
  have := (N.below_nodup n).length_le_of_subset (l₂ := List.range g.nodes.length) (fun k hk => by
    rw [List.mem_range]; exact (N.lt (mem_below.1 hk)).2)
  simpa using this

theorem ident_text (x : String) : identText x = (if x = "" then "''" else x).toList := by
  unfold identText
  by_cases h : x = ""
  · subst h; rfl
  · rw [if_neg h, if_neg (fun e => h (String.toList_inj.1 (by rw [e]; rfl)))]

/-- **C88**, for all nodes and rounds. -/
theorem fmt_all (N : Net D g) {e0 : Expr} (h0 : ShowsE g 0 e0) (hf : Filled D e0) (K : Known T) (v : Bool) : ∀ fuel,
    (∀ (n : Nat) (t : Term), ShowsT g n t → t.flagged = false → need g n < fuel → n < g.nodes.length → fmt g K v fuel n = some (textT g (style g K v) n t)) ∧
    (∀ (n m : Nat) (pre ms : List Nat) (b : Blk) (bs : List Blk), g.nodes[n]? = some .expr → below g n = pre ++ m :: ms → ShowsBs g (m :: ms) (b :: bs) →
      need g n ≤ fuel + pre.length → fmtOp g K v fuel m = some (textBs g (style g K v) (m :: ms) (b :: bs))) := by
  intro fuel
  induction fuel with
  | zero =>
    constructor
    · intro n t _ _ h1 h2; omega
    · intro n m pre ms b bs hn hb _ h1
      have h2 := N.lt (mem_below.1 (by rw [hb]; simp : m ∈ below g n))
      have h3 := below_short N n
      have h4 := need_lt h2.1 h2.2
      dsimp only at h4
      rw [hb] at h3
      simp only [List.length_append, List.length_cons] at h3
      omega
  | succ fuel ih =>
    constructor
    · intro n t hst hfl hl hn
      cases t with
      | flag f => cases hfl
      | plain x =>
        have hx : g.nodes[n]? = some (.arg x) := hst
        cases x with
        | ident x =>
          simp only [fmt, hx, textT, fmtTy_colon, ident_text, onlyIf, style]
        | num x => simp only [fmt, hx, textT, fmtTy_colon, onlyIf, style]
        | var x => simp only [fmt, hx, textT, fmtTy_colon, style, List.cons_append]
      | pound c =>
        have hx : g.nodes[n]? = some (.pound c) := hst
        simp only [fmt, hx, textT, fmtTy_colon, style]
      | expr e =>
        obtain ⟨u, bs⟩ := e
        obtain ⟨hx, hbs⟩ : g.nodes[n]? = some .expr ∧ ShowsBs g (below g n) bs := hst
        have hne := N.blocks_ne h0 hf hx
        rw [N.blocks_eq hx] at hne
        cases bs with
        | nil => exact absurd hbs hne
        | cons b bs =>
          obtain ⟨m, ms, hb, h1, h2⟩ := hbs
          have hr := ih.2 n m [] ms b bs hx hb ⟨m, ms, rfl, h1, h2⟩ (by simp only [List.length_nil]; omega)
          rw [fmt, hx]
          dsimp only
          rw [firstOp_eq N hx, hb]
          simp only [List.head?_cons, Option.bind_some]
          rw [hr, textT, textE, hb]
          simp only [Option.map_some, fmtTy_colon, style]
    · rintro n m pre ms ⟨o, i, u, ts⟩ bs hn hb hs hl
      have hmb := N.lt (mem_below.1 (by rw [hb]; simp : m ∈ below g n))
      dsimp only at hmb
      have hpre := below_short N n
      rw [hb] at hpre
      simp only [List.length_append, List.length_cons] at hpre
      have hnm := need_lt hmb.1 hmb.2
      obtain ⟨m', ms', he, hb1, hb2⟩ := hs
      injection he with he1 he2
      subst he1 he2
      obtain ⟨⟨f, rfl, hf1⟩, hts⟩ := hb1
      have hargs : ((argsFor g K.get m (K.kn m .inp).ty).bind fun as => fmtArgs (fun a => fmt g K v fuel a) as) =
          some (if (style g K v).full m then textTs g (style g K v) 256 (below g m) ts else []) := by
        rw [argsFor_eq N K v m, Option.bind_some]
        cases (style g K v).full m with
        | false => rfl
        | true =>
          simp only [if_true]
          refine fmtArgs_eq ts (below g m) 256 hts fun k t hk _ hst hfl => ?_
          have h1 := N.lt (mem_below.1 hk)
          dsimp only at h1
          have h2 := need_lt h1.1 h1.2
          exact ih.1 k t hst hfl (by omega) h1.2
      have hnext : fmtNext (fun m => fmtOp g K v fuel m) (nextOp g m) = some (if bs.isEmpty then [] else ' ' :: '|' :: textBs g (style g K v) ms bs) := by
        rw [nextOp_eq N hn hb]
        cases bs with
        | nil => cases hb2; rfl
        | cons b' bs =>
          have hb3 := hb2
          obtain ⟨m', ms', rfl, _, _⟩ := hb2
          rw [List.head?_cons, fmtNext]
          rw [ih.2 n m' (pre ++ [m]) ms' b' bs hn (by rw [hb]; simp) hb3 (by simp only [List.length_append, List.length_singleton]; omega)]
          rfl
      rw [fmtOp, hf1]
      dsimp only
      rw [hargs, hnext, textBs, textB]
      simp only [both, fmtTy_colon, Option.getD_some, onlyIf, style]
      simp only [List.append_assoc]

/-- **C88**: `typify` shows its argument as it is written, with the types that are known, whatever they are. The blocks of expressions come in
order, with their arguments in order; the arguments of a block are shown when the type of its input is known and there is an
implementation for it. -/
theorem typify_shows {e : Expr} (hg : init D e = .ok g) (hf : Filled D e) (K : Known T) (v : Bool) {n : Nat} {t : Term} (ht : t.flagged = false)
    (hs : ShowsT g n t) : types g K v n = some (textT g (style g K v) n t) := by
  obtain ⟨_, _, h0, _⟩ := init_done hg
  have hn : n < g.nodes.length := by
    obtain ⟨x, h, _⟩ := hs.isFlag
    exact (List.getElem?_eq_some_iff.1 h).1
  refine (fmt_all (net hg) h0 hf K v _).1 n t hs ht ?_ hn
  exact Nat.lt_succ_of_le (Nat.mul_le_mul_right _ (Nat.sub_le _ _))

/-- **C88**: no argument of a program makes `typify` panic or go on for ever. It shows what is
written there. -/
theorem typify_never_panics {e : Expr} (hg : init D e = .ok g) (hf : Filled D e) (K : Known T) (v : Bool) {n : Nat} {x : Exp.Node}
    (hn : g.nodes[n]? = some x) (hx : isArg x = true) :
    ∃ t, ShowsT g n t ∧ types g K v n = some (textT g (style g K v) n t) := by
  obtain ⟨_, _, h0, _⟩ := init_done hg
  cases x with
  | arg w => exact ⟨.plain w, hn, typify_shows hg hf K v rfl hn⟩
  | pound c => exact ⟨.pound c, hn, typify_shows hg hf K v rfl hn⟩
  | expr =>
    obtain ⟨y, _, hy⟩ := (net hg).shown h0 n hn
    exact ⟨.expr y, hy, typify_shows hg hf K v rfl hy⟩
  | _ => cases hx

/-! ### Without the types -/

mutual
theorem bare_E : ∀ (e : Expr) (n : Nat), ShowsE g n e → textE g bare n e = plainE e
  | .mk _ bs, n, h => by rw [textE, plainE, bare_Bs bs _ h.2]; rfl
theorem bare_Bs : ∀ (bs : List Blk) (ms : List Nat), ShowsBs g ms bs → textBs g bare ms bs = plainBs bs
  | [], ms, h => by
    have : ms = [] := h
    subst this; simp [textBs, plainBs]
  | b :: bs, _, ⟨m, ms, e, h1, h2⟩ => by subst e; rw [textBs, plainBs, bare_B b m h1, bare_Bs bs ms h2]
theorem bare_B : ∀ (b : Blk) (m : Nat), ShowsB g m b → textB g bare m b = plainB b
  | .mk op _ _ ts, m, h => by
    rw [textB, plainB, bare_Ts ts _ 256 h.2]
    simp [bare]
theorem bare_Ts : ∀ (ts : List Term) (ks : List Nat) (n : Nat), ShowsTs g ks ts → textTs g bare n ks ts = plainTs n ts
  | [], ks, n, h => by
    have : ks = [] := h
    subst this
    simp [textTs, plainTs]
  | t :: ts, _, n, ⟨k, ks, e, h1, h2⟩ => by
    subst e
    have h3 := bare_T t k h1
    have h4 := fun n => bare_Ts ts ks n h2
    unfold textTs plainTs
    rw [h4, h3]
    cases n with
    | zero => rfl
    | succ n => dsimp only; rw [h4]
theorem bare_T : ∀ (t : Term) (k : Nat), ShowsT g k t → textT g bare k t = plainT t
  | .flag _, _, _ => by rw [textT, plainT]
  | .plain (.ident x), _, _ => by rw [textT, plainT]; simp [bare]
  | .plain (.num x), _, _ => by rw [textT, plainT]; simp [bare]
  | .plain (.var x), _, _ => by rw [textT, plainT]; simp [bare]
  | .pound c, _, _ => by rw [textT, plainT]; simp [bare]
  | .expr e, k, h => by rw [textT, plainT]; exact bare_E e k h
end

/-! ### In a compiler -/

open Verif.Comp

variable {Y : Types T} {fn : String → Option String → Nat}

theorem chosen_runs {op : Nat} {t : T} {c : Cmd} (h : Chosen (ast D Y fn g) op t c) : runs g Y.get op t = true := by
  have key : ∃ k, (k, c) ∈ (ast D Y fn g).cmds op ∧ (k = none ∨ k = some t) := by
    rcases h with h | h
    · exact ⟨_, h, .inr rfl⟩
    · exact ⟨_, h.2, .inl rfl⟩
  obtain ⟨k, h1, h2⟩ := key
  obtain ⟨s, n, h3, h4, _⟩ := mem_cmds h1
  refine List.any_eq_true.2 ⟨_, h3, ?_⟩
  cases s with
  | none => simp
  | some s =>
    rw [h4] at h2
    simp only [Option.map_some, reduceCtorEq, Option.some.injEq, false_or] at h2
    simp [h2]

theorem pipe_step {steps : List (Nat × T × T)} {ops : List Nat} {t u : T} (h : Pipe steps ops t u) : ∀ op ∈ ops, ∃ a b, (op, a, b) ∈ steps := by
  induction h with
  | nil => intro op h; cases h
  | cons h1 _ ih =>
    intro op h
    rcases List.mem_cons.1 h with rfl | h
    · exact ⟨_, _, h1⟩
    · exact ih op h

theorem settles {I : Builtins T} {s : S T} (N : Net D g) (hi : Comp.Inv (ast D Y fn g) s) (hk : ∀ x ∈ s.steps, StepOk (ast D Y fn g) I s x.1 x.2.1 x.2.2) {x : Nat}
    (hx : x ∈ s.exprs) : Settles g Y.get s.tg x := by
  intro b hb
  obtain ⟨h1, i, o, _, _, hp⟩ := hi.exprs x hx
  obtain ⟨y, k7, k8⟩ := mem_numbered.1 h1
  rw [isExpr_iff.1 k8] at k7
  have hp' : Pipe s.steps (below g x) i o := by rw [← N.blocks_eq k7]; exact hp
  obtain ⟨t, u, h2⟩ := pipe_step hp' b hb
  obtain ⟨_, h3, h4⟩ := hi.steps _ h2
  refine ⟨t, u, h3, h4, ?_⟩
  rcases hk _ h2 with ⟨i, hc, _⟩ | ⟨d, hc, _⟩ <;> exact chosen_runs hc

/-- A built-in command that succeeded saw a compiler in which the blocks of compiled expressions are settled. -/
def Seen (D : Defs) (Y : Types T) (fn : String → Option String → Nat) (g : Graph) (I : Builtins T) (c : S T) (i op : Nat) (t u : T) : Prop :=
  ∃ s anon, Within s c ∧ (I s i op t).2 = .ok u anon ∧
    (∀ a q, (a, q) ∈ asked ((ast D Y fn g).args op) none (I s i op t).1 → Met (ast D Y fn g) s a q) ∧
    ∀ x ∈ s.exprs, Settles g Y.get s.tg x

theorem seen_kept {I : Builtins T} {names : List String} (N : Net D g) (hw : (ast D Y fn g).Wf names) (hn : I.Named names) :
    Kept (ast D Y fn g) I (fun s => (Called (ast D Y fn g) s ∧ ∀ x ∈ s.steps, StepOk (ast D Y fn g) I s x.1 x.2.1 x.2.2) ∧
      ∀ x ∈ s.steps, ∀ i, (ast D Y fn g).getImpl x.1 x.2.1 = some (.intrinsic i) → Seen D Y fn g I s i x.1 x.2.1 x.2.2) where
  quiet s s' hi hp hq := ⟨(steps_kept hw hn).quiet s s' hi hp.1 hq, fun x hx i h => by
    rw [hq.steps] at hx
    obtain ⟨s0, anon, h1, h2⟩ := hp.2 x hx i h
    exact ⟨s0, anon, h1.later hq.grows.later, h2⟩⟩
  blocks s s' hi hf hp h := by
    refine ⟨(steps_kept hw hn).blocks s s' hi hf hp.1 h, fun x hx i hi2 => ?_⟩
    have hg : Comp.Grows (ast D Y fn g) s s' := by
      rcases h with h | ⟨e, h⟩
      · exact ((blocks_stage hw hn hi hf).1 _ h).1
      · exact ((blocks_stage hw hn hi hf).2 _ _ h).1
    rcases (blocks_steps h).2.2 x hx with h | ⟨h1, h2⟩
    · obtain ⟨s0, anon, h1, h2⟩ := hp.2 x h i hi2
      exact ⟨s0, anon, h1.later hg.later, h2⟩
    · unfold compileBlock at h2
      rw [hi2] at h2
      dsimp only at h2
      obtain ⟨anon, h3, h4, h5⟩ := runBuiltin_here hi.tg.any hf h2
      exact ⟨s, anon, (Within.refl s).later hg.later, h3, h5, fun y hy => settles N hi hp.1.2 hy⟩

/-- **C88**: when a built-in command has taken an argument that is an expression written in place, and made sure that it compiles,
as `typify` does, the types of the input and output of each of its blocks are settled, there are implementations for the inputs, and
the type of the output is settled. -/
theorem typify_knows {I : Builtins T} {ord : List Nat → List Nat} {root : T} {seeds : List (String × T)} {notes : List (Note T)} {s0 c : S T}
    {more : List String} {e : Expr} (hg : init D e = .ok g) (hf : Filled D e) (hY : Y.all.Nodup) (hn : I.Named more) (hord : OrderOk ord)
    (hs : begins (ast D Y fn g) Y g root seeds notes = .ok s0) {f : Nat} (h : compile (ast D Y fn g) I ord f 0 s0 = some (.ok c))
    {op i : Nat} {t u : T} (hx : (op, t, u) ∈ c.steps) (hi : (ast D Y fn g).getImpl op t = some (.intrinsic i)) :
    ∃ s anon, Within s c ∧ (I s i op t).2 = .ok u anon ∧
      ∀ a, (a, .concrete) ∈ asked ((ast D Y fn g).args op) none (I s i op t).1 → g.nodes[a]? = some .expr →
        (∃ o, Ty.Settled (s.tg.kn a .out) o) ∧ Settles g Y.get s.tg a := by
  obtain ⟨hw, h1⟩ := programs_are_well_formed (Y := Y) (fn := fn) hg hf more
  obtain ⟨hst, _⟩ := h1 root seeds notes s0 hY hs
  have hn' : I.Named (graphNames D g ++ more) := fun s i op t name u h => List.mem_append_right _ (hn s i op t name u h)
  have N := net hg
  have := compile_traced hw hn' hord (seen_kept N hw hn') f 0 s0 _ (start_inv hst)
    ⟨⟨⟨hst.calls⟩, fun x hx => by rw [hst.steps] at hx; cases hx⟩, fun x hx => by rw [hst.steps] at hx; cases hx⟩ h
  obtain ⟨s, anon, k1, k2, k3, k4⟩ := this.2 _ hx i hi
  refine ⟨s, anon, k1, k2, fun a ha hna => ?_⟩
  have hr : Ready (ast D Y fn g) s a := k3 a _ ha
  obtain ⟨m, o, hp, ho, hh⟩ := hr
  have hva : (ast D Y fn g).var a = none := by simp [ast, hna]
  have hm : m = a := hp.expr hva
  subst hm
  refine ⟨⟨o, ho⟩, ?_⟩
  rcases hh with ⟨x, slot, hv, _⟩ | ⟨_, hin, _⟩
  · rw [hva] at hv; cases hv
  · exact k4 m (hin (mem_numbered.2 ⟨_, hna, rfl⟩))

/-- For C88: the types are then shown, and all arguments. -/
theorem settled_shown {get : String → T} {name : T → Text} {s : Ty.State T} {x : Nat} (h : Settles g get s x) (v : Bool) :
    ∀ b ∈ below g x, (style g (known get name s) v).full b = true ∧ (∃ t, (style g (known get name s) v).input b = ':' :: name t ∧
      Ty.Settled (s.kn b .inp) t) ∧ ∃ u, Ty.Settled (s.kn b .out) u ∧ (style g (known get name s) v).more b = if v then ':' :: name u else [] := by
  intro b hb
  obtain ⟨t, u, h1, h2, h3⟩ := h b hb
  have e1 := ty_of_settled h1
  have e2 := ty_of_settled h2
  refine ⟨?_, ⟨t, ?_, h1⟩, u, h2, ?_⟩
  · show ((s.kn b .inp).ty).any (runs g get b) = true
    rw [e1]; exact h3
  · show colon name ((s.kn b .inp).ty) = _
    rw [e1]; rfl
  · show (if v then colon name ((s.kn b .out).ty) else []) = _
    rw [e2]; rfl

/-! ### A program -/

def tpName : Tp → Text
  | .nil => ['N', 'i', 'l']
  | .bool => ['B', 'o', 'o', 'l']
  | .num => ['N', 'u', 'm']
  | .str => ['S', 't', 'r']
  | .tab => ['T', 'a', 'b', 'l', 'e']
  | .row => ['T', 'a', 'b', 'l', 'e', 'R', 'o', 'w']

/-- `ls | fold 0 { + 1 }`. -/
def summing : Expr := .mk none [.mk (some "ls") none none [],
  .mk (some "fold") none none [.plain (.num "0"), .expr (.mk none [.mk (some "+") none none [.plain (.num "1")]])]]

/-- What is true of a program once it is compiled. -/
def onceCompiled (e : Expr) (p : Graph → S Tp → Bool) : Bool :=
  match init Prog.someDefs e with
  | .error _ => false
  | .ok g =>
    match begins (ast Prog.someDefs (Prog.types someTy) someFn g) (Prog.types someTy) g .nil [] [] with
    | .error _ => false
    | .ok s => okAnd (p g) (compile (ast Prog.someDefs (Prog.types someTy) someFn g) (library (ast Prog.someDefs (Prog.types someTy) someFn g)) id 60 0 s)

/-- It is shown as this. -/
def ShownAs (e : Expr) (v : Bool) (w : Text) : Prop := ∃ g s c, init Prog.someDefs e = .ok g ∧
  begins (ast Prog.someDefs (Prog.types someTy) someFn g) (Prog.types someTy) g .nil [] [] = .ok s ∧
  compile (ast Prog.someDefs (Prog.types someTy) someFn g) (library (ast Prog.someDefs (Prog.types someTy) someFn g)) id 60 0 s = some (.ok c) ∧
  types g (known someTy tpName c.tg) v 0 = some w

theorem once_compiled {e : Expr} {p : Graph → S Tp → Bool} (h : onceCompiled e p = true) : ∃ g s c, init Prog.someDefs e = .ok g ∧
    begins (ast Prog.someDefs (Prog.types someTy) someFn g) (Prog.types someTy) g .nil [] [] = .ok s ∧
    compile (ast Prog.someDefs (Prog.types someTy) someFn g) (library (ast Prog.someDefs (Prog.types someTy) someFn g)) id 60 0 s = some (.ok c) ∧
    p g c = true := by
  unfold onceCompiled at h
  split at h
  · cases h
  · rename_i g hg
    split at h
    · cases h
    · rename_i s hs
      obtain ⟨c, h1, h2⟩ := okAnd_eq h
      exact ⟨g, s, c, hg, hs, h1, h2⟩

theorem shown_as {e : Expr} {v : Bool} {w : Text} (h : onceCompiled e (fun g c => types g (known someTy tpName c.tg) v 0 = some w) = true) : ShownAs e v w := by
  obtain ⟨g, s, c, h1, h2, h3, h4⟩ := once_compiled h
  exact ⟨g, s, c, h1, h2, h3, of_decide_eq_true h4⟩

def adding : Expr := .mk none [.mk (some "+") none none [.plain (.num "1")]]

theorem summing_written {x : Expr} (h : Written Prog.someDefs summing x) : x = summing ∨ x = adding ∨ x = fooBody := by
  have only : ∀ f ty b, IsDef Prog.someDefs f ty b → b = fooBody := by
    rintro f ty b ⟨im, h1, _, ps, h2⟩
    simp only [Prog.someDefs] at h1
    split at h1
    · rw [List.mem_singleton.1 h1] at h2; cases h2; rfl
    · split at h1
      · simp only [List.mem_cons, List.not_mem_nil, or_false] at h1
        rcases h1 with rfl | rfl | rfl <;> cases h2
      · split at h1
        · rw [List.mem_singleton.1 h1] at h2; cases h2
        · split at h1
          · rw [List.mem_singleton.1 h1] at h2; cases h2
          · cases h1
  induction h with
  | top => exact Or.inl rfl
  | body _ _ h => exact Or.inr (Or.inr (only _ _ _ h))
  | arg _ h1 h2 ih =>
    rcases ih with rfl | rfl | rfl <;> simp [summing, adding, fooBody, Expr.blks] at h1
    · rcases h1 with ⟨_, _, _, rfl⟩ | ⟨_, _, _, rfl⟩ <;> simp at h2
      exact Or.inr (Or.inl h2)
    · rcases h1 with ⟨_, _, _, rfl⟩; simp at h2
    · rcases h1 with ⟨_, _, _, rfl⟩; simp at h2

theorem summing_filled : Filled Prog.someDefs summing := by
  intro x hx
  rcases summing_written hx with rfl | rfl | rfl <;> exact fun h => by cases h

def asksConcrete (a : Nat) (x : Nat × Req Tp) : Bool := x.1 = a && match x.2 with
  | .concrete => true
  | _ => false

/-- For C88: a program meets what the theorems assume, and it is shown with its types. -/
example : Filled Prog.someDefs summing ∧ ShownAs summing false "{:Nil ls |:Table fold 0 {:Num + 1 }:Num }:Num".toList ∧
    ShownAs summing true "{:Nil ls:Table |:Table fold:Num 0:Num {:Num +:Num 1:Num }:Num }:Num".toList :=
  ⟨summing_filled, shown_as (by decide +kernel), shown_as (by decide +kernel)⟩

/-- In it, `fold` makes sure that an expression compiles. -/
example : onceCompiled summing (fun g c => decide ((2, Tp.tab, Tp.num) ∈ c.steps) &&
    decide ((ast Prog.someDefs (Prog.types someTy) someFn g).getImpl 2 .tab = some (.intrinsic 6)) && decide (g.nodes[4]? = some .expr) &&
    (asked ((ast Prog.someDefs (Prog.types someTy) someFn g).args 2) none (library (ast Prog.someDefs (Prog.types someTy) someFn g) c 6 2 .tab).1).any (asksConcrete 4)) = true := by
  decide +kernel

/-- `ls | let $x`: the variable that `let` makes is shown without a type. -/
theorem made_variables_untyped : ShownAs (.mk none [.mk (some "ls") none none [], .mk (some "let") none none [.plain (.var "x")]]) true
    "{:Nil ls:Table |:Table let:Table $x:? }:Table".toList := shown_as (by decide +kernel)

/-- For C88, why it is not possible to enter what is shown again: flags are left out, and so are the quotes of identifiers. -/
theorem shown_alike :
    plainT (.expr (.mk none [.mk (some "get") none none [.plain (.ident "a b")]])) = plainT (.expr (.mk none [.mk (some "get") none none [.plain (.ident "a"), .plain (.ident "b")]])) ∧
    plainT (.expr (.mk none [.mk (some "get") none none [.plain (.ident "a"), .flag "Str"]])) = plainT (.expr (.mk none [.mk (some "get") none none [.plain (.ident "a")]])) := by
  constructor <;> decide +kernel

end Verif.Typify
