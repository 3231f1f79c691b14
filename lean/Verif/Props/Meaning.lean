import Verif.Lemmas.MeanSim
import Verif.Lemmas.MeanTold
/-! Evaluating a compiled program gives what the program means (C92). -/
namespace Verif.Comp
open Verif
variable {T V U : Type} [DecidableEq T]

/-! ### The variables given with a program -/

theorem given_none {name : String} : ∀ {ks : List String} {vs : List V}, name ∉ ks → given ks vs name = none
  | [], _, _ => rfl
  | _ :: _, [], _ => rfl
  | k :: ks, v :: vs, h => by
    simp only [given, Vals.over, given_none (ks := ks) (vs := vs) fun h' => h (List.mem_cons_of_mem _ h'), Vals.put]
    rw [if_neg (fun e : name = k => h (e ▸ List.mem_cons_self ..))]
    rfl

theorem given_last {name : String} : ∀ {ks : List String} {vs : List V} {i : Nat}, ks[i]? = some name → (∀ j, i < j → ks[j]? ≠ some name) →
    i < vs.length → given ks vs name = vs[i]?
  | [], _, _, h, _, _ => by simp at h
  | k :: ks, [], i, _, _, hi => by cases hi
  | k :: ks, v :: vs, 0, h, hl, _ => by
    cases h
    have : name ∉ ks := fun hm => by
      obtain ⟨j, hj⟩ := List.getElem?_of_mem hm
      exact hl (j + 1) (by omega) hj
    simp only [given, Vals.over, given_none (vs := vs) this, Vals.put]
    rfl
  | k :: ks, v :: vs, i + 1, h, hl, hi => by
    have hi : i < vs.length := Nat.lt_of_succ_lt_succ hi
    have ih := given_last (ks := ks) (vs := vs) (i := i) h (fun j hj => hl (j + 1) (by omega)) hi
    have hv : (v :: vs)[i + 1]? = vs[i]? := rfl
    rw [List.getElem?_eq_getElem hi] at ih hv
    rw [hv]
    simp only [given, Vals.over, ih]

theorem lowVals_given {ok : V → Bool} : ∀ (ks : List String) (vs : List (Sub ok)), lowVals (given ks vs) = given ks (vs.map (·.1))
  | [], _ => rfl
  | _ :: _, [] => rfl
  | k :: ks, v :: vs => by
    rw [given, lowVals_over, lowVals_put, lowVals_given ks vs]
    rfl

/-! ### Compiled programs -/

theorem means_root {A : Ast T} {C : Talks T U} {E : Exec T V} {names seeds : List String} {ord : List Nat → List Nat} {s c : S T}
    (hw : A.Wf names) (hpl : A.Placed) (hin : ∀ d ∈ A.defs, ∃ m rest, A.place (A.body d) = m :: rest ++ A.place (A.owner d))
    (hn : (C.builtins A).Named names) (hst : (C.builtins A).Steady A) (hpr : (C.builtins A).Prompt A) (hE : E.Sound A (C.builtins A)) (hs : Start A s)
    (hb : Begun A E seeds s) (hord : OrderOk ord) {f root : Nat} (hroot : A.place root = []) (h : compile A (C.builtins A) ord f root s = some (.ok c))
    {Q : Sense T V} {g : Plan U → Plan V} (hty : Q.ty = E.ty) (hlit : Q.lit = E.lit) (hskip : Q.skip = skips c)
    (hplan : ∀ i op t, Q.plan i op t = ((C i op (A.args op).length t).plan A (fun n sd => (c.tg.kn n sd).ty) op (A.args op)).map g)
    (hreads : ∀ p, (g p).reads = p.reads) (hgv : ∀ p, (g p).vars = p.vars)
    (hact : ∀ i op t u args vars (p : Plan U), p.act = (C i op (A.args op).length t).closure u args → ∀ x, (g p).act x = E.act i op t u args vars x) :
    ∃ t, Ty.Settled (c.tg.kn root .inp) t ∧ ∀ n ≥ c.steps.length, ∀ v env, E.ty v = t → Ready0 E c seeds env →
      exprMeans A Q n root v (given seeds env) = (evalExpr A E c n root v env).value := by
  have hi := start_inv hs
  obtain ⟨D, H, hv, hf⟩ : ∃ D H, Vars A (C.builtins A) E seeds.length c D H ∧ Firm A (C.builtins A) s c :=
    compile_traced hw hn hord (firm_kept (E := E) (m := seeds.length) (b0 := s) hw hn hpl hst hpr hE) f root s _ hi ⟨_, _, hb.vars hw hpl hs, hb.firm hw hpl⟩ h
  have hic : Inv A c := (compile_ok hw hn hord f root s c h hi).1.inv
  obtain ⟨he, t, u, h1, h2, h3⟩ := hic.exprs root (compile_done f h)
  have hnamed := hf.named hw hpl hs hb (hw.exprs_lt _ he) hroot hv
  have htold := hf.told (Q := Q) hw hpl hin hv hic hty hlit hskip hplan hreads hgv hact
  refine ⟨t, h1, fun n hle v env hty' hr => ?_⟩
  have W := hv.world
  have hlen : c.codes.length = c.steps.length := by rw [← W.codes]; simp
  have hd : Done A c (c.prior c.codes.length) root t u := ⟨he, h1, h2, h3, fun op ho => by
    have := Pipe.ops h3 op ho
    rw [show c.steps.map (·.1) = c.ops from rfl, ← W.ops] at this
    simpa [S.prior] using this⟩
  have top : ∀ (i : Nat) q name, D[i]? = some (q, name) → Loc.Anc q (A.place root) → q = [] ∧ i < seeds.length := by
    intro i q name hq hanc
    have e : q = [] := by
      rw [hroot] at hanc
      cases hanc with
      | refl => rfl
      | step hp _ => cases hp
    refine ⟨e, ?_⟩
    subst e
    obtain ⟨w, hw'⟩ := hv.locs.slot hq
    cases hv.src i _ _ w hq hw' with
    | seed _ hi => exact hi
    | builtin s0 j op t n ho hnp hw'' ht hg hc hq hn => exact absurd hq.symm (hn.not_root hw hpl ho)
    | param d j p a hd hq hp ha ht =>
      obtain ⟨k, p, hb⟩ := hpl.body d hd
      rw [hb] at hq; cases hq
  have henv : EnvOk A E c D (c.callsite.map (·.1)) (A.place root) env :=
    ⟨hr.length, fun i ⟨q, name, hq, hanc, _⟩ => hr.seeds i (top i q name hq hanc).2⟩
  have hvals : ValsAre A D (c.callsite.map (·.1)) (A.place root) (given seeds env) env := by
    intro name slot q hres hq _
    rw [hroot] at hres
    have hl : Scope.Latest D [] name slot := by
      generalize hp : ([] : Loc.Node) = p at hres
      generalize hr' : some slot = r at hres
      cases hres with
      | here hl => cases hr'; subst hp; exact hl
      | up _ hpar _ => subst hp; cases hpar
      | top => cases hr'
    rw [hnamed.root] at hl
    refine given_last ?_ ?_ ?_
    · have := hl.1
      rw [List.getElem?_map] at this
      obtain ⟨x, h4, h5⟩ := Option.map_eq_some_iff.1 this
      cases h5
      exact h4
    · intro j hj hj'
      exact hl.2 j hj (by rw [List.getElem?_map, hj']; rfl)
    · rw [hr.length, ← hnamed.length]
      exact (List.getElem?_eq_some_iff.1 hq).1
  exact (evalExpr_means hw hpl W htold n c.codes.length (by omega) root t u hd (c.callsite.map (·.1))
    (fun k' K' _ hK => hv.seen K' (List.mem_of_getElem? hK)) v env _ hty' henv hvals).1

/-- C92, for programs whose definitions have no expressions for parameters, and different names for their at most 256 parameters.
Let the built-in commands be conversations that announce their variables steadily and promptly, and their closures do as announced.
If compiling succeeds, evaluating the compiled program makes what the program means. -/
theorem evaluates_as_written_partial {A : Ast T} {C : Talks T V} {E : Exec T V} {names seeds : List String} {ord : List Nat → List Nat} {s c : S T}
    (hw : A.Wf names) (hpl : A.Placed) (hin : ∀ d ∈ A.defs, ∃ m rest, A.place (A.body d) = m :: rest ++ A.place (A.owner d))
    (hn : (C.builtins A).Named names) (hst : (C.builtins A).Steady A) (hpr : (C.builtins A).Prompt A) (hE : E.Sound A (C.builtins A))
    (hact : ∀ i op t u args vars x, E.act i op t u args vars x = (C i op (A.args op).length t).closure u args x) (hs : Start A s)
    (hb : Begun A E seeds s) (hord : OrderOk ord) {f root : Nat} (hroot : A.place root = []) (h : compile A (C.builtins A) ord f root s = some (.ok c)) :
    ∃ t, Ty.Settled (c.tg.kn root .inp) t ∧ ∀ n ≥ c.steps.length, ∀ v env, E.ty v = t → Ready0 E c seeds env →
      exprMeans A (sense A C E c) n root v (given seeds env) = (evalExpr A E c n root v env).value :=
  means_root hw hpl hin hn hst hpr hE hs hb hord hroot h (g := fun p => p) rfl rfl rfl (fun i op t => by rw [Option.map_id']; rfl) (fun _ => rfl) (fun _ => rfl)
    (fun i op t u args vars p hp x => by rw [hact, hp])

end Verif.Comp

namespace Verif.Lang
open Verif Verif.Comp
variable {N : Type}

/-- C92 for the built-in commands: nothing is left to assume of them, but that `fold-while` is not used. -/
theorem commands_evaluate_as_written_partial {W : World N} (hW : W.Ok) {A : Ast Tab.Ty} {names seeds : List String} {ord : List Nat → List Nat} {s c : S Tab.Ty}
    {lit : Nat → Tab.Value N} (hw : A.Wf names) (hpl : A.Placed) (hin : ∀ d ∈ A.defs, ∃ m rest, A.place (A.body d) = m :: rest ++ A.place (A.owner d))
    (htd : Tidy W A) (hrow : "row" ∈ names)
    (hfw : ∀ op ∈ A.ops, ∀ t i, A.getImpl op t = some (.intrinsic i) → W.cmd i ≠ some .foldWhile)
    (hlit : ∀ n, okV W.shape (lit n) = true) (hs : Start A s) (hb : Begun A (exec W A lit) seeds s) (hord : OrderOk ord) {f root : Nat} (hroot : A.place root = [])
    (h : compile A ((talks W).builtins A) ord f root s = some (.ok c)) :
    ∃ t, Ty.Settled (c.tg.kn root .inp) t ∧
      ∀ n ≥ c.steps.length, ∀ v env, v.ty = t → okV W.shape v = true → (∀ x ∈ env, okV W.shape x = true) → Ready0 (exec W A lit) c seeds env →
        exprMeans A (sense A (talks W) (exec W A lit) c) n root v (given seeds env) = (evalExpr A (exec W A lit) c n root v env).value := by
  obtain ⟨t, u, h1, h2, h3⟩ := evaluation_is_safe_partial (E := (exec W A lit).lift (okV W.shape) hlit) hw hpl (talks_named A hrow)
    (talks_steady hw htd) (exec_sound hW hw htd lit).lift hs (Begun.lift hb) hord hroot h
  obtain ⟨t', h1', h4⟩ := means_root (C := talks W) (E := (exec W A lit).lift (okV W.shape) hlit)
    (Q := (sense A (talks W) (exec W A lit) c).lift (okV W.shape) hlit) (g := Plan.lift (okV W.shape)) hw hpl hin (talks_named A hrow)
    (talks_steady hw htd) (talks_prompt hw (fun op _ => htd.args op) hfw) (exec_sound hW hw htd lit).lift hs (Begun.lift hb) hord hroot h rfl rfl rfl
    (fun _ _ _ => rfl) (fun _ => rfl) (fun _ => rfl) (fun i op t u args vars p hp x => by
      show (p.act x.1).lift _ = _
      rw [hp]; rfl)
  refine ⟨t, h1, fun n hn v env hv hok henv hr => ?_⟩
  obtain ⟨env', rfl⟩ := subs env henv
  have hr' : Ready0 ((exec W A lit).lift (okV W.shape) hlit) c seeds env' := by
    refine ⟨by rw [← hr.length, List.length_map], fun i hi => ?_⟩
    obtain ⟨w, h4, h5⟩ := hr.seeds i hi
    rw [List.getElem?_map] at h4
    obtain ⟨w', h6, rfl⟩ := Option.map_eq_some_iff.1 h4
    exact ⟨w', h6, h5⟩
  have hsafe := h3 n hn ⟨v, hok⟩ env' hv hr'
  have hmean := h4 n hn ⟨v, hok⟩ env' (hv.trans (settled_eq h1 h1')) hr'
  generalize hres : evalExpr A ((exec W A lit).lift (okV W.shape) hlit) c n root ⟨v, hok⟩ env' = res at hsafe hmean
  have low := evalExpr_low (A := A) (c := c) (E := exec W A lit) (ok := okV W.shape) (hl := hlit) n root ⟨v, hok⟩ env'
    (fun e => by rw [hres] at e; rw [e] at hsafe; exact hsafe)
  have mlow := exprMeans_low (A := A) (Q := sense A (talks W) (exec W A lit) c) (ok := okV W.shape) (hl := hlit) n root ⟨v, hok⟩ (given seeds env')
    (fun e => by rw [hmean] at e; cases res <;> first | (cases e; done) | exact hsafe)
  rw [hres] at low
  rw [lowVals_given, hmean] at mlow
  rw [low, mlow]
  cases res <;> rfl

end Verif.Lang

namespace Verif.Lang
open Verif Verif.Exp Verif.Comp Verif.Prog
variable {N : Type} {D : Defs} {g : Graph}

/-- The body of a definition is inside the block that calls it. -/
theorem body_inside {Y : Types Tab.Ty} {fn : String → Option String → Nat} (N' : Net D g) {d : Nat} (hd : d ∈ (ast D Y fn g).defs) :
    ∃ m rest, (ast D Y fn g).place ((ast D Y fn g).body d) = m :: rest ++ (ast D Y fn g).place ((ast D Y fn g).owner d) := by
  obtain ⟨op, k, f, ty, h0, h1⟩ := mem_defs hd
  obtain ⟨h2, h3⟩ := N'.below_def h1
  have he : (⟨d, d + 1, .normal⟩ : Exp.Edge) ∈ g.edges := mem_below.1 (by rw [h2]; exact List.mem_singleton.2 rfl)
  have hs : spot g d = mark g ⟨op, d, .keyed k⟩ :: spot g op := N'.spot_step h0 rfl
  have hs' : spot g (d + 1) = mark g ⟨d, d + 1, .normal⟩ :: spot g d := N'.spot_step he rfl
  refine ⟨mark g ⟨d, d + 1, .normal⟩, [mark g ⟨op, d, .keyed k⟩], ?_⟩
  show (ast D Y fn g).place (Prog.body g d) = _ :: [_] ++ (ast D Y fn g).place (Prog.owner g d)
  have hlt : op < g.nodes.length := Nat.lt_trans (N'.lt h0).1 (N'.lt h0).2
  rw [N'.body_eq h1, N'.owner_eq h0, place_eq (getElem?_lt h3), place_eq hlt, hs', hs]
  rfl

/-- C92 for programs as they are written, with built-in commands of these names. -/
theorem programs_evaluate_as_written_partial {e : Expr} (hg : init D e = .ok g) (hf : Filled D e) (hD : Simple D e) (hl : LetsDiffer D e "let")
    (hwh : Without D e "fold-while") {W : World N} (hW : W.Ok) {L : Cmds} (hL : ∀ x ∈ L, x.2.2 = .let_ → x.1 = "let")
    (hLp : ∀ x ∈ L, x.2.2 = .pick → x.2.1 = some "Table") (hLw : ∀ x ∈ L, x.2.2 = .foldWhile → x.1 = "fold-while")
    {get : String → Tab.Ty} (hget : get "Table" = .tab) {all : List Tab.Ty} (hall : all.Nodup)
    {num : String → N} {ord : List Nat → List Nat} (hord : OrderOk ord) {root : Tab.Ty} {seeds : List (String × Tab.Ty)} {notes : List (Note Tab.Ty)}
    {s c : S Tab.Ty} (hs : begins (ast D (typesOf get all) (number L) g) (typesOf get all) g root seeds notes = .ok s) {f : Nat}
    (h : compile (ast D (typesOf get all) (number L) g) ((talks (W.on L g)).builtins (ast D (typesOf get all) (number L) g)) ord f 0 s = some (.ok c)) :
    ∀ n ≥ c.steps.length, ∀ v env, v.ty = root → okV W.shape v = true → (∀ x ∈ env, okV W.shape x = true) →
      Ready0 (exec (W.on L g) (ast D (typesOf get all) (number L) g) (literal num g)) c (seeds.map (·.1)) env →
      exprMeans (ast D (typesOf get all) (number L) g)
        (sense (ast D (typesOf get all) (number L) g) (talks (W.on L g)) (exec (W.on L g) (ast D (typesOf get all) (number L) g) (literal num g)) c)
        n 0 v (given (seeds.map (·.1)) env) =
      (evalExpr (ast D (typesOf get all) (number L) g) (exec (W.on L g) (ast D (typesOf get all) (number L) g) (literal num g)) c n 0 v env).value := by
  obtain ⟨_, _, h0, _⟩ := init_done hg
  have N' := net hg
  obtain ⟨hw, h1⟩ := programs_are_well_formed (Y := typesOf get all) (fn := number L) hg hf ["row"]
  obtain ⟨hst, hr⟩ := h1 root seeds notes s hall hs
  have hrow : "row" ∈ graphNames D g ++ ["row"] := List.mem_append_right _ (List.mem_singleton.2 rfl)
  have hb : Begun (ast D (typesOf get all) (number L) g) (exec (W.on L g) (ast D (typesOf get all) (number L) g) (literal num g)) (seeds.map (·.1)) s :=
    N'.begun hs fun n x t h2 h3 => literal_ty h2 h3
  have hp : (ast D (typesOf get all) (number L) g).place 0 = [] := by rw [place_eq N'.pos]; exact spot_zero
  obtain ⟨t, h2, h4⟩ := commands_evaluate_as_written_partial (hW.on L g) hw (N'.placed h0 hD) (fun d hd => body_inside N' hd)
    (tidy_of_net hL hLp (Y := typesOf get all) hget N' h0 hl) hrow (fun op _ t i hgi hi => by
      obtain ⟨f, ty, h2, h3, _⟩ := N'.impl_op hgi
      have hi : Lang.numbered L i = some .foldWhile := hi
      rw [← h3] at hi
      rw [while_only hLw hi] at h2
      obtain ⟨x, i, o, ts, h4, h5, _⟩ := N'.op_shown h0 h2
      exact hwh x h4 i o ts h5) (fun n => literal_ok n) hst hb hord hp h
  refine fun n hn v env hv => h4 n hn v env ?_
  have hgrow := (compile_ok hw (talks_named _ hrow) hord f 0 s c h (start_inv hst)).1
  rw [hv]
  exact settled_eq (hgrow.later.keeps _ _ _ hr) h2

/-- **C92**: after any session of definitions, of types with clear names and of commands given by their texts, and for any text of a
program: each text was read with the commands known at the time, the definitions it uses have at most 256 parameters, none of them
an expression, no `let` is given the same name twice, and `fold-while` is not used. If the text is parsed, expanded and compiled
without an error, then evaluating the compiled program on a well-formed value of its input type makes the same value, or the same
error, as evaluating the program as it is written: block after block, each expression anew each time it is read, and each variable
by its name. -/
theorem sessions_evaluate_as_written_partial {checked : Bool} {os : List Defs.Op} {d : Defs.Defs} (hd : Defs.run checked Defs.base os = some d)
    {ks : String → Parse.Env} (hks : ∀ src, Parse.Laws (ks src)) (htx : Stored ks d) (hc : ClearTypes d) {k : Parse.Env} (hlaws : Parse.Laws k)
    {text rest : Parse.Str} {x : Parse.Expr} (ht : Parse.expression k text = .ok rest x) (hsh : Short (defsOf ks d) (readE x))
    (hl : LetsDiffer (defsOf ks d) (readE x) "let") (hwh : Without (defsOf ks d) (readE x) "fold-while") (hg : init (defsOf ks d) (readE x) = .ok g)
    {W : World N} (hfiles : ∀ p t, W.files p = some t → okRs (shapeOf d) t = true) (hopen : ∀ p t, W.openTab p = some t → okRs (shapeOf d) t = true)
    (hdur : ∀ op, okRs (shapeOf d) (W.duration op) = true) {num : String → N} {ord : List Nat → List Nat} (hord : OrderOk ord) {root : Tab.Ty}
    {seeds : List (String × Tab.Ty)} {notes : List (Note Tab.Ty)} {s c : S Tab.Ty}
    (hs : begins (ast (defsOf ks d) (storedTypes d) (number (cmdsOf d)) g) (storedTypes d) g root seeds notes = .ok s) {f : Nat}
    (h : compile (ast (defsOf ks d) (storedTypes d) (number (cmdsOf d)) g)
      ((talks ((W.typed d).on (cmdsOf d) g)).builtins (ast (defsOf ks d) (storedTypes d) (number (cmdsOf d)) g)) ord f 0 s = some (.ok c)) :
    ∀ n ≥ c.steps.length, ∀ v env, v.ty = root → okV (shapeOf d) v = true → (∀ x ∈ env, okV (shapeOf d) x = true) →
      Ready0 (exec ((W.typed d).on (cmdsOf d) g) (ast (defsOf ks d) (storedTypes d) (number (cmdsOf d)) g) (literal num g)) c (seeds.map (·.1)) env →
      exprMeans (ast (defsOf ks d) (storedTypes d) (number (cmdsOf d)) g)
        (sense (ast (defsOf ks d) (storedTypes d) (number (cmdsOf d)) g) (talks ((W.typed d).on (cmdsOf d) g))
          (exec ((W.typed d).on (cmdsOf d) g) (ast (defsOf ks d) (storedTypes d) (number (cmdsOf d)) g) (literal num g)) c)
        n 0 v (given (seeds.map (·.1)) env) =
      (evalExpr (ast (defsOf ks d) (storedTypes d) (number (cmdsOf d)) g)
        (exec ((W.typed d).on (cmdsOf d) g) (ast (defsOf ks d) (storedTypes d) (number (cmdsOf d)) g) (literal num g)) c n 0 v env).value := by
  have hr := Defs.run_reach (fun _ => True) (fun _ => True) checked Defs.base os Defs.base d .refl (fun _ _ _ _ => trivial) (fun _ _ _ _ => trivial) hd
  have hw := Defs.reach_wf Defs.base_wf hr
  have hD := defs_from_text (K := Parse.Laws) hks hw htx
  exact programs_evaluate_as_written_partial hg (filled_of_text (fun _ h => h) hD hlaws ht) (simple_of_text (fun _ h => h) hD hsh) hl hwh
    (typed_ok hd hc hfiles hopen hdur) (cmds_let hw (entries_named hr)) cmds_pick (cmds_while hw (entries_named hr))
    (stored_table hd) (stored_nodup hr) hord hs h

end Verif.Lang

namespace Verif.Lang
open Verif Verif.Exp Verif.Comp Verif.Prog

/-! ### Programs -/

def makesNumber (n : Int) : Res (Tab.Value Int) → Bool
  | .ok (.num m) => m == n
  | _ => false

/-- Whether the program, as it is written, makes this number, and meets what C92 assumes of it. -/
def meant (k : Parse.Env) (d : Defs.Defs) (text : String) (n : Int) : Bool :=
  match Parse.expression k text.toList with
  | .ok _ x => match init (defsOf (fun _ => k) d) (readE x) with
    | .error _ => false
    | .ok g => match begins (ast (defsOf (fun _ => k) d) (storedTypes d) (number (cmdsOf d)) g) (storedTypes d) g .nil [] [] with
      | .error _ => false
      | .ok s => (fine (defsOf (fun _ => k) d) 9 (readE x) && free (defsOf (fun _ => k) d) "fold-while" 9 (readE x)) && compiled (fun c =>
          makesNumber n (exprMeans (ast (defsOf (fun _ => k) d) (storedTypes d) (number (cmdsOf d)) g)
            (sense (ast (defsOf (fun _ => k) d) (storedTypes d) (number (cmdsOf d)) g) (talks ((intWorld.typed d).on (cmdsOf d) g))
              (exec ((intWorld.typed d).on (cmdsOf d) g) (ast (defsOf (fun _ => k) d) (storedTypes d) (number (cmdsOf d)) g) (literal (fun x => digits x.toList) g)) c)
            c.steps.length 0 .nil (given [] (List.replicate c.slots.length .nil))))
          (compile (ast (defsOf (fun _ => k) d) (storedTypes d) (number (cmdsOf d)) g)
            ((talks ((intWorld.typed d).on (cmdsOf d) g)).builtins (ast (defsOf (fun _ => k) d) (storedTypes d) (number (cmdsOf d)) g)) id 200 0 s)
  | _ => false

theorem session_meant : started (fun d => meant asciiEnv d namesText 24 && d.types.all clearAt) (Defs.run false Defs.base session) = true := by decide +kernel

/-- For C92: after the session of C81, this program meets what the theorem assumes, and makes 24. -/
example : Parse.Laws asciiEnv ∧
    ∃ d rest x g s c, Defs.run false Defs.base session = some d ∧ Stored (fun _ => asciiEnv) d ∧ ClearTypes d ∧ Parse.expression asciiEnv namesText.toList = .ok rest x ∧
      Short (defsOf (fun _ => asciiEnv) d) (readE x) ∧ LetsDiffer (defsOf (fun _ => asciiEnv) d) (readE x) "let" ∧
      Without (defsOf (fun _ => asciiEnv) d) (readE x) "fold-while" ∧ init (defsOf (fun _ => asciiEnv) d) (readE x) = .ok g ∧
      (∀ p t, intWorld.files p = some t → okRs (shapeOf d) t = true) ∧ (∀ p t, intWorld.openTab p = some t → okRs (shapeOf d) t = true) ∧
      (∀ op, okRs (shapeOf d) (intWorld.duration op) = true) ∧
      begins (ast (defsOf (fun _ => asciiEnv) d) (storedTypes d) (number (cmdsOf d)) g) (storedTypes d) g .nil [] [] = .ok s ∧
      compile (ast (defsOf (fun _ => asciiEnv) d) (storedTypes d) (number (cmdsOf d)) g)
        ((talks ((intWorld.typed d).on (cmdsOf d) g)).builtins (ast (defsOf (fun _ => asciiEnv) d) (storedTypes d) (number (cmdsOf d)) g)) id 200 0 s = some (.ok c) ∧
      Ready0 (exec ((intWorld.typed d).on (cmdsOf d) g) (ast (defsOf (fun _ => asciiEnv) d) (storedTypes d) (number (cmdsOf d)) g) (literal (fun x => digits x.toList) g))
        c [] (List.replicate c.slots.length .nil) ∧
      makesNumber 24 (evalExpr (ast (defsOf (fun _ => asciiEnv) d) (storedTypes d) (number (cmdsOf d)) g)
        (exec ((intWorld.typed d).on (cmdsOf d) g) (ast (defsOf (fun _ => asciiEnv) d) (storedTypes d) (number (cmdsOf d)) g) (literal (fun x => digits x.toList) g))
        c c.steps.length 0 .nil (List.replicate c.slots.length .nil)).value = true := by
  refine ⟨ascii_laws, ?_⟩
  obtain ⟨d, hd, h⟩ := started_eq session_meant
  obtain ⟨h, hc⟩ := Bool.and_eq_true_iff.1 h
  unfold meant at h
  split at h
  · rename_i rest x hx
    split at h
    · cases h
    · rename_i g hg
      split at h
      · cases h
      · rename_i s hs
        obtain ⟨h1, h2⟩ := Bool.and_eq_true_iff.1 h
        obtain ⟨h1, h7⟩ := Bool.and_eq_true_iff.1 h1
        obtain ⟨c, h3, h4⟩ := compiled_eq h2
        obtain ⟨h5, h6⟩ := fine_ok h1
        have hcl : ClearTypes d := fun n td hn => of_decide_eq_true (List.all_eq_true.1 hc _ (AMap.mem_of_get hn))
        have hfi : ∀ p t, intWorld.files p = some t → okRs (shapeOf d) t = true := fun p t ht => by cases ht; rfl
        have hop : ∀ p t, intWorld.openTab p = some t → okRs (shapeOf d) t = true := fun p t ht => by cases ht
        have hdu : ∀ op, okRs (shapeOf d) (intWorld.duration op) = true := fun _ => rfl
        have hrd : Ready0 (exec ((intWorld.typed d).on (cmdsOf d) g) (ast (defsOf (fun _ => asciiEnv) d) (storedTypes d) (number (cmdsOf d)) g)
            (literal (fun x => digits x.toList) g)) c [] (List.replicate c.slots.length .nil) := ⟨by simp, fun i hi => by cases hi⟩
        refine ⟨d, rest, x, g, s, c, hd, session_texts hd, hcl, hx, h5, h6, free_ok h7, hg, hfi, hop, hdu, hs, h3, hrd, ?_⟩
        have := sessions_evaluate_as_written_partial hd (fun _ => ascii_laws) (session_texts hd) hcl ascii_laws hx h5 h6 (free_ok h7) hg hfi hop hdu
          (num := fun x => digits x.toList) (ord := id) (fun _ _ h => h) hs h3 c.steps.length (Nat.le_refl _) .nil (List.replicate c.slots.length .nil) rfl rfl
          (fun v hv => by rw [List.eq_of_mem_replicate hv]; rfl) hrd
        rw [← this]
        exact h4
  · cases h

/-- Whether the text is parsed, expanded and started with its annotations, but not compiled. -/
def refused (k : Parse.Env) (d : Defs.Defs) (text : String) : Bool :=
  match Parse.expression k text.toList with
  | .ok [] x => match initN (defsOf (fun _ => k) d) (readE x) with
    | .error _ => false
    | .ok (g, ns) =>
      match begins (ast (defsOf (fun _ => k) d) (storedTypes d) (number (cmdsOf d)) g) (storedTypes d) g .nil [] (notesOf (storedTypes d) ns []) with
      | .error _ => false
      | .ok s => match compile (ast (defsOf (fun _ => k) d) (storedTypes d) (number (cmdsOf d)) g)
            ((talks ((intWorld.typed d).on (cmdsOf d) g)).builtins (ast (defsOf (fun _ => k) d) (storedTypes d) (number (cmdsOf d)) g)) id 200 0 s with
        | some (.error _) => true
        | _ => false
  | _ => false

/-- `def five (x) { \ 5 }`. -/
def fiveSession : List Defs.Op := [.shell (.impl "five" none ["\\"] "def five (x) { \\ 5 }")]

theorem fives : started (fun d => refused asciiEnv d "\\ 1 | five { + 'a' }" && makes asciiEnv d "\\ 1 | five { \\ 1 | + 'a' }" 5 &&
    (refused asciiEnv d "\\ 1 | five 1 2 3" && makes asciiEnv d "\\ 1 | five { \\ 1 | + 1 } 2 3" 5)) (Defs.run false Defs.base fiveSession) = true := by decide +kernel

/-- The arguments of a call need not be evaluated, nor make sense (`comp/mod.rs:470-484`): if the body is compiled before the types
of the arguments are found, nothing is passed. An argument whose type is wrong is refused if it is a single block, and accepted if
it has one more block; and so are arguments that are too many. -/
theorem arguments_may_be_dropped : ∃ d, Defs.run false Defs.base fiveSession = some d ∧
    refused asciiEnv d "\\ 1 | five { + 'a' }" = true ∧ makes asciiEnv d "\\ 1 | five { \\ 1 | + 'a' }" 5 = true ∧
    refused asciiEnv d "\\ 1 | five 1 2 3" = true ∧ makes asciiEnv d "\\ 1 | five { \\ 1 | + 1 } 2 3" 5 = true := by
  obtain ⟨d, h1, h2⟩ := started_eq fives
  obtain ⟨h3, h4⟩ := Bool.and_eq_true_iff.1 h2
  obtain ⟨h5, h6⟩ := Bool.and_eq_true_iff.1 h3
  obtain ⟨h7, h8⟩ := Bool.and_eq_true_iff.1 h4
  exact ⟨d, h1, h5, h6, h7, h8⟩

end Verif.Lang
