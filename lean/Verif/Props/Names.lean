import Verif.Lemmas.FirmKept
import Verif.Lemmas.LangNames
import Verif.Props.Lang
import Verif.Model.Notes
/-! What the names in a compiled program mean (C91). -/
namespace Verif.Comp
open Verif
variable {T V : Type} [DecidableEq T]

theorem seed_seals (nodes : List Loc.Node) (seeds : List String) :
    (Loc.seed nodes seeds).seals = Loc.sealEdges ∧ (Loc.seed nodes seeds).isSealed = Loc.build.isSealed := by
  have : (seeds.foldl (fun s name => Loc.addVar s name []) Loc.build).seals = Loc.sealEdges ∧
      (seeds.foldl (fun s name => Loc.addVar s name []) Loc.build).isSealed = Loc.build.isSealed := by
    refine Loc.snoc_ind (P := fun seeds => (seeds.foldl (fun s name => Loc.addVar s name []) Loc.build).seals = Loc.sealEdges ∧
      (seeds.foldl (fun s name => Loc.addVar s name []) Loc.build).isSealed = Loc.build.isSealed) ⟨rfl, rfl⟩ ?_ seeds
    intro l x ih
    rw [List.foldl_append]
    exact ih
  exact this

theorem op_place {A : Ast T} {names : List String} (hw : A.Wf names) (hpl : A.Placed) {op : Nat} (ho : op ∈ A.ops) :
    ∃ j, A.place op = .blk j :: A.place (A.parent op) := by
  obtain ⟨j, hj⟩ := List.getElem?_of_mem (hpl.parent _ ho)
  exact ⟨j, hpl.blk _ (hw.parent _ ho) j _ hj⟩

theorem Begun.firm {A : Ast T} {I : Builtins T} {E : Exec T V} {names seeds : List String} {s : S T} (hw : A.Wf names) (hpl : A.Placed)
    (h : Begun A E seeds s) : Firm A I s s := by
  obtain ⟨h1, h2⟩ := seed_seals A.places seeds
  refine ⟨.refl A s, by rw [h.lg]; exact Loc.edges_seed _ _, fun op ho hs => ?_, fun op ho a ha hs => ?_, fun d hd hs => ?_, fun x hx => ?_⟩
  · obtain ⟨j, hj⟩ := op_place hw hpl ho
    rw [h.lg, h2, hj] at hs
    cases hs
  · obtain ⟨i, hi⟩ := hw.arg_place op a ha
    rw [h.lg, h1, hi] at hs
    exact absurd (List.mem_cons_self ..) hs
  · obtain ⟨k, p, hb⟩ := hpl.body d hd
    rw [h.lg, h2, hb] at hs
    cases hs
  · rw [h.codes] at hx
    cases hx

theorem Locs.any {A : Ast T} {s : S T} {D : List Scope.DefAt} (hc : Loc.Closed A.places) (h : Locs A s D) {n : Loc.Node} (hn : n ∈ A.places) (k : String) :
    Loc.getAny s.lg n k = (s.lg.maps n k).map fun l => .var l.loc := by
  unfold Loc.getAny
  cases hm : s.lg.maps n k with
  | none => rfl
  | some l =>
    have := Loc.lexical_lt hc h.lex hn hm
    rw [Option.bind_some, h.locals, List.getElem?_map, List.getElem?_range this]
    rfl

theorem Locs.root {A : Ast T} {s : S T} {D : List Scope.DefAt} (hc : Loc.Closed A.places) (h : Locs A s D) (hn : [] ∈ A.places) (k : String) :
    Loc.getAny s.lg [] k = (Loc.lastIdx D [] k).map .var := by
  rw [h.any hc hn, h.lex [] hn k]
  cases Loc.lastIdx D [] k <;> rfl

theorem get_any {g : Loc.State} {n : Loc.Node} {k : String} {r : Option Loc.Local} (h : Loc.get g n k = some r) : Loc.getAny g n k = r := by
  unfold Loc.get at h
  split at h
  · exact Option.some.inj h
  · cases h

theorem Firm.named {A : Ast T} {I : Builtins T} {E : Exec T V} {names seeds : List String} {s c : S T} {D : List Scope.DefAt} {H : List (List Nat)}
    (hw : A.Wf names) (hpl : A.Placed) (hs : Start A s) (hb : Begun A E seeds s) {root : Nat} (hlt : root < A.count) (hroot : A.place root = [])
    (hv : Vars A I E seeds.length c D H) (hf : Firm A I s c) : Named A I seeds c D := by
  have hc := hpl.ok hw
  have hrt : [] ∈ A.places := hroot ▸ Ast.place_mem hlt
  have hv0 := hb.vars (I := I) hw hpl hs
  have hidx : ∀ k, Loc.lastIdx D [] k = Loc.lastIdx (seeds.map fun k => ([], k)) [] k := by
    intro k
    have h0 : Loc.get s.lg [] k = some (Loc.getAny s.lg [] k) := by
      unfold Loc.get
      rw [if_pos]
      show s.lg.isSealed [] = true
      rw [hb.lg, (seed_seals A.places seeds).2]; rfl
    have h1 := get_any (hf.begun.get [] hrt k _ h0)
    rw [hv.locs.root hc hrt, hv0.locs.root hc hrt] at h1
    cases h2 : Loc.lastIdx D [] k <;> cases h3 : Loc.lastIdx (seeds.map fun k => ([], k)) [] k <;> simp [h2, h3] at h1 ⊢
    exact h1
  have code : ∀ x ∈ c.codes, ∃ (k : Nat) (K : List Nat), CodeOk A I E c D K (c.prior k) x.1 x.2.1 x.2.2.1 x.2.2.2 := by
    intro x hx
    obtain ⟨k, hk⟩ := List.getElem?_of_mem hx
    have hl := (List.getElem?_eq_some_iff.1 hk).1
    rw [← hv.world.hist] at hl
    exact ⟨k, H[k], hv.world.ok k x _ hk (List.getElem?_eq_getElem hl)⟩
  refine ⟨hv.locs.slots.symm, fun k i => ?_, fun i j x hx h1 h2 => hv.same hx h1 h2, fun i q name hi => ?_, fun op t u i args vars hx => ?_,
    fun op t u i args vars hx n hn slot name hslot => ?_, fun op t u d params hx => ?_, fun op t u code' hx a ha => ?_⟩
  · rw [← Loc.lastIdx_some, ← Loc.lastIdx_some, hidx]
  · obtain ⟨u, hu⟩ := hv.locs.slot hi
    cases hv.src i q name u hi hu with
    | seed hq _ => exact .inl hq
    | builtin s0 j op t n ho hov hwi ht hg hch hq hn => exact .inr (.inl ⟨op, t, j, n, u, s0, ho, ht, hg, hwi, hn, hq, hch⟩)
    | param d j p a hd hq hp ha ht => exact .inr (.inr ⟨d, hd, hq, List.mem_map.2 ⟨_, List.mem_of_getElem? hp, rfl⟩⟩)
  · obtain ⟨s0, hp, hr, he⟩ := (hf.codes _ hx).run
    dsimp only at hr he
    have ho := (hf.codes _ hx).op
    dsimp only at ho
    obtain ⟨D0, hl0⟩ := hp.locs
    unfold compileBlock at hr
    unfold codeOf at he
    cases hg : A.getImpl op t with
    | none => rw [hg] at hr; cases hr
    | some im =>
      rw [hg] at hr he
      cases im with
      | defn d => cases he
      | intrinsic i' =>
        dsimp only at hr he
        injection he with e1 e2 e3
        subst e1
        obtain ⟨r, hq⟩ := runBuiltin_requests hr
        obtain ⟨h1, h2⟩ := madeVars_spec hw hl0 (start_where op) hq
        refine ⟨s0, hp.within, hr, fun n name v hi => ?_, fun x hxv n slot hsite => ?_⟩
        · obtain ⟨slot, w, h3, x, h4, h5⟩ := h2 _ hi
          have hn : Near A op n := by
            rcases h1 x h4 with ⟨h6, _⟩ | ⟨n', name', slot', h6, _, _, h7⟩
            · rw [h6] at h5; cases h5
            · rw [h6] at h5; cases h5; exact h7
          exact ⟨slot, (hv.locs.there hc (hn.lt hw) (hp.onward.variableAt (hn.lt hw) h3)).1, x, by rw [e3]; exact h4, h5⟩
        · rw [e3] at hxv
          rcases h1 x hxv with ⟨h3, _⟩ | ⟨n', name, slot', h3, h4, h5, h6⟩
          · rw [h3] at hsite; cases hsite
          · rw [h3] at hsite
            cases hsite
            exact ⟨name, _, h5, (hv.locs.there hc (h6.lt hw) (hp.onward.variableAt (h6.lt hw) h4)).1⟩
  · obtain ⟨k, K, hok⟩ := code _ hx
    cases hok with
    | builtin _ _ _ act hargs hvars covers => exact covers slot n name hslot hn
  · rcases (hf.codes _ hx).bound d params rfl with h | ⟨h1, h2⟩
    · exact .inl h
    · refine .inr ⟨h1, fun j slot w a hj => ?_⟩
      obtain ⟨name, p, h3, h4, h5⟩ := h2 j slot w a hj
      obtain ⟨k, K, hok⟩ := code _ hx
      cases hok with
      | call _ _ body hd hparams sets hnone => exact ⟨name, p, h3, h4, (hv.locs.there hc (hw.exprs_lt _ body.mem) h5).1⟩
  · obtain ⟨h1, h2⟩ := (hf.codes _ hx).holds a ha
    refine ⟨h2, fun v hvar => ?_⟩
    dsimp only at h1 h2
    unfold holdOf at h1
    rw [hvar] at h1
    dsimp only at h1
    split at h1
    · rename_i slot hg
      obtain ⟨w, h3, h4⟩ := Option.map_eq_some_iff.1 h1
      have hnm := Ast.place_mem (hw.arg_lt _ _ h2)
      have := hv.locs.lex.resolves hc v _ _ (Nat.le_refl _) hnm
      have h5 := get_any hg
      rw [hv.locs.any hc hnm] at h5
      obtain ⟨l, h6, h7⟩ := Option.map_eq_some_iff.1 h5
      injection h7 with h7
      rw [h6, Option.map_some, h7] at this
      exact ⟨slot, w, h4.symm, this⟩
    · cases h1

/-- C91, for programs whose definitions have no expressions for parameters, and different names for their at most 256 parameters.
Let the built-in commands announce their variables steadily and promptly. In a compiled program, a name used as an argument is the
variable that is found by looking outwards from there, among all variables of the program: in whatever order they became known
while compiling, none was missed. -/
theorem names_are_lexical_partial {A : Ast T} {I : Builtins T} {E : Exec T V} {names seeds : List String} {ord : List Nat → List Nat} {s c : S T}
    (hw : A.Wf names) (hpl : A.Placed) (hn : I.Named names) (hst : I.Steady A) (hpr : I.Prompt A) (hE : E.Sound A I) (hs : Start A s)
    (hb : Begun A E seeds s) (hord : OrderOk ord) {f root : Nat} (hroot : A.place root = []) (h : compile A I ord f root s = some (.ok c)) :
    ∃ D, Named A I seeds c D := by
  have hi := start_inv hs
  obtain ⟨D, H, hv, hf⟩ : ∃ D H, Vars A I E seeds.length c D H ∧ Firm A I s c :=
    compile_traced hw hn hord (firm_kept (E := E) (m := seeds.length) (b0 := s) hw hn hpl hst hpr hE) f root s _ hi ⟨_, _, hb.vars hw hpl hs, hb.firm hw hpl⟩ h
  have hic : Inv A c := (compile_ok hw hn hord f root s c h hi).1.inv
  obtain ⟨he, _⟩ := hic.exprs root (compile_done f h)
  exact ⟨D, hf.named hw hpl hs hb (hw.exprs_lt _ he) hroot hv⟩

end Verif.Comp

namespace Verif.Lang
open Verif Verif.Comp
variable {N : Type}

/-- C91 for the built-in commands: nothing is left to assume of them, but that `fold-while` is not used. -/
theorem commands_names_are_lexical_partial {W : World N} (hW : W.Ok) {A : Ast Tab.Ty} {names seeds : List String} {ord : List Nat → List Nat} {s c : S Tab.Ty}
    {lit : Nat → Tab.Value N} (hw : A.Wf names) (hpl : A.Placed) (htd : Tidy W A) (hrow : "row" ∈ names)
    (hfw : ∀ op ∈ A.ops, ∀ t i, A.getImpl op t = some (.intrinsic i) → W.cmd i ≠ some .foldWhile)
    (hlit : ∀ n, okV W.shape (lit n) = true) (hs : Start A s) (hb : Begun A (exec W A lit) seeds s) (hord : OrderOk ord) {f root : Nat} (hroot : A.place root = [])
    (h : compile A ((talks W).builtins A) ord f root s = some (.ok c)) : ∃ D, Comp.Named A ((talks W).builtins A) seeds c D :=
  names_are_lexical_partial (E := (exec W A lit).lift (okV W.shape) hlit) hw hpl (talks_named A hrow)
    (talks_steady hw htd) (talks_prompt hw (fun op _ => htd.args op) hfw) (exec_sound hW hw htd lit).lift hs (Begun.lift hb) hord hroot h

end Verif.Lang

namespace Verif.Lang
open Verif Verif.Exp Verif.Comp Verif.Prog
variable {N : Type} {D : Defs} {g : Graph}

theorem while_only {L : Cmds} (hL : ∀ x ∈ L, x.2.2 = .foldWhile → x.1 = "fold-while") {f : String} {ty : Option String}
    (h : Lang.numbered L (number L f ty) = some .foldWhile) : f = "fold-while" := by
  unfold Lang.numbered number at h
  obtain ⟨x, h1, h2⟩ := Option.map_eq_some_iff.1 h
  have hx := hL x (List.mem_of_getElem? h1) h2
  have hp := List.findIdx_getElem (w := (List.getElem?_eq_some_iff.1 h1).1) (xs := L) (p := fun x => x.1 == f && x.2.1 == ty)
  rw [(List.getElem?_eq_some_iff.1 h1).2] at hp
  rw [← eq_of_beq (Bool.and_eq_true_iff.1 hp).1, hx]

/-- C91 for programs as they are written, with built-in commands of these names. -/
theorem programs_names_are_lexical_partial {e : Expr} (hg : init D e = .ok g) (hf : Filled D e) (hD : Simple D e) (hl : LetsDiffer D e "let")
    (hwh : Without D e "fold-while") {W : World N} (hW : W.Ok) {L : Cmds} (hL : ∀ x ∈ L, x.2.2 = .let_ → x.1 = "let")
    (hLp : ∀ x ∈ L, x.2.2 = .pick → x.2.1 = some "Table") (hLw : ∀ x ∈ L, x.2.2 = .foldWhile → x.1 = "fold-while")
    {get : String → Tab.Ty} (hget : get "Table" = .tab) {all : List Tab.Ty} (hall : all.Nodup)
    {ord : List Nat → List Nat} (hord : OrderOk ord) {root : Tab.Ty} {seeds : List (String × Tab.Ty)} {notes : List (Note Tab.Ty)}
    {s c : S Tab.Ty} (hs : begins (ast D (typesOf get all) (number L) g) (typesOf get all) g root seeds notes = .ok s) {f : Nat}
    (h : compile (ast D (typesOf get all) (number L) g) ((talks (W.on L g)).builtins (ast D (typesOf get all) (number L) g)) ord f 0 s = some (.ok c)) :
    ∃ B, Comp.Named (ast D (typesOf get all) (number L) g) ((talks (W.on L g)).builtins (ast D (typesOf get all) (number L) g)) (seeds.map (·.1)) c B := by
  obtain ⟨_, _, h0, _⟩ := init_done hg
  have N' := net hg
  obtain ⟨hw, h1⟩ := programs_are_well_formed (Y := typesOf get all) (fn := number L) hg hf ["row"]
  obtain ⟨hst, hr⟩ := h1 root seeds notes s hall hs
  have hrow : "row" ∈ graphNames D g ++ ["row"] := List.mem_append_right _ (List.mem_singleton.2 rfl)
  have hb : Begun (ast D (typesOf get all) (number L) g) (exec (W.on L g) (ast D (typesOf get all) (number L) g) (literal (fun _ => W.zero) g)) (seeds.map (·.1)) s :=
    N'.begun hs fun n x t h2 h3 => literal_ty h2 h3
  have hp : (ast D (typesOf get all) (number L) g).place 0 = [] := by rw [place_eq N'.pos]; exact spot_zero
  refine commands_names_are_lexical_partial (hW.on L g) hw (N'.placed h0 hD) (tidy_of_net hL hLp (Y := typesOf get all) hget N' h0 hl) hrow
    (fun op _ t i hgi hi => ?_) (fun n => literal_ok n) hst hb hord hp h
  obtain ⟨f, ty, h2, h3, _⟩ := N'.impl_op hgi
  have hi : Lang.numbered L i = some .foldWhile := hi
  rw [← h3] at hi
  rw [while_only hLw hi] at h2
  obtain ⟨x, i, o, ts, h4, h5, _⟩ := N'.op_shown h0 h2
  exact hwh x h4 i o ts h5

theorem installed_while : ∀ x ∈ installed, x.2.2 = .foldWhile → x.1 = "fold-while" := by decide +kernel

theorem cmds_while {d : Defs.Defs} (hw : d.Wf) (h : ∀ n ty i, d.entry n ty = some i → Named n ty i) :
    ∀ x ∈ cmdsOf d, x.2.2 = .foldWhile → x.1 = "fold-while" := by
  intro x hx e
  obtain ⟨⟨n, ks⟩, h1, h2⟩ := List.mem_flatMap.1 hx
  obtain ⟨y, h3, h4⟩ := List.mem_filterMap.1 h2
  obtain ⟨c, h5, rfl⟩ := Option.map_eq_some_iff.1 h4
  dsimp only at e h2 h3 ⊢
  subst e
  obtain ⟨ty, h6, h7⟩ := entriesOf_entry hw (AMap.get_of_mem hw.impls h1) h3
  have h8 := h n ty y.2 h7
  generalize y.2 = i at h5 h8
  cases i with
  | definition l src => cases h5
  | intrinsic l fn =>
    cases fn with
    | ctor t j => cases h5
    | builtin m =>
      rw [cmdAt] at h5
      obtain ⟨z, h9, h10⟩ := Option.map_eq_some_iff.1 h5
      have h11 := List.find?_some h9
      have h12 := installed_while z (List.mem_of_find?_eq_some h9) h10
      rw [show n = m from h8, ← eq_of_beq (Bool.and_eq_true_iff.1 h11).1, h12]

/-- **C91**: after any session of definitions, of types with clear names and of commands given by their texts, and for any text of
a program: each text was read with the commands known at the time, the definitions it uses have at most 256 parameters, none of
them an expression, no `let` is given the same name twice, and `fold-while` is not used. If the text is parsed, expanded and
compiled without an error, there is one list of all variables, each with the block, argument or body where it is defined; and each
name used as an argument is the variable of that name at the nearest enclosing or preceding place, without leaving the body of a
definition. -/
theorem sessions_names_are_lexical_partial {checked : Bool} {os : List Defs.Op} {d : Defs.Defs} (hd : Defs.run checked Defs.base os = some d)
    {ks : String → Parse.Env} (hks : ∀ src, Parse.Laws (ks src)) (htx : Stored ks d) (hc : ClearTypes d) {k : Parse.Env} (hlaws : Parse.Laws k)
    {text rest : Parse.Str} {x : Parse.Expr} (ht : Parse.expression k text = .ok rest x) (hsh : Short (defsOf ks d) (readE x))
    (hl : LetsDiffer (defsOf ks d) (readE x) "let") (hwh : Without (defsOf ks d) (readE x) "fold-while") (hg : init (defsOf ks d) (readE x) = .ok g)
    {W : World N} (hfiles : ∀ p t, W.files p = some t → okRs (shapeOf d) t = true) (hopen : ∀ p t, W.openTab p = some t → okRs (shapeOf d) t = true)
    (hdur : ∀ op, okRs (shapeOf d) (W.duration op) = true) {ord : List Nat → List Nat} (hord : OrderOk ord) {root : Tab.Ty}
    {seeds : List (String × Tab.Ty)} {notes : List (Note Tab.Ty)} {s c : S Tab.Ty}
    (hs : begins (ast (defsOf ks d) (storedTypes d) (number (cmdsOf d)) g) (storedTypes d) g root seeds notes = .ok s) {f : Nat}
    (h : compile (ast (defsOf ks d) (storedTypes d) (number (cmdsOf d)) g)
      ((talks ((W.typed d).on (cmdsOf d) g)).builtins (ast (defsOf ks d) (storedTypes d) (number (cmdsOf d)) g)) ord f 0 s = some (.ok c)) :
    ∃ B, Comp.Named (ast (defsOf ks d) (storedTypes d) (number (cmdsOf d)) g)
      ((talks ((W.typed d).on (cmdsOf d) g)).builtins (ast (defsOf ks d) (storedTypes d) (number (cmdsOf d)) g)) (seeds.map (·.1)) c B := by
  have hr := Defs.run_reach (fun _ => True) (fun _ => True) checked Defs.base os Defs.base d .refl (fun _ _ _ _ => trivial) (fun _ _ _ _ => trivial) hd
  have hw := Defs.reach_wf Defs.base_wf hr
  have hD := defs_from_text (K := Parse.Laws) hks hw htx
  exact programs_names_are_lexical_partial hg (filled_of_text (fun _ h => h) hD hlaws ht) (simple_of_text (fun _ h => h) hD hsh) hl hwh
    (typed_ok hd hc hfiles hopen hdur) (cmds_let hw (entries_named hr)) cmds_pick (cmds_while hw (entries_named hr))
    (stored_table hd) (stored_nodup hr) hord hs h

/-! ### A program -/

def freeTerm (p : Expr → Bool) : Term → Bool
  | .expr e => p e
  | _ => true

def freeImpl (p : Expr → Bool) (im : Exp.Impl) : Bool :=
  match im.defn with
  | none => true
  | some (_, b) => p b

def freeBlk (D : Defs) (f : String) (p : Expr → Bool) : Exp.Blk → Bool
  | .mk none _ _ ts => ts.all (freeTerm p)
  | .mk (some f') _ _ ts => f' != f && (D.impls f').all (freeImpl p) && ts.all (freeTerm p)

/-- Looks through an expression and all it uses. -/
def free (D : Defs) (f : String) : Nat → Expr → Bool
  | 0, _ => false
  | n + 1, e => e.blks.all (freeBlk D f (free D f n))

theorem free_blk {f : String} {n : Nat} {e : Expr} (h : free D f n e = true) {b : Exp.Blk} (hb : b ∈ e.blks) : ∃ m, freeBlk D f (free D f m) b = true := by
  cases n with
  | zero => cases h
  | succ n => exact ⟨n, List.all_eq_true.1 h b hb⟩

theorem free_written {f : String} {n : Nat} {e x : Expr} (h : free D f n e = true) (hx : Written D e x) : ∃ m, free D f m x = true := by
  induction hx with
  | top => exact ⟨n, h⟩
  | body _ hb hd ih =>
    obtain ⟨m, hm⟩ := ih
    obtain ⟨m, hm⟩ := free_blk hm hb
    obtain ⟨im, h1, _, ps, h2⟩ := hd
    simp only [freeBlk, Bool.and_eq_true, List.all_eq_true] at hm
    have := hm.1.2 im h1
    simp only [freeImpl, h2] at this
    exact ⟨m, this⟩
  | @arg x y op i o ts _ hb hy ih =>
    obtain ⟨m, hm⟩ := ih
    obtain ⟨m, hm⟩ := free_blk hm hb
    cases op with
    | none => exact ⟨m, List.all_eq_true.1 hm _ hy⟩
    | some f =>
      simp only [freeBlk, Bool.and_eq_true] at hm
      exact ⟨m, List.all_eq_true.1 hm.2 _ hy⟩

theorem free_ok {f : String} {n : Nat} {e : Expr} (h : free D f n e = true) : Without D e f := by
  intro x hx i o ts hb
  obtain ⟨m, hm⟩ := free_written h hx
  obtain ⟨m, hm⟩ := free_blk hm hb
  simp [freeBlk] at hm

/-- Whether the text is parsed, expanded, started and compiled, does not use `fold-while`, and needs some variables. -/
def named (k : Parse.Env) (d : Defs.Defs) (text : String) : Bool :=
  match Parse.expression k text.toList with
  | .ok _ x => match init (defsOf (fun _ => k) d) (readE x) with
    | .error _ => false
    | .ok g => match begins (ast (defsOf (fun _ => k) d) (storedTypes d) (number (cmdsOf d)) g) (storedTypes d) g .nil [] [] with
      | .error _ => false
      | .ok s => (fine (defsOf (fun _ => k) d) 9 (readE x) && free (defsOf (fun _ => k) d) "fold-while" 9 (readE x)) && compiled (fun c =>
          decide (1 < c.slots.length) && c.codes.any (fun x => x.2.2.2.arguments.any fun a => match a.hold with | .var _ _ => true | _ => false))
          (compile (ast (defsOf (fun _ => k) d) (storedTypes d) (number (cmdsOf d)) g)
            ((talks ((intWorld.typed d).on (cmdsOf d) g)).builtins (ast (defsOf (fun _ => k) d) (storedTypes d) (number (cmdsOf d)) g)) id 200 0 s)
  | _ => false

/-- Two variables are called `n`. -/
def namesText : String := "range 0 3 | let $t | fold 5 { let $n | \\ $row | get --Num i | + $n } | let $n | twice | + $n"

theorem session_named : started (fun d => named asciiEnv d namesText && d.types.all clearAt) (Defs.run false Defs.base session) = true := by decide +kernel

/-- For C91: after the session of C81, this program meets what the theorem assumes. -/
example : Parse.Laws asciiEnv ∧
    ∃ d rest x g s c, Defs.run false Defs.base session = some d ∧ Stored (fun _ => asciiEnv) d ∧ ClearTypes d ∧ Parse.expression asciiEnv namesText.toList = .ok rest x ∧
      Short (defsOf (fun _ => asciiEnv) d) (readE x) ∧ LetsDiffer (defsOf (fun _ => asciiEnv) d) (readE x) "let" ∧
      Without (defsOf (fun _ => asciiEnv) d) (readE x) "fold-while" ∧ init (defsOf (fun _ => asciiEnv) d) (readE x) = .ok g ∧
      (∀ p t, intWorld.files p = some t → okRs (shapeOf d) t = true) ∧ (∀ p t, intWorld.openTab p = some t → okRs (shapeOf d) t = true) ∧
      (∀ op, okRs (shapeOf d) (intWorld.duration op) = true) ∧
      begins (ast (defsOf (fun _ => asciiEnv) d) (storedTypes d) (number (cmdsOf d)) g) (storedTypes d) g .nil [] [] = .ok s ∧
      compile (ast (defsOf (fun _ => asciiEnv) d) (storedTypes d) (number (cmdsOf d)) g)
        ((talks ((intWorld.typed d).on (cmdsOf d) g)).builtins (ast (defsOf (fun _ => asciiEnv) d) (storedTypes d) (number (cmdsOf d)) g)) id 200 0 s = some (.ok c) ∧
      1 < c.slots.length ∧ ∃ op t u code, (op, t, u, code) ∈ c.codes ∧ ∃ a ∈ code.arguments, ∃ slot w, a.hold = .var slot w := by
  refine ⟨ascii_laws, ?_⟩
  have h := session_named
  unfold started at h
  split at h
  · rename_i d hd
    obtain ⟨h, hc⟩ := Bool.and_eq_true_iff.1 h
    unfold named at h
    split at h
    · rename_i rest x hx
      split at h
      · cases h
      · rename_i g hg
        split at h
        · cases h
        · rename_i s hs
          obtain ⟨h1, h2⟩ := Bool.and_eq_true_iff.1 h
          obtain ⟨h1, h7⟩ := Bool.and_eq_true_iff.1 h1
          obtain ⟨c, h3, h4⟩ := compiled_eq h2
          obtain ⟨h5, h6⟩ := fine_ok h1
          obtain ⟨h8, h9⟩ := Bool.and_eq_true_iff.1 h4
          refine ⟨d, rest, x, g, s, c, hd, session_texts hd, ?_, hx, h5, h6, free_ok h7, hg, ?_, ?_, ?_, hs, h3, of_decide_eq_true h8, ?_⟩
          · intro n td hn
            exact of_decide_eq_true (List.all_eq_true.1 hc _ (AMap.mem_of_get hn))
          · intro p t ht
            cases ht
            rfl
          · intro p t ht
            cases ht
          · intro op
            rfl
          · obtain ⟨⟨op, t, u, code⟩, h10, h11⟩ := List.any_eq_true.1 h9
            obtain ⟨a, h12, h13⟩ := List.any_eq_true.1 h11
            refine ⟨op, t, u, code, h10, a, h12, ?_⟩
            split at h13
            · rename_i slot w e; exact ⟨slot, w, e⟩
            · cases h13
    · cases h
  · cases h

end Verif.Lang

namespace Verif.Lang
open Verif Verif.Exp Verif.Comp Verif.Prog

/-- Whether the text is parsed, expanded, started with its annotations, compiled and evaluated to this number. -/
def makes (k : Parse.Env) (d : Defs.Defs) (text : String) (n : Int) : Bool :=
  match Parse.expression k text.toList with
  | .ok [] x => match initN (defsOf (fun _ => k) d) (readE x) with
    | .error _ => false
    | .ok (g, ns) =>
      match begins (ast (defsOf (fun _ => k) d) (storedTypes d) (number (cmdsOf d)) g) (storedTypes d) g .nil [] (notesOf (storedTypes d) ns []) with
      | .error _ => false
      | .ok s => compiled (fun c => isNumber n (evalExpr (ast (defsOf (fun _ => k) d) (storedTypes d) (number (cmdsOf d)) g)
            (exec ((intWorld.typed d).on (cmdsOf d) g) (ast (defsOf (fun _ => k) d) (storedTypes d) (number (cmdsOf d)) g) (literal (fun x => digits x.toList) g))
            c c.steps.length 0 .nil (List.replicate c.slots.length .nil)))
          (compile (ast (defsOf (fun _ => k) d) (storedTypes d) (number (cmdsOf d)) g)
            ((talks ((intWorld.typed d).on (cmdsOf d) g)).builtins (ast (defsOf (fun _ => k) d) (storedTypes d) (number (cmdsOf d)) g)) id 200 0 s)
  | _ => false

/-- Adds up the numbers 0, 1 and 2, twice. -/
def whileText : String :=
  "range 10 12 | fold 0 { let $acc | range 0 3 | fold-while { \\ 0 | + 0 } #t { + { \\ $row | get --Num i } } | + $acc }"

/-- The same, with the type that `+` has anyway. -/
def annotatedText : String :=
  "range 10 12 | fold 0 { let $acc | range 0 3 | fold-while { \\ 0 | + 0 } #t { :Num + { \\ $row | get --Num i } } | + $acc }"

theorem started_eq {p : Defs.Defs → Bool} : ∀ {x : Option Defs.Defs}, started p x = true → ∃ d, x = some d ∧ p d = true
  | some d, h => ⟨d, rfl, h⟩
  | none, h => by cases h

theorem both_make : started (fun d => makes asciiEnv d whileText 6 && makes asciiEnv d annotatedText 63) (Defs.run false Defs.base []) = true := by decide +kernel

/-- C91 does not hold with `fold-while`, which does not announce its variable `$row` (`morphism.rs:602-622`): if the type of the
input of a block is annotated, the block is compiled before the variable is defined, and takes the `$row` of an enclosing `fold`.
The annotation changes what the program makes, from 6 to 63. -/
theorem annotation_changes_meaning :
    ∃ d, Defs.run false Defs.base [] = some d ∧ makes asciiEnv d whileText 6 = true ∧ makes asciiEnv d annotatedText 63 = true := by
  obtain ⟨d, h1, h2⟩ := started_eq both_make
  obtain ⟨h3, h4⟩ := Bool.and_eq_true_iff.1 h2
  exact ⟨d, h1, h3, h4⟩

end Verif.Lang
