import Verif.Lemmas.LangVars
import Verif.Lemmas.LangDefs
import Verif.Props.Prog
/-! Programs of all built-in commands evaluate to what they were compiled to (C81). -/
namespace Verif.Lang
open Verif Verif.Comp
variable {N : Type}

theorem Begun.lift {T V : Type} [DecidableEq T] {A : Ast T} {E : Exec T V} {ok : V → Bool} {hl : ∀ n, ok (E.lit n) = true} {seeds : List String}
    {s : S T} (h : Begun A E seeds s) : Begun A (E.lift ok hl) seeds s :=
  ⟨h.lg, h.slots, h.binds, h.codes, h.inputs, h.literals⟩

theorem subs {V : Type} {ok : V → Bool} : ∀ (env : List V), (∀ v ∈ env, ok v = true) → ∃ env' : List (Sub ok), env'.map (·.1) = env
  | [], _ => ⟨[], rfl⟩
  | v :: env, h => by
    obtain ⟨env', e⟩ := subs env fun w hw => h w (List.mem_cons_of_mem _ hw)
    exact ⟨⟨v, h v (.head _)⟩ :: env', by rw [List.map_cons, e]⟩

/-- C81, for programs whose definitions have no expressions for parameters and different names for their at most 256 parameters,
and in which no `let` sets two variables of the same name. Of the surroundings it is assumed that the tables they provide are
well-formed. If compiling succeeds, the program can be evaluated on every well-formed value of its input type: evaluation ends, in
an error or with a well-formed value of the program's output type. No command finds a value of another type than it expects, no
variable is read that has not been set, and no check of a type fails. -/
theorem commands_are_safe_partial {W : World N} (hW : W.Ok) {A : Ast Tab.Ty} {names seeds : List String} {ord : List Nat → List Nat} {s c : S Tab.Ty}
    {lit : Nat → Tab.Value N} (hlit : ∀ n, okV W.shape (lit n) = true) (hw : A.Wf names) (hpl : A.Placed) (htd : Tidy W A) (hrow : "row" ∈ names)
    (hs : Start A s) (hb : Begun A (exec W A lit) seeds s) (hord : OrderOk ord) {f root : Nat} (hroot : A.place root = [])
    (h : compile A ((talks W).builtins A) ord f root s = some (.ok c)) :
    ∃ t u, Ty.Settled (c.tg.kn root .inp) t ∧ Ty.Settled (c.tg.kn root .out) u ∧
      ∀ n ≥ c.steps.length, ∀ v env, v.ty = t → okV W.shape v = true → (∀ x ∈ env, okV W.shape x = true) → Ready0 (exec W A lit) c seeds env →
        Sound W.shape u (evalExpr A (exec W A lit) c n root v env) := by
  obtain ⟨t, u, h1, h2, h3⟩ := evaluation_is_safe_partial (E := (exec W A lit).lift (okV W.shape) hlit) hw hpl (talks_named A hrow)
    (talks_steady hw htd) (exec_sound hW hw htd lit).lift hs (Begun.lift hb) hord hroot h
  refine ⟨t, u, h1, h2, fun n hn v env hv hok henv hr => ?_⟩
  obtain ⟨env', rfl⟩ := subs env henv
  have hr' : Ready0 ((exec W A lit).lift (okV W.shape) hlit) c seeds env' := by
    refine ⟨by rw [← hr.length, List.length_map], fun i hi => ?_⟩
    obtain ⟨w, h4, h5⟩ := hr.seeds i hi
    rw [List.getElem?_map] at h4
    obtain ⟨w', h6, rfl⟩ := Option.map_eq_some_iff.1 h4
    exact ⟨w', h6, h5⟩
  have hsafe := h3 n hn ⟨v, hok⟩ env' hv hr'
  generalize hres : evalExpr A ((exec W A lit).lift (okV W.shape) hlit) c n root ⟨v, hok⟩ env' = res at hsafe
  have low := evalExpr_low (A := A) (c := c) (E := exec W A lit) (ok := okV W.shape) (hl := hlit) n root ⟨v, hok⟩ env'
    (fun e => by rw [hres] at e; rw [e] at hsafe; exact hsafe)
  rw [hres] at low
  rw [low]
  cases res with
  | ok r => exact ⟨hsafe, r.1.2⟩
  | err => trivial
  | stuck => exact hsafe
  | more => exact hsafe

end Verif.Lang

namespace Verif.Lang
open Verif Verif.Exp Verif.Comp Verif.Prog
variable {N : Type} {D : Defs} {g : Graph}

theorem literal_ty {get : String → Tab.Ty} {all : List Tab.Ty} {num : String → N} {n : Nat} {x : Exp.Node} {t : Tab.Ty} (h : g.nodes[n]? = some x)
    (ht : leafTy (typesOf get all) x = some t) : (literal num g n).ty = t := by
  unfold literal
  rw [h]
  unfold leafTy typesOf at ht
  split at ht
  · cases ht; rfl
  · cases ht; rfl
  · rename_i c
    dsimp only at ht
    split at ht
    · rename_i hc; subst hc; cases ht; rfl
    · split at ht
      · rename_i hc
        rcases hc with rfl | rfl <;> cases ht <;> rfl
      · split at ht
        · rename_i hc; subst hc; cases ht; rfl
        · cases ht
  · cases ht

theorem literal_ok {num : String → N} {sh : String → Shape} (n : Nat) : okV sh (literal num g n) = true := by
  unfold literal
  split <;> rfl

theorem let_only {L : Cmds} (hL : ∀ x ∈ L, x.2.2 = .let_ → x.1 = "let") {f : String} {ty : Option String}
    (h : Lang.numbered L (number L f ty) = some .let_) : f = "let" := by
  unfold Lang.numbered number at h
  obtain ⟨x, h1, h2⟩ := Option.map_eq_some_iff.1 h
  have hx := hL x (List.mem_of_getElem? h1) h2
  have hp := List.findIdx_getElem (w := (List.getElem?_eq_some_iff.1 h1).1) (xs := L) (p := fun x => x.1 == f && x.2.1 == ty)
  rw [(List.getElem?_eq_some_iff.1 h1).2] at hp
  rw [← eq_of_beq (Bool.and_eq_true_iff.1 hp).1, hx]

theorem pick_only {L : Cmds} (hL : ∀ x ∈ L, x.2.2 = .pick → x.2.1 = some "Table") {f : String} {ty : Option String}
    (h : Lang.numbered L (number L f ty) = some .pick) : ty = some "Table" := by
  unfold Lang.numbered number at h
  obtain ⟨x, h1, h2⟩ := Option.map_eq_some_iff.1 h
  have hx := hL x (List.mem_of_getElem? h1) h2
  have hp := List.findIdx_getElem (w := (List.getElem?_eq_some_iff.1 h1).1) (xs := L) (p := fun x => x.1 == f && x.2.1 == ty)
  rw [(List.getElem?_eq_some_iff.1 h1).2] at hp
  rw [← eq_of_beq (Bool.and_eq_true_iff.1 hp).2, hx]

theorem tidy_of_net {W : World N} {L : Cmds} (hL : ∀ x ∈ L, x.2.2 = .let_ → x.1 = "let") (hLp : ∀ x ∈ L, x.2.2 = .pick → x.2.1 = some "Table")
    {Y : Types Tab.Ty} (hY : Y.get "Table" = .tab) (N' : Net D g) {e : Expr} (h0 : ShowsE g 0 e) (hl : LetsDiffer D e "let") :
    Tidy (W.on L g) (ast D Y (number L) g) where
  args op := N'.terms_nodup op false
  pick op _ t i hg hi := by
    obtain ⟨f, ty, _, h2, h3⟩ := N'.impl_op hg
    have hi : Lang.numbered L i = some .pick := hi
    rw [← h2] at hi
    rw [h3 _ (pick_only hLp hi), hY]
  lets op _ t i hg hi b hb b' hb' v hv hv' := by
    obtain ⟨f, ty, h1, h2, _⟩ := N'.impl_op hg
    have hi : Lang.numbered L i = some .let_ := hi
    rw [← h2] at hi
    rw [let_only hL hi] at h1
    obtain ⟨x, i, o, ts, h3, h4, h5⟩ := N'.op_shown h0 h1
    have hn := hl x h3 i o ts h4
    have hL : Listed g (termsOf g op false) (ts.filter fun t => !isFlag t) := (listed h5).plain
    have hb1 : b ∈ binders (terms g op false) := hb
    have hb1' : b' ∈ binders (terms g op false) := hb'
    rcases N'.terms_eq op false with h6 | ⟨h6, _⟩
    · rw [h6] at hb1; cases hb1
    · rw [h6] at hb1 hb1'
      exact binders_differ (hL.take 256) (hn.sublist (letNames_take 128 _)) b hb1 b' hb1' hv hv'

theorem World.Ok.on {W : World N} (h : W.Ok) (L : Cmds) (g : Graph) : (W.on L g).Ok :=
  ⟨h.ord, h.tuples, h.files, h.openTab, h.duration⟩

/-- C81 for programs as they are written, with built-in commands of these names: `let` is called that, and `pick` is for tables. -/
theorem programs_run_safely_partial {e : Expr} (hg : init D e = .ok g) (hf : Filled D e) (hD : Simple D e) (hl : LetsDiffer D e "let")
    {W : World N} (hW : W.Ok) {L : Cmds} (hL : ∀ x ∈ L, x.2.2 = .let_ → x.1 = "let") (hLp : ∀ x ∈ L, x.2.2 = .pick → x.2.1 = some "Table")
    {get : String → Tab.Ty} (hget : get "Table" = .tab) {all : List Tab.Ty} (hall : all.Nodup)
    {num : String → N} {ord : List Nat → List Nat} (hord : OrderOk ord) {root : Tab.Ty} {seeds : List (String × Tab.Ty)} {notes : List (Note Tab.Ty)}
    {s c : S Tab.Ty} (hs : begins (ast D (typesOf get all) (number L) g) (typesOf get all) g root seeds notes = .ok s) {f : Nat}
    (h : compile (ast D (typesOf get all) (number L) g) ((talks (W.on L g)).builtins (ast D (typesOf get all) (number L) g)) ord f 0 s = some (.ok c)) :
    ∃ u, Ty.Settled (c.tg.kn 0 .out) u ∧
      ∀ n ≥ c.steps.length, ∀ v env, v.ty = root → okV W.shape v = true → (∀ x ∈ env, okV W.shape x = true) →
        Ready0 (exec (W.on L g) (ast D (typesOf get all) (number L) g) (literal num g)) c (seeds.map (·.1)) env →
        Sound W.shape u (evalExpr (ast D (typesOf get all) (number L) g)
          (exec (W.on L g) (ast D (typesOf get all) (number L) g) (literal num g)) c n 0 v env) := by
  obtain ⟨_, _, h0, _⟩ := init_done hg
  have N' := net hg
  obtain ⟨hw, h1⟩ := programs_are_well_formed (Y := typesOf get all) (fn := number L) hg hf ["row"]
  obtain ⟨hst, hr⟩ := h1 root seeds notes s hall hs
  have hrow : "row" ∈ graphNames D g ++ ["row"] := List.mem_append_right _ (List.mem_singleton.2 rfl)
  have hb : Begun (ast D (typesOf get all) (number L) g) (exec (W.on L g) (ast D (typesOf get all) (number L) g) (literal num g)) (seeds.map (·.1)) s :=
    N'.begun hs fun n x t h2 h3 => literal_ty h2 h3
  have hp : (ast D (typesOf get all) (number L) g).place 0 = [] := by rw [place_eq N'.pos]; exact spot_zero
  obtain ⟨t, u, h2, h3, h4⟩ := commands_are_safe_partial (hW.on L g) (fun n => literal_ok n) hw (N'.placed h0 hD) (tidy_of_net hL hLp (Y := typesOf get all) hget N' h0 hl) hrow hst hb hord hp h
  refine ⟨u, h3, fun n hn v env hv => h4 n hn v env ?_⟩
  have hgrow := (compile_ok hw (talks_named _ hrow) hord f 0 s c h (start_inv hst)).1
  rw [hv]
  exact settled_eq (hgrow.later.keeps _ _ _ hr) h2

/-- **C81**: after any session of definitions, of types with clear names and of commands given by their texts, and for any text of a
program: each text was read with the commands known at the time, the definitions it uses have at most 256 parameters, none of them an expression, and no `let` is given the same name
twice. Of the surroundings it is assumed that the tables they provide are well-formed. If the text is parsed, expanded and compiled
without an error, it can be evaluated on every well-formed value of its input type: evaluation ends, in an error or with a
well-formed value of the type found for its output. -/
theorem sessions_run_safely_partial {checked : Bool} {os : List Defs.Op} {d : Defs.Defs} (hd : Defs.run checked Defs.base os = some d)
    {ks : String → Parse.Env} (hks : ∀ src, Parse.Laws (ks src)) (htx : Stored ks d) (hc : ClearTypes d) {k : Parse.Env} (hlaws : Parse.Laws k) {text rest : Parse.Str} {x : Parse.Expr} (ht : Parse.expression k text = .ok rest x) (hsh : Short (defsOf ks d) (readE x))
    (hl : LetsDiffer (defsOf ks d) (readE x) "let") (hg : init (defsOf ks d) (readE x) = .ok g) {W : World N}
    (hfiles : ∀ p t, W.files p = some t → okRs (shapeOf d) t = true) (hopen : ∀ p t, W.openTab p = some t → okRs (shapeOf d) t = true)
    (hdur : ∀ op, okRs (shapeOf d) (W.duration op) = true) {num : String → N} {ord : List Nat → List Nat} (hord : OrderOk ord) {root : Tab.Ty}
    {seeds : List (String × Tab.Ty)} {notes : List (Note Tab.Ty)} {s c : S Tab.Ty}
    (hs : begins (ast (defsOf ks d) (storedTypes d) (number (cmdsOf d)) g) (storedTypes d) g root seeds notes = .ok s) {f : Nat}
    (h : compile (ast (defsOf ks d) (storedTypes d) (number (cmdsOf d)) g)
      ((talks ((W.typed d).on (cmdsOf d) g)).builtins (ast (defsOf ks d) (storedTypes d) (number (cmdsOf d)) g)) ord f 0 s = some (.ok c)) :
    ∃ u, Ty.Settled (c.tg.kn 0 .out) u ∧
      ∀ n ≥ c.steps.length, ∀ v env, v.ty = root → okV (shapeOf d) v = true → (∀ x ∈ env, okV (shapeOf d) x = true) →
        Ready0 (exec ((W.typed d).on (cmdsOf d) g) (ast (defsOf ks d) (storedTypes d) (number (cmdsOf d)) g) (literal num g)) c (seeds.map (·.1)) env →
        Sound (shapeOf d) u (evalExpr (ast (defsOf ks d) (storedTypes d) (number (cmdsOf d)) g)
          (exec ((W.typed d).on (cmdsOf d) g) (ast (defsOf ks d) (storedTypes d) (number (cmdsOf d)) g) (literal num g)) c n 0 v env) := by
  have hr := Defs.run_reach (fun _ => True) (fun _ => True) checked Defs.base os Defs.base d .refl (fun _ _ _ _ => trivial) (fun _ _ _ _ => trivial) hd
  have hw := Defs.reach_wf Defs.base_wf hr
  have hD := defs_from_text (K := Parse.Laws) hks hw htx
  exact programs_run_safely_partial hg (filled_of_text (fun _ h => h) hD hlaws ht) (simple_of_text (fun _ h => h) hD hsh) hl (typed_ok hd hc hfiles hopen hdur)
    (cmds_let hw (entries_named hr)) cmds_pick
    (stored_table hd) (stored_nodup hr) hord hs h

end Verif.Lang

namespace Verif.Lang
open Verif Verif.Exp Verif.Comp Verif.Prog

/-! ### A program -/

/-- The definition is short, and its body is all right. -/
def fineImpl (p : Expr → Bool) (im : Exp.Impl) : Bool :=
  match im.defn with
  | none => true
  | some (ps, b) => ps.all (fun q => q.ty != some "Expr") && decide (ps.length ≤ 256) && p b

def fineTerm (p : Expr → Bool) : Term → Bool
  | .expr e => p e
  | _ => true

def fineBlk (D : Defs) (p : Expr → Bool) : Exp.Blk → Bool
  | .mk none _ _ ts => ts.all (fineTerm p)
  | .mk (some f) _ _ ts => (D.impls f).all (fineImpl p) && ts.all (fineTerm p) && (f != "let" || decide (letNames (ts.filter fun t => !isFlag t)).Nodup)

/-- Looks through an expression and all it uses. -/
def fine (D : Defs) : Nat → Expr → Bool
  | 0, _ => false
  | n + 1, e => e.blks.all (fineBlk D (fine D n))

theorem fine_blk {D : Defs} {n : Nat} {e : Expr} (h : fine D n e = true) {b : Exp.Blk} (hb : b ∈ e.blks) : ∃ m, fineBlk D (fine D m) b = true := by
  cases n with
  | zero => cases h
  | succ n => exact ⟨n, List.all_eq_true.1 h b hb⟩

theorem fine_written {D : Defs} {n : Nat} {e x : Expr} (h : fine D n e = true) (hx : Written D e x) : ∃ m, fine D m x = true := by
  induction hx with
  | top => exact ⟨n, h⟩
  | body _ hb hd ih =>
    obtain ⟨m, hm⟩ := ih
    obtain ⟨m, hm⟩ := fine_blk hm hb
    obtain ⟨im, h1, _, ps, h2⟩ := hd
    simp only [fineBlk, Bool.and_eq_true, List.all_eq_true] at hm
    have := hm.1.1 im h1
    simp only [fineImpl, h2, Bool.and_eq_true] at this
    exact ⟨m, this.2⟩
  | @arg x y op i o ts _ hb hy ih =>
    obtain ⟨m, hm⟩ := ih
    obtain ⟨m, hm⟩ := fine_blk hm hb
    cases op with
    | none => exact ⟨m, List.all_eq_true.1 hm _ hy⟩
    | some f =>
      simp only [fineBlk, Bool.and_eq_true] at hm
      exact ⟨m, List.all_eq_true.1 hm.1.2 _ hy⟩

theorem fine_ok {D : Defs} {n : Nat} {e : Expr} (h : fine D n e = true) : Short D e ∧ LetsDiffer D e "let" := by
  constructor
  · rintro f ⟨x, i, o, ts, hx, hb⟩ im him ps b hd
    obtain ⟨m, hm⟩ := fine_written h hx
    obtain ⟨m, hm⟩ := fine_blk hm hb
    simp only [fineBlk, Bool.and_eq_true, List.all_eq_true] at hm
    have := hm.1.1 im him
    simp only [fineImpl, hd, Bool.and_eq_true, List.all_eq_true, decide_eq_true_eq, bne_iff_ne] at this
    exact this.1
  · intro x hx i o ts hb
    obtain ⟨m, hm⟩ := fine_written h hx
    obtain ⟨m, hm⟩ := fine_blk hm hb
    simp only [fineBlk, Bool.and_eq_true] at hm
    simpa using hm.2

def digits : List Char → Int
  | [] => 0
  | '-' :: cs => - digits cs
  | cs => cs.foldl (fun n c => n * 10 + (c.toNat - '0'.toNat : Nat)) 0

/-- A world in which numbers are integers. -/
def intWorld : World Int where
  cmd _ := none
  flags _ := []
  text _ _ := none
  typ s := if s = "Num" then some .num else if s = "Str" then some .str else none
  shape _ := .sum []
  isTuple _ := false
  tupleName _ := ""
  numOp o a b := match o with
    | .add => a + b
    | .sub => a - b
    | .mul => a * b
    | .div => a / b
    | .max => max a b
    | .min => min a b
  ceil x := x
  floor x := x
  finite _ := true
  root x _ := x
  toNat x := if x < 0 then none else some x.toNat
  ofNat n := n
  numCmp a b := compare a b
  numEq a b := a == b
  showNum _ := "n"
  validFmt _ := true
  fmtNum f _ := f
  showCell _ := "c"
  cellEq _ _ := false
  orders _ := false
  order _ _ _ := none
  tupCmp _ := none
  tupEq _ := none
  files _ := some [[.obj (.str "name")]]
  openTab _ := none
  openStr _ := none
  save _ _ := true
  zero := 0
  one := 1
  random a _ := some a
  randoms _ _ _ := none
  annotated _ _ := ""
  duration _ := []
  owner _ := .owned
  build := .wrapping
  umax := 100
  probe _ := []

def knownNames : List (List Char) := (installed.map (·.1.toList)) ++ ["Ord::Lt".toList, "Ord::Eq".toList, "Ord::Gt".toList, "Pt".toList, "twice".toList] ++
  Defs.derived.map (·.1.toList)

/-- ASCII, and the commands of the session. -/
def asciiEnv : Parse.Env where
  cls := ⟨Char.isAlpha, Char.isAlphanum⟩
  isNum s := match s with
    | '-' :: c :: cs => (c :: cs).all Char.isDigit
    | s => !s.isEmpty && s.all Char.isDigit
  known s := knownNames.contains s

/-- `def-ty Pt :: Pt { x:Num y:Num }` and `def twice Num () { * 2 }`. -/
def session : List Defs.Op := [.shell (.type_ "Pt" (.product [⟨"x", "Num", []⟩, ⟨"y", "Num", []⟩])),
  .shell (.impl "twice" (some "Num") ["*"] "def twice Num () { * 2 }")]

def programText : String :=
  "range 0 3 | map --Num i { + 10 } | fold 0 { + { \\ $row | get --Num i } } | if {> 5} {Pt #i 1 | get x} 0 | twice"

def isNumber (n : Int) : Res (Tab.Value Int × List (Tab.Value Int)) → Bool
  | .ok (.num m, _) => m == n
  | _ => false

def compiled (p : S Tab.Ty → Bool) : Option (Except Comp.Err (S Tab.Ty)) → Bool
  | some (.ok c) => p c
  | _ => false

/-- Whether the text is parsed, expanded, started, compiled and evaluated to this number. -/
def runs (k : Parse.Env) (d : Defs.Defs) (text : String) (n : Int) : Bool :=
  match Parse.expression k text.toList with
  | .ok _ x => match init (defsOf (fun _ => k) d) (readE x) with
    | .error _ => false
    | .ok g => match begins (ast (defsOf (fun _ => k) d) (storedTypes d) (number (cmdsOf d)) g) (storedTypes d) g .nil [] [] with
      | .error _ => false
      | .ok s => fine (defsOf (fun _ => k) d) 9 (readE x) && compiled (fun c => isNumber n (evalExpr (ast (defsOf (fun _ => k) d) (storedTypes d) (number (cmdsOf d)) g)
            (exec ((intWorld.typed d).on (cmdsOf d) g) (ast (defsOf (fun _ => k) d) (storedTypes d) (number (cmdsOf d)) g) (literal (fun x => digits x.toList) g))
            c c.steps.length 0 .nil (List.replicate c.slots.length .nil)))
          (compile (ast (defsOf (fun _ => k) d) (storedTypes d) (number (cmdsOf d)) g)
            ((talks ((intWorld.typed d).on (cmdsOf d) g)).builtins (ast (defsOf (fun _ => k) d) (storedTypes d) (number (cmdsOf d)) g)) id 200 0 s)
  | _ => false

def textOk (k : Parse.Env) (x : String × Option Defs.Ty × String) : Bool :=
  match Parse.definitionImpl k x.2.2.toList with
  | .ok _ df => decide (x.1.toList = df.name) && decide (x.2.1.map (fun t => (tyName t).toList) = df.inTy)
  | _ => false

theorem ascii_laws : Parse.Laws asciiEnv where
  alnum c h := by simp_all [asciiEnv, Char.isAlphanum]
  punct := by decide
  num q s h := by rcases h with rfl | rfl <;> simp [asciiEnv, Char.isDigit] <;> decide

theorem textOk_ok {k : Parse.Env} {x : String × Option Defs.Ty × String} (h : textOk k x = true) : TextOf k x.1 (x.2.1.map tyName) x.2.2 := by
  unfold textOk at h
  split at h
  · rename_i r df h1
    simp only [Bool.and_eq_true, decide_eq_true_eq] at h
    refine ⟨r, df, h1, ?_, ?_⟩
    · rw [str, ← h.1, String.ofList_toList]
    · rw [← h.2, Option.map_map]
      congr 1
      funext t
      rw [Function.comp, str, String.ofList_toList]
  · cases h

theorem derived_texts : ∀ x ∈ Defs.derived, TextOf asciiEnv x.1 (x.2.1.map tyName) x.2.2 := by
  have h : Defs.derived.all (textOk asciiEnv) = true := by decide +kernel
  exact fun x hx => textOk_ok (List.all_eq_true.1 h x hx)

/-- The texts of the session, and of the derived commands, are read alike with all commands known. -/
def AsciiText (n : String) (ty : Option Defs.Ty) : Defs.Impl → Prop
  | .definition _ src => TextOf asciiEnv n (ty.map tyName) src
  | _ => True

theorem session_texts {d : Defs.Defs} (hd : Defs.run false Defs.base session = some d) : Stored (fun _ => asciiEnv) d := by
  have hr := Defs.run_reach (fun r => ∀ m u ops src, r = .impl m u ops src → TextOf asciiEnv m u src) (fun _ => True) false Defs.base session Defs.base d .refl
    (by
      intro o ho r hr m u ops src e
      rcases List.mem_cons.1 ho with rfl | ho
      · rw [List.mem_singleton.1 hr] at e; cases e
      · rw [List.mem_singleton.1 ho] at hr
        rw [List.mem_singleton.1 hr] at e
        cases e
        exact textOk_ok (x := ("twice", some .num, "def twice Num () { * 2 }")) (by decide +kernel)) (fun _ _ _ _ => trivial) hd
  have key : ∀ n ty i, d.entry n ty = some i → AsciiText n ty i := by
    clear hd
    induction hr with
    | refl =>
      intro n ty i h
      have hb := base_entries h
      cases i with
      | definition l src => exact derived_texts (n, ty, src) (base_text hb)
      | intrinsic l fn => trivial
    | request hr _ ht hp ih =>
      refine entries_step hr (fun _ _ _ _ _ => trivial) hp ih fun m u ops src ty e hu => ?_
      show TextOf asciiEnv m _ src
      rw [hu]
      exact ht m u ops src e
    | clear hr _ ih => exact entries_clear hr ih _
  exact fun n ty loc src h => key n ty _ h

theorem compiled_eq {p : S Tab.Ty → Bool} {x : Option (Except Comp.Err (S Tab.Ty))} (h : compiled p x = true) : ∃ c, x = some (.ok c) ∧ p c = true := by
  unfold compiled at h
  split at h
  · rename_i c; exact ⟨c, rfl, h⟩
  · cases h

def started (p : Defs.Defs → Bool) : Option Defs.Defs → Bool
  | some d => p d
  | none => false

instance (n : String) : Decidable (Tuple.CleanName n) := by unfold Tuple.CleanName; infer_instance

def clearAt : String × Defs.TyEntry → Bool
  | (n, .def_ _) => decide (Tuple.CleanName n)
  | _ => true

theorem session_runs : started (fun d => runs asciiEnv d programText 66 && d.types.all clearAt)
    (Defs.run false Defs.base session) = true := by decide +kernel

/-- For C81: after this session, the program meets what the theorem assumes. It makes 66. -/
example : Parse.Laws asciiEnv ∧
    ∃ d rest x g s c, Defs.run false Defs.base session = some d ∧ Stored (fun _ => asciiEnv) d ∧ ClearTypes d ∧ Parse.expression asciiEnv programText.toList = .ok rest x ∧
      Short (defsOf (fun _ => asciiEnv) d) (readE x) ∧ LetsDiffer (defsOf (fun _ => asciiEnv) d) (readE x) "let" ∧ init (defsOf (fun _ => asciiEnv) d) (readE x) = .ok g ∧
      (∀ p t, intWorld.files p = some t → okRs (shapeOf d) t = true) ∧ (∀ p t, intWorld.openTab p = some t → okRs (shapeOf d) t = true) ∧
      (∀ op, okRs (shapeOf d) (intWorld.duration op) = true) ∧
      begins (ast (defsOf (fun _ => asciiEnv) d) (storedTypes d) (number (cmdsOf d)) g) (storedTypes d) g .nil [] [] = .ok s ∧
      compile (ast (defsOf (fun _ => asciiEnv) d) (storedTypes d) (number (cmdsOf d)) g)
        ((talks ((intWorld.typed d).on (cmdsOf d) g)).builtins (ast (defsOf (fun _ => asciiEnv) d) (storedTypes d) (number (cmdsOf d)) g)) id 200 0 s = some (.ok c) ∧
      Ready0 (exec ((intWorld.typed d).on (cmdsOf d) g) (ast (defsOf (fun _ => asciiEnv) d) (storedTypes d) (number (cmdsOf d)) g) (literal (fun x => digits x.toList) g))
        c [] (List.replicate c.slots.length .nil) ∧
      isNumber 66 (evalExpr (ast (defsOf (fun _ => asciiEnv) d) (storedTypes d) (number (cmdsOf d)) g)
        (exec ((intWorld.typed d).on (cmdsOf d) g) (ast (defsOf (fun _ => asciiEnv) d) (storedTypes d) (number (cmdsOf d)) g) (literal (fun x => digits x.toList) g))
        c c.steps.length 0 .nil (List.replicate c.slots.length .nil)) = true := by
  refine ⟨ascii_laws, ?_⟩
  have h := session_runs
  unfold started at h
  split at h
  · rename_i d hd
    obtain ⟨h, hc⟩ := Bool.and_eq_true_iff.1 h
    unfold runs at h
    split at h
    · rename_i rest x hx
      split at h
      · cases h
      · rename_i g hg
        split at h
        · cases h
        · rename_i s hs
          obtain ⟨h1, h2⟩ := Bool.and_eq_true_iff.1 h
          obtain ⟨c, h3, h4⟩ := compiled_eq h2
          obtain ⟨h5, h6⟩ := fine_ok h1
          refine ⟨d, rest, x, g, s, c, hd, session_texts hd, ?_, hx, h5, h6, hg, ?_, ?_, ?_, hs, h3, ⟨by simp, fun i hi => absurd hi (by simp)⟩, h4⟩
          · intro n td hn
            exact of_decide_eq_true (List.all_eq_true.1 hc _ (AMap.mem_of_get hn))
          · intro p t ht
            cases ht
            rfl
          · intro p t ht
            cases ht
          · intro op
            rfl
    · cases h
  · cases h

end Verif.Lang
