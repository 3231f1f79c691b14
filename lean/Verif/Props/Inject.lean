import Verif.Spec.Inject
import Verif.Lemmas.Slots
import Verif.Props.Meaning
/-! C93: comparing values. -/
namespace Verif.Lang
open Verif Verif.Exp Verif.Comp Verif.Prog
variable {N : Type} {Q : Site N} {W : World N}

/-- What it means that code was compiled. -/
theorem compile_some {text : String} {t u : Tab.Ty} {p : Inject} (h : Q.compile W text t u = some p) :
    ∃ rest x s, Parse.expression Q.k text.toList = .ok rest x ∧ init (defsOf Q.ks Q.d) (readE x) = .ok p.g ∧
      begins (Q.ast p.g) (storedTypes Q.d) p.g t [("rhs", t)] (Q.anon.map .anon) = .ok s ∧
      Comp.compile (Q.ast p.g) ((talks (Q.world W p.g)).builtins (Q.ast p.g)) Q.ord Q.fuel 0 s = some (.ok p.c) ∧ (p.c.tg.kn 0 .out).ty = some u := by
  unfold Site.compile at h
  split at h
  · rename_i rest x hx
    split at h
    · cases h
    · rename_i g hg
      split at h
      · cases h
      · rename_i s hs
        split at h
        · rename_i c hc
          split at h
          · rename_i hu
            cases h
            exact ⟨rest, x, s, hx, hg, hs, hc, hu⟩
          · cases h
        · cases h
  · cases h

/-- The variable is in the first place. -/
theorem compile_slot (hQ : Q.Ok) {text : String} (hp : Q.Plain text) {t u : Tab.Ty} {p : Inject} (h : Q.compile W text t u = some p) :
    p.c.slots[0]? = some t := by
  obtain ⟨rest, x, s, hx, hg, hs, hc, _⟩ := compile_some h
  obtain ⟨checked, os, hd⟩ := hQ.session
  have hr := Defs.run_reach (fun _ => True) (fun _ => True) checked Defs.base os Defs.base Q.d .refl (fun _ _ _ _ => trivial) (fun _ _ _ _ => trivial) hd
  have hw := Defs.reach_wf Defs.base_wf hr
  have hD := defs_from_text (K := Parse.Laws) hQ.laws hw hQ.stored
  obtain ⟨hwf, h1⟩ := programs_are_well_formed (Y := storedTypes Q.d) (fn := number (cmdsOf Q.d)) hg (filled_of_text (fun _ h => h) hD hQ.own hx) ["row"]
  obtain ⟨hst, _⟩ := h1 t [("rhs", t)] (Q.anon.map .anon) s (stored_nodup hr) hs
  have hrow : "row" ∈ graphNames (defsOf Q.ks Q.d) p.g ++ ["row"] := List.mem_append_right _ (List.mem_singleton.2 rfl)
  obtain ⟨l, hl⟩ := compile_longer hwf (talks_named _ hrow) hQ.ord (start_inv hst) hc
  have h0 : Longer (start (Q.ast p.g) (storedTypes Q.d) p.g t [("rhs", t)]) s := by
    unfold begins at hs
    split at hs
    · cases hs
    · split at hs
      · rename_i r hr
        cases hs
        exact applyAll_longer (s' := r.1) (b' := r.2) hr
      · cases hs
  obtain ⟨l', hl'⟩ := h0
  rw [hl, hl']
  rfl

theorem given_rhs {y : Tab.Value N} {l : List (Tab.Value N)} : given ["rhs"] (y :: l) = Vals.none.put "rhs" y := by
  funext k
  show ((given [] l).over _) k = _
  simp [given, Vals.over, Vals.none]

theorem env_first {p : Inject} {t : Tab.Ty} (h : p.c.slots[0]? = some t) (y : Tab.Value N) : ∃ l, p.env y = y :: l ∧ (∀ x ∈ l, x = .nil) := by
  unfold Inject.env
  cases hs : p.c.slots with
  | nil => rw [hs] at h; cases h
  | cons a as =>
    refine ⟨List.replicate as.length .nil, ?_, fun x hx => List.eq_of_mem_replicate hx⟩
    rfl

theorem env_ok {p : Inject} {t : Tab.Ty} (h : p.c.slots[0]? = some t) {y : Tab.Value N} {sh : String → Shape} (hy : okV sh y = true) :
    ∀ x ∈ p.env y, okV sh x = true := by
  obtain ⟨l, e, hl⟩ := env_first h y
  intro x hx
  rw [e] at hx
  rcases List.mem_cons.1 hx with rfl | hx
  · exact hy
  · rw [hl x hx]; rfl

theorem env_ready {p : Inject} {y : Tab.Value N} (h : p.c.slots[0]? = some y.ty) {lit : Nat → Tab.Value N} :
    Ready0 (exec (Q.world W p.g) (Q.ast p.g) lit) p.c ([("rhs", y.ty)].map (·.1)) (p.env y) := by
  refine ⟨by simp [Inject.env], fun i hi => ?_⟩
  have : i = 0 := by simpa using hi
  subst this
  obtain ⟨l, e, _⟩ := env_first h y
  exact ⟨y, by rw [e]; rfl, h⟩

/-- C93: after any session, code that was compiled for a type evaluates, on two well-formed values of the type, to what its text
says, and that is a value of the type it was compiled to return, or an error. -/
theorem injected_code_is_as_written_partial (hQ : Q.Ok) (hW : W.Fed Q.d) {text : String} (hp : Q.Plain text) {t u : Tab.Ty} {p : Inject}
    (h : Q.compile W text t u = some p) {x y : Tab.Value N} (hx : x.ty = t) (hy : y.ty = t) (hxo : okV (shapeOf Q.d) x = true)
    (hyo : okV (shapeOf Q.d) y = true) : Q.eval W p x y = Q.means W p x y ∧ Typed (shapeOf Q.d) u (Q.eval W p x y) := by
  have hslot := compile_slot hQ hp h
  obtain ⟨rest, e, s, he, hg, hs, hc, hu⟩ := compile_some h
  obtain ⟨checked, os, hd⟩ := hQ.session
  obtain ⟨hsh, hl, hwh⟩ := hp rest e he
  subst hy
  have hr := env_ready (Q := Q) (W := W) (lit := literal Q.num p.g) hslot
  constructor
  · have := sessions_evaluate_as_written_partial hd hQ.laws hQ.stored hQ.clear hQ.own he hsh hl hwh hg hW.files hW.opened hW.duration (num := Q.num)
      hQ.ord hs hc p.c.steps.length (Nat.le_refl _) x (p.env y) hx hxo (env_ok hslot hyo) hr
    obtain ⟨l, hl, _⟩ := env_first hslot y
    rw [hl] at this
    have e1 : given ([("rhs", y.ty)].map (·.1)) (y :: l) = Vals.none.put "rhs" y := given_rhs
    rw [e1, ← hl] at this
    unfold Site.means
    refine Eq.trans ?_ this.symm
    unfold Site.eval
    show _ = Res.value (evalExpr (Q.ast p.g) (exec (Q.world W p.g) (Q.ast p.g) (literal Q.num p.g)) p.c p.c.steps.length 0 x (p.env y))
    cases evalExpr (Q.ast p.g) (exec (Q.world W p.g) (Q.ast p.g) (literal Q.num p.g)) p.c p.c.steps.length 0 x (p.env y) <;> rfl
  · obtain ⟨u', h1, h2⟩ := sessions_run_safely_partial hd hQ.laws hQ.stored hQ.clear hQ.own he hsh hl hg hW.files hW.opened hW.duration (num := Q.num)
      hQ.ord hs hc
    have := h2 p.c.steps.length (Nat.le_refl _) x (p.env y) hx hxo (env_ok hslot hyo) hr
    have e : u' = u := by
      have := ty_of_settled h1
      rw [hu] at this
      exact (Option.some.inj this).symm
    subst e
    unfold Site.eval
    revert this
    show Sound _ _ (evalExpr (Q.ast p.g) (exec (Q.world W p.g) (Q.ast p.g) (literal Q.num p.g)) p.c p.c.steps.length 0 x (p.env y)) → _
    cases evalExpr (Q.ast p.g) (exec (Q.world W p.g) (Q.ast p.g) (literal Q.num p.g)) p.c p.c.steps.length 0 x (p.env y) <;> exact id

/-- A well-formed value of the type `Ord`. -/
theorem ord_value {d : Defs.Defs} (ho : shapeOf d "Ord" = .sum [[], [], []]) {v : Tab.Value N} (ht : v.ty = ordTy) (hv : okV (shapeOf d) v = true) :
    v = ordVal (ordOf v) := by
  cases v with
  | ogma t k vs =>
    cases ht
    simp only [okV, Bool.and_eq_true, decide_eq_true_eq, ho, Shape.fields] at hv
    obtain ⟨_, hv⟩ := hv
    match k, hv with
    | 0, hv => cases vs with
      | nil => rfl
      | cons => cases hv
    | 1, hv => cases vs with
      | nil => rfl
      | cons => cases hv
    | 2, hv => cases vs with
      | nil => rfl
      | cons => cases hv
    | k + 3, hv => cases hv
  | _ => cases ht

theorem bool_value {v : Tab.Value N} (ht : v.ty = .bool) : v = .bool (boolOf v) := by
  cases v <;> first | rfl | cases ht

theorem ord_shape (hQ : Q.Ok) (hW : W.Fed Q.d) : shapeOf Q.d "Ord" = .sum [[], [], []] := by
  obtain ⟨checked, os, hd⟩ := hQ.session
  exact (typed_ok hd hQ.clear hW.files hW.opened hW.duration).ord

/-- The value of code that returns `Ord`. -/
theorem ord_result (hQ : Q.Ok) (hW : W.Fed Q.d) {text : String} (hp : Q.Plain text) {t : Tab.Ty} {p : Inject} (h : Q.compile W text t ordTy = some p)
    {x y : Tab.Value N} (hx : x.ty = t) (hy : y.ty = t) (hxo : okV (shapeOf Q.d) x = true) (hyo : okV (shapeOf Q.d) y = true) :
    (∃ o, Q.means W p x y = .ok (ordVal o) ∧ resTo ordOf (Q.eval W p x y) = some o) ∨ (Q.means W p x y = .err ∧ resTo ordOf (Q.eval W p x y) = none) := by
  obtain ⟨h1, h2⟩ := injected_code_is_as_written_partial hQ hW hp h hx hy hxo hyo
  rw [← h1]
  revert h2
  cases Q.eval W p x y with
  | ok v => exact fun h2 => .inl ⟨ordOf v, by rw [← ord_value (ord_shape hQ hW) h2.1 h2.2], rfl⟩
  | err => exact fun _ => .inr ⟨rfl, rfl⟩
  | stuck => exact fun h => h.elim
  | more => exact fun h => h.elim

/-- **C93**, for `sort-by` and `grp-by`: if they accept keys of a type, two keys are ordered as the text `cmp $rhs` says of them, with the
definitions in force; and where this is an error, the comparison is one. -/
theorem keys_compare_as_written_partial (hQ : Q.Ok) (hW : W.Fed Q.d) (hp : Q.Plain "cmp $rhs") {u : Tab.Ty} (h : (Q.deeper W).orders u = true) :
    ∃ p, Q.compile W "cmp $rhs" u ordTy = some p ∧ ∀ a b : Tab.Value N, a.ty = u → b.ty = u → okV (shapeOf Q.d) a = true → okV (shapeOf Q.d) b = true →
      (∃ o, Q.means W p a b = .ok (ordVal o) ∧ (Q.deeper W).order u a b = some o) ∨ (Q.means W p a b = .err ∧ (Q.deeper W).order u a b = none) := by
  obtain ⟨p, hc⟩ := Option.isSome_iff_exists.1 h
  refine ⟨p, hc, fun a b ha hb hao hbo => ?_⟩
  have : (Q.deeper W).order u a b = resTo ordOf (Q.eval W p a b) := by
    show (Q.compile W cmpText u ordTy).bind _ = _
    rw [hc]; rfl
  rw [this]
  exact ord_result hQ hW hp hc ha hb hao hbo

/-- **C93**, for `cmp` of tuples: if it is accepted, its result is that of the text made for the number of elements. -/
theorem tuples_compare_as_written_partial (hQ : Q.Ok) (hW : W.Fed Q.d) {name : String} {n : Nat} (hn : elsOf (shapeOf Q.d name) = n)
    (hp : Q.Plain (tupleCmpText n)) {f : Tab.Value N → Tab.Value N → Option Ordering} (h : (Q.deeper W).tupCmp name = some f) :
    ∃ p, Q.compile W (tupleCmpText n) (.def_ name) ordTy = some p ∧ ∀ a b : Tab.Value N, a.ty = .def_ name → b.ty = .def_ name →
      okV (shapeOf Q.d) a = true → okV (shapeOf Q.d) b = true →
      (∃ o, Q.means W p a b = .ok (ordVal o) ∧ f a b = some o) ∨ (Q.means W p a b = .err ∧ f a b = none) := by
  subst hn
  obtain ⟨p, hc, rfl⟩ := Option.map_eq_some_iff.1 h
  exact ⟨p, hc, fun a b ha hb hao hbo => ord_result hQ hW hp hc ha hb hao hbo⟩

/-- **C93**, for `eq` of tuples. -/
theorem tuples_equal_as_written_partial (hQ : Q.Ok) (hW : W.Fed Q.d) {name : String} {n : Nat} (hn : elsOf (shapeOf Q.d name) = n)
    (hp : Q.Plain (tupleEqText n)) {f : Tab.Value N → Tab.Value N → Option Bool} (h : (Q.deeper W).tupEq name = some f) :
    ∃ p, Q.compile W (tupleEqText n) (.def_ name) .bool = some p ∧ ∀ a b : Tab.Value N, a.ty = .def_ name → b.ty = .def_ name →
      okV (shapeOf Q.d) a = true → okV (shapeOf Q.d) b = true →
      (∃ c, Q.means W p a b = .ok (.bool c) ∧ f a b = some c) ∨ (Q.means W p a b = .err ∧ f a b = none) := by
  subst hn
  obtain ⟨p, hc, rfl⟩ := Option.map_eq_some_iff.1 h
  refine ⟨p, hc, fun a b ha hb hao hbo => ?_⟩
  obtain ⟨h1, h2⟩ := injected_code_is_as_written_partial hQ hW hp hc ha hb hao hbo
  rw [← h1]
  show (∃ c, _ ∧ resTo boolOf (Q.eval W p a b) = some c) ∨ (_ ∧ resTo boolOf (Q.eval W p a b) = none)
  revert h2
  cases Q.eval W p a b with
  | ok v => exact fun h2 => .inl ⟨boolOf v, by rw [← bool_value h2.1], rfl⟩
  | err => exact fun _ => .inr ⟨rfl, rfl⟩
  | stuck => exact fun h => h.elim
  | more => exact fun h => h.elim

/-- The surroundings in which code is compiled provide the same tables. -/
theorem deep_fed {d : Defs.Defs} (h : W.Fed d) : ∀ n, (Q.deep W n).Fed d
  | 0 => h
  | n + 1 => ⟨(deep_fed h n).files, (deep_fed h n).opened, (deep_fed h n).duration⟩

/-! ### Cases -/

/-- The commands of the session, and these. -/
def envWith (more : List String) : Parse.Env := { asciiEnv with known := fun s => knownNames.contains s || (more.map String.toList).contains s }

theorem envWith_laws (more : List String) : Parse.Laws (envWith more) := ⟨ascii_laws.alnum, ascii_laws.punct, ascii_laws.num⟩

def siteOf (more : List String) (d : Defs.Defs) : Site Int :=
  ⟨fun _ => asciiEnv, d, envWith more, fun x => digits x.toList, id, 200, [.def_ "U_Num-Num_"]⟩

def pair (a b : Int) : Tab.Value Int := .ogma "U_Num-Num_" 0 [.num a, .num b]

/-- Whether `cmp` of pairs of numbers compiles, with this outcome for these. -/
def pairCmp (more : List String) (d : Defs.Defs) (p : (Tab.Value Int → Tab.Value Int → Option Ordering) → Bool) : Bool :=
  (((siteOf more d).deep intWorld 1).tupCmp "U_Num-Num_").any p

def pairEq (more : List String) (d : Defs.Defs) (p : (Tab.Value Int → Tab.Value Int → Option Bool) → Bool) : Bool :=
  (((siteOf more d).deep intWorld 1).tupEq "U_Num-Num_").any p

/-- Whether the text meets what C93 assumes of it. -/
def plainText (Q : Site Int) (text : String) : Bool :=
  match Parse.expression Q.k text.toList with
  | .ok _ x => fine (defsOf Q.ks Q.d) 9 (readE x) && free (defsOf Q.ks Q.d) "fold-while" 9 (readE x)
  | _ => true

theorem plainText_ok {Q : Site Int} {text : String} (h : plainText Q text = true) : Q.Plain text := by
  intro rest x hx
  unfold plainText at h
  rw [hx] at h
  obtain ⟨h1, h2⟩ := Bool.and_eq_true_iff.1 h
  exact ⟨(fine_ok h1).1, (fine_ok h1).2, free_ok h2⟩

theorem siteOf_ok {more : List String} {d : Defs.Defs} {os : List Defs.Op} (h : Defs.run false Defs.base os = some d) (hs : Stored (fun _ => asciiEnv) d)
    (hc : d.types.all clearAt = true) : (siteOf more d).Ok where
  session := ⟨_, _, h⟩
  laws _ := ascii_laws
  stored := hs
  clear n td hn := of_decide_eq_true (List.all_eq_true.1 hc _ (AMap.mem_of_get hn))
  own := envWith_laws more
  ord _ _ h := h

theorem intWorld_fed (d : Defs.Defs) : intWorld.Fed d := ⟨fun p t ht => (by cases ht; rfl), fun p t ht => (by cases ht), fun _ => rfl⟩

theorem pairs_meet : started (fun d => d.types.all clearAt && (plainText (siteOf [] d) (tupleCmpText 2) && (plainText (siteOf [] d) (tupleEqText 2) &&
    (decide (elsOf (shapeOf d "U_Num-Num_") = 2) && (okV (shapeOf d) (pair 1 2) && okV (shapeOf d) (pair 1 3))))))
    (Defs.run false Defs.base session) = true := by decide +kernel

theorem pairs_compared : started (fun d => pairCmp [] d fun f => f (pair 1 2) (pair 1 3) == some .lt) (Defs.run false Defs.base session) = true := by
  decide +kernel

theorem pairs_equal : started (fun d => pairEq [] d fun f => f (pair 1 2) (pair 1 2) == some true) (Defs.run false Defs.base session) = true := by
  decide +kernel

/-- For C93: after the session of C81, `cmp` and `eq` of pairs of numbers meet what the theorems assume. -/
example : ∃ d, Defs.run false Defs.base session = some d ∧ (siteOf [] d).Ok ∧ intWorld.Fed (siteOf [] d).d ∧ elsOf (shapeOf (siteOf [] d).d "U_Num-Num_") = 2 ∧
    (siteOf [] d).Plain (tupleCmpText 2) ∧ (siteOf [] d).Plain (tupleEqText 2) ∧ okV (shapeOf (siteOf [] d).d) (pair 1 2) = true ∧
    okV (shapeOf (siteOf [] d).d) (pair 1 3) = true ∧
    (∃ f, ((siteOf [] d).deeper intWorld).tupCmp "U_Num-Num_" = some f ∧ f (pair 1 2) (pair 1 3) = some .lt) ∧
    ∃ f, ((siteOf [] d).deeper intWorld).tupEq "U_Num-Num_" = some f ∧ f (pair 1 2) (pair 1 2) = some true := by
  obtain ⟨d, hd, h⟩ := started_eq pairs_meet
  obtain ⟨d', hd', h7⟩ := started_eq pairs_compared
  obtain ⟨d'', hd'', h8⟩ := started_eq pairs_equal
  have e' := Option.some.inj (hd'.symm.trans hd); subst e'
  have e'' := Option.some.inj (hd''.symm.trans hd); subst e''
  simp only [Bool.and_eq_true, decide_eq_true_eq] at h
  obtain ⟨h1, h2, h3, h4, h5, h6⟩ := h
  obtain ⟨f, h9, h10⟩ := (Option.any_eq_true _ _).1 h7
  obtain ⟨f', h11, h12⟩ := (Option.any_eq_true _ _).1 h8
  exact ⟨_, hd, siteOf_ok hd (session_texts hd) h1, intWorld_fed _, h4, plainText_ok h2, plainText_ok h3, h5, h6, ⟨f, h9, eq_of_beq h10⟩, f', h11, eq_of_beq h12⟩

/-- `def cmp Pt (rhs:Pt) { get x | cmp $rhs.x }`. -/
def cmpSession : List Defs.Op := session ++ [.shell (.impl "cmp" (some "Pt") ["get", "cmp", "."] "def cmp Pt (rhs:Pt) { get x | cmp $rhs.x }")]

def point (x y : Int) : Tab.Value Int := .ogma "Pt" 0 [.num x, .num y]

theorem points_compared : started (fun d => ((siteOf [] d).deep intWorld 1).order (.def_ "Pt") (point 1 5) (point 2 3) == some .lt)
    (Defs.run false Defs.base cmpSession) = true := by decide +kernel

theorem points_refused : started (fun d => !((siteOf [] d).deep intWorld 1).orders (.def_ "Pt")) (Defs.run false Defs.base session) = true := by decide +kernel

/-- The keys of `sort-by` and `grp-by` are compared by the `cmp` that is defined for their type; without one they are refused. -/
theorem user_cmp_orders_keys :
    (∃ d, Defs.run false Defs.base cmpSession = some d ∧ ((siteOf [] d).deeper intWorld).order (.def_ "Pt") (point 1 5) (point 2 3) = some .lt) ∧
    ∃ d, Defs.run false Defs.base session = some d ∧ ((siteOf [] d).deeper intWorld).orders (.def_ "Pt") = false := by
  obtain ⟨d, hd, h⟩ := started_eq points_compared
  obtain ⟨d', hd', h'⟩ := started_eq points_refused
  exact ⟨⟨d, hd, eq_of_beq h⟩, d', hd', (Bool.not_eq_true' _ ▸ h' : ((siteOf [] d').deep intWorld 1).orders (.def_ "Pt") = false)⟩

/-- `def != Ord (rhs:Ord) { \ #f }`. -/
def neSession : List Defs.Op := session ++ [.shell (.impl "!=" (some "Ord") ["\\"] "def != Ord (rhs:Ord) { \\ #f }")]

/-- `def t0 () { \ 1 }`. -/
def t0Session : List Defs.Op := session ++ [.shell (.impl "t0" none ["\\"] "def t0 () { \\ 1 }")]

theorem pairs_spoilt : started (fun d => pairCmp [] d fun f => f (pair 2 2) (pair 1 3) == some .lt) (Defs.run false Defs.base neSession) = true := by
  decide +kernel

theorem element_read : started (fun d => ((siteOf [] d).compile intWorld "get t0" (.def_ "U_Num-Num_") .num).isSome) (Defs.run false Defs.base session) = true := by
  decide +kernel

theorem element_lost : started (fun d => ((siteOf ["t0"] d).compile intWorld "get t0" (.def_ "U_Num-Num_") .num).isNone) (Defs.run false Defs.base t0Session) = true := by
  decide +kernel

/-- The text made for tuples is read with the commands that are defined (`cmp.rs:169`, `:394`, `eng/eval.rs:129-131`). With `!=` defined for
`Ord`, (2, 2) comes before (1, 3). -/
theorem definitions_change_tuples : ∃ d, Defs.run false Defs.base neSession = some d ∧
    ∃ f, ((siteOf [] d).deeper intWorld).tupCmp "U_Num-Num_" = some f ∧ f (pair 2 2) (pair 1 3) = some .lt := by
  obtain ⟨d, hd, h⟩ := started_eq pairs_spoilt
  obtain ⟨f, h3, h4⟩ := (Option.any_eq_true _ _).1 h
  exact ⟨d, hd, f, h3, eq_of_beq h4⟩

/-- `get t0`, which that text contains, stops compiling once there is a command `t0`. -/
theorem definitions_hide_elements :
    (∃ d, Defs.run false Defs.base session = some d ∧ ((siteOf [] d).compile intWorld "get t0" (.def_ "U_Num-Num_") .num).isSome = true) ∧
    ∃ d, Defs.run false Defs.base t0Session = some d ∧ (siteOf ["t0"] d).compile intWorld "get t0" (.def_ "U_Num-Num_") .num = none := by
  obtain ⟨d, hd, h⟩ := started_eq element_read
  obtain ⟨d', hd', h'⟩ := started_eq element_lost
  exact ⟨⟨d, hd, h⟩, d', hd', Option.isNone_iff_eq_none.1 h'⟩

end Verif.Lang
