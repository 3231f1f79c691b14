import Verif.Lemmas.CompRank
/-! What changes do to the measure and to what holds throughout compiling. -/
namespace Verif.Comp
open Verif
set_option linter.unusedSectionVars false
variable {T : Type} [DecidableEq T]

/-! ### Locals -/

/-- A name is defined at the place itself. -/
def DefinedAt (l : Loc.State) (p : Loc.Node) (k : String) : Prop := ∃ x, l.maps p k = some x ∧ x.defined = p

instance (l : Loc.State) (p : Loc.Node) (k : String) : Decidable (DefinedAt l p k) :=
  match h : l.maps p k with
  | none => isFalse (by rintro ⟨x, hx, _⟩; rw [h] at hx; cases hx)
  | some x => if e : x.defined = p then isTrue ⟨x, h, e⟩ else isFalse (by
      rintro ⟨y, hy, hd⟩; rw [h] at hy; cases hy; exact e hd)

theorem newVar_none {l : Loc.State} {p : Loc.Node} {k : String} (h : Loc.newVar l p k = none) : ¬ DefinedAt l p k := by
  rintro ⟨x, hx, hd⟩
  simp [Loc.newVar, hx, hd] at h

theorem flowLoop_keeps (nodes : List Loc.Node) (p : Loc.Node) (k : String) (x : Loc.Loc) (hd : x.defined = p) :
    ∀ (f : Nat) (st : List (Loc.Node × Loc.Node)) (m : Loc.Node → Loc.Map), m p k = some x →
      Loc.flowLoop nodes f st m p k = some x
  | 0, _, _, h => h
  | _ + 1, [], _, h => h
  | f + 1, (a, b) :: st, m, h => by
    refine flowLoop_keeps nodes p k x hd f _ _ ?_
    simp only [Loc.setMap]
    split
    · rename_i e
      subst e
      simp only [Loc.accrete, h]
      cases m a k <;> simp [hd]
    · exact h

theorem define_defined (l : Loc.State) (name : String) (x : Loc.Local) (n p : Loc.Node) (k : String)
    (h : DefinedAt l p k ∨ (p = n ∧ k = name)) :
    ∃ y, (Loc.define l name x n).maps p k = some y ∧ y.defined = p := by
  simp only [Loc.define, Loc.setMap]
  by_cases e : p = n
  · subst e
    rw [if_pos rfl]
    by_cases e' : k = name
    · rw [if_pos e']; exact ⟨_, rfl, rfl⟩
    · rw [if_neg e']
      rcases h with ⟨y, hy, hd⟩ | ⟨_, h⟩
      · exact ⟨y, hy, hd⟩
      · exact absurd h e'
  · rw [if_neg e]
    rcases h with ⟨y, hy, hd⟩ | ⟨h, _⟩
    · exact ⟨y, hy, hd⟩
    · exact absurd h e

/-- Definitions stay, and a new one is there. -/
theorem apply_defined (nodes : List Loc.Node) (l : Loc.State) (c : Loc.Chg) (p : Loc.Node) (k : String)
    (h : DefinedAt l p k ∨ (p, k) ∈ Loc.Chg.defs c) : DefinedAt (Loc.apply nodes l c) p k := by
  cases c with
  | newVar name n =>
    obtain ⟨y, hy, hd⟩ := define_defined l name (.var l.count) n p k (by simpa [Loc.Chg.defs] using h)
    exact ⟨y, flowLoop_keeps nodes p k y hd _ _ _ hy, hd⟩
  | newLazy name to n =>
    obtain ⟨y, hy, hd⟩ := define_defined l name (.ptr to) n p k (by simpa [Loc.Chg.defs] using h)
    exact ⟨y, flowLoop_keeps nodes p k y hd _ _ _ hy, hd⟩
  | «seal» op => rcases h with h | h
                 · exact h
                 · simp [Loc.Chg.defs] at h
  | breakEdge op arg => rcases h with h | h
                        · exact h
                        · simp [Loc.Chg.defs] at h
  | sealExpr e => rcases h with h | h
                  · exact h
                  · simp [Loc.Chg.defs] at h

theorem apply_locals (nodes : List Loc.Node) (l : Loc.State) (c : Loc.Chg) (x : Loc.Local) (h : x ∈ l.locals) :
    x ∈ (Loc.apply nodes l c).locals := by
  cases c <;> simp [Loc.apply, Loc.addVar, Loc.define, h]

theorem apply_ptr {nodes : List Loc.Node} {l : Loc.State} {c : Loc.Chg} {p : Loc.Node}
    (h : Loc.Local.ptr p ∈ (Loc.apply nodes l c).locals) : Loc.Local.ptr p ∈ l.locals ∨ ∃ name n, c = .newLazy name p n := by
  cases c <;> simp [Loc.apply, Loc.addVar, Loc.define] at h <;> first
    | exact .inl h
    | (rcases h with h | h
       · exact .inl h
       · subst h; exact .inr ⟨_, _, rfl⟩)

def unsealed (ps : List Loc.Node) (l : Loc.State) : Nat := (ps.filter fun p => !l.isSealed p).length

def sealSum : List Loc.Node → Loc.State → Nat
  | [], _ => 0
  | p :: ps, l => (l.seals p).length + sealSum ps l

def undef (ps : List Loc.Node) (names : List String) (l : Loc.State) : Nat :=
  ((ps.flatMap fun p => names.map fun k => (p, k)).filter fun x => !decide (DefinedAt l x.1 x.2)).length

/-- The blocks that are open, the edges to ask over, the variables not defined. -/
def locM (ps : List Loc.Node) (names : List String) (l : Loc.State) : Nat := unsealed ps l + sealSum ps l + undef ps names l

theorem sealSum_le {ps : List Loc.Node} {l l' : Loc.State} (h : ∀ p, (l'.seals p).length ≤ (l.seals p).length) :
    sealSum ps l' ≤ sealSum ps l := by
  induction ps with
  | nil => exact Nat.le_refl _
  | cons p ps ih => have := h p; simp only [sealSum]; omega

theorem sealSum_lt {ps : List Loc.Node} {l l' : Loc.State} (h : ∀ p, (l'.seals p).length ≤ (l.seals p).length) {p : Loc.Node}
    (hp : p ∈ ps) (hlt : (l'.seals p).length < (l.seals p).length) : sealSum ps l' < sealSum ps l := by
  induction ps with
  | nil => cases hp
  | cons q ps ih =>
    have h1 := h q
    have h2 := sealSum_le (ps := ps) h
    simp only [sealSum]
    rcases List.mem_cons.1 hp with e | hp
    · subst e; omega
    · have := ih hp; omega

theorem undef_le {ps : List Loc.Node} {names : List String} {l l' : Loc.State} (h : ∀ p k, DefinedAt l p k → DefinedAt l' p k) :
    undef ps names l' ≤ undef ps names l := by
  refine (Ty.filter_shrinks _ _ _ ?_).1
  intro x hx
  simp only [Bool.not_eq_true', decide_eq_false_iff_not] at *
  exact fun h' => hx (h _ _ h')

theorem undef_lt {ps : List Loc.Node} {names : List String} {l l' : Loc.State} (h : ∀ p k, DefinedAt l p k → DefinedAt l' p k)
    {p : Loc.Node} {k : String} (hp : p ∈ ps) (hk : k ∈ names) (h1 : ¬ DefinedAt l p k) (h2 : DefinedAt l' p k) :
    undef ps names l' < undef ps names l := by
  refine (Ty.filter_shrinks _ _ _ ?_).2 ⟨(p, k), ?_, by simpa using h1, by simpa using h2⟩
  · intro x hx
    simp only [Bool.not_eq_true', decide_eq_false_iff_not] at *
    exact fun h' => hx (h _ _ h')
  · simp [hp, hk]

theorem apply_unsealed (ps nodes : List Loc.Node) (l : Loc.State) (c : Loc.Chg) :
    unsealed ps (Loc.apply nodes l c) ≤ unsealed ps l := by
  refine (Ty.filter_shrinks _ _ _ ?_).1
  intro x hx
  cases c <;> simp [Loc.apply, Loc.addVar, Loc.define] at * <;> first | exact hx | exact hx.2

theorem apply_seals (nodes : List Loc.Node) (l : Loc.State) (c : Loc.Chg) (p : Loc.Node) :
    ((Loc.apply nodes l c).seals p).length ≤ (l.seals p).length := by
  cases c <;> simp only [Loc.apply, Loc.addVar, Loc.define, Nat.le_refl]
  split
  · exact List.length_filter_le _ _
  · exact Nat.le_refl _

theorem apply_locM (ps : List Loc.Node) (names : List String) (nodes : List Loc.Node) (l : Loc.State) (c : Loc.Chg) :
    locM ps names (Loc.apply nodes l c) ≤ locM ps names l := by
  have h1 := apply_unsealed ps nodes l c
  have h2 := sealSum_le (ps := ps) fun p => apply_seals nodes l c p
  have h3 := undef_le (ps := ps) (names := names) fun p k h => apply_defined nodes l c p k (.inl h)
  simp only [locM]; omega

theorem seal_locM {ps : List Loc.Node} (names : List String) (nodes : List Loc.Node) (l : Loc.State) {p : Loc.Node} (hp : p ∈ ps)
    (h : l.isSealed p = false) : locM ps names (Loc.apply nodes l (.seal p)) < locM ps names l := by
  have h1 : unsealed ps (Loc.apply nodes l (.seal p)) < unsealed ps l := by
    refine (Ty.filter_shrinks _ _ _ ?_).2 ⟨p, hp, by simp [h], by simp [Loc.apply]⟩
    intro x hx
    simp [Loc.apply] at *
    exact hx.2
  have h2 := sealSum_le (ps := ps) fun q => apply_seals nodes l (.seal p) q
  have h3 := undef_le (ps := ps) (names := names) fun q k h => apply_defined nodes l (.seal p) q k (.inl h)
  simp only [locM]; omega

theorem break_locM {ps : List Loc.Node} (names : List String) (nodes : List Loc.Node) (l : Loc.State) {op p : Loc.Node} (hp : p ∈ ps)
    (h : op ∈ l.seals p) : locM ps names (Loc.apply nodes l (.breakEdge op p)) < locM ps names l := by
  have h1 := apply_unsealed ps nodes l (.breakEdge op p)
  have h2 : sealSum ps (Loc.apply nodes l (.breakEdge op p)) < sealSum ps l := by
    refine sealSum_lt (fun q => apply_seals nodes l _ q) hp ?_
    simp only [Loc.apply, if_pos]
    have := List.length_filter_lt_length_iff_exists (p := fun x => decide (x ≠ op)) (l := l.seals p)
    exact this.2 ⟨op, h, by simp⟩
  have h3 := undef_le (ps := ps) (names := names) fun q k h => apply_defined nodes l (.breakEdge op p) q k (.inl h)
  simp only [locM]; omega

/-! ### The measure -/

def pointed (A : Ast T) (l : Loc.State) (n : Nat) : Bool := decide (Loc.Local.ptr (A.place n) ∈ l.locals)

/-- Which points become known: the inputs of definitions and of arguments passed on, and the outputs of blocks. -/
def kind (A : Ast T) (l : Loc.State) (n : Nat) : Ty.Side → Bool
  | .inp => decide (n ∈ A.bodies) || pointed A l n
  | .out => decide (n ∈ A.ops)

def unpointed (A : Ast T) (l : Loc.State) (n : Nat) : Nat := if pointed A l n then 0 else 2

def cost (A : Ast T) (s : S T) (n : Nat) : Nat :=
  rank (kind A s.lg n .inp) (s.tg.kn n .inp) + rank (kind A s.lg n .out) (s.tg.kn n .out) + unpointed A s.lg n

def M2 (A : Ast T) (names : List String) (s : S T) : Nat :=
  total A.count (cost A s) + edgeM A.count s.tg + locM A.places names s.lg

/-- How a state compares to an earlier one, if the changes so far were asked for in the earlier one; `b`: whether
anything changed. -/
structure Rel (A : Ast T) (names : List String) (s0 s : S T) (b : Bool) : Prop where
  pts : ∀ n, n < A.count → ∀ sd, Good (kind A s0.lg n sd) (s0.tg.kn n sd) (s.tg.kn n sd)
  locals : ∀ x ∈ s0.lg.locals, x ∈ s.lg.locals
  defined : ∀ p k, DefinedAt s0.lg p k → DefinedAt s.lg p k
  edge : edgeM A.count s.tg ≤ edgeM A.count s0.tg
  loc : locM A.places names s.lg ≤ locM A.places names s0.lg
  strict : b = true → (∃ n, n < A.count ∧ ∃ sd, s.tg.kn n sd ≠ s0.tg.kn n sd) ∨ edgeM A.count s.tg < edgeM A.count s0.tg ∨
    locM A.places names s.lg < locM A.places names s0.lg
  same : b = false → ∀ p k, DefinedAt s.lg p k → DefinedAt s0.lg p k

theorem Rel.refl (A : Ast T) (names : List String) (s : S T) : Rel A names s s false :=
  ⟨fun _ _ _ => .inl rfl, fun _ h => h, fun _ _ h => h, Nat.le_refl _, Nat.le_refl _, fun h => (by cases h), fun _ _ _ h => h⟩

theorem kind_cost {A : Ast T} {l0 l : Loc.State} (h : ∀ x ∈ l0.locals, x ∈ l.locals) (n : Nat) (k : Ty.Kn T) :
    rank (kind A l n .inp) k + unpointed A l n ≤ rank (kind A l0 n .inp) k + unpointed A l0 n := by
  unfold unpointed
  by_cases h0 : pointed A l0 n = true
  · have h1 : pointed A l n = true := by simp only [pointed, decide_eq_true_eq] at *; exact h _ h0
    simp [kind, h0, h1]
  · by_cases h1 : pointed A l n = true
    · have := rank_kind (kind A l n .inp) (kind A l0 n .inp) k
      rw [if_pos h1, if_neg h0]; omega
    · rw [if_neg h1, if_neg h0]
      have : kind A l n .inp = kind A l0 n .inp := by simp [kind, Bool.eq_false_iff.2 h0, Bool.eq_false_iff.2 h1]
      rw [this]; omega

theorem Rel.cost_le {A : Ast T} {names : List String} {s0 s : S T} {b : Bool} (h : Rel A names s0 s b) (n : Nat) (hn : n < A.count) :
    cost A s n ≤ cost A s0 n := by
  have h1 := (h.pts n hn .inp).le
  have h2 := (h.pts n hn .out).le
  have h3 := kind_cost (A := A) h.locals n (s.tg.kn n .inp)
  have h4 : kind A s.lg n .out = kind A s0.lg n .out := rfl
  simp only [cost]
  rw [h4]; omega

theorem Rel.cost_lt {A : Ast T} {names : List String} {s0 s : S T} {b : Bool} (h : Rel A names s0 s b) (n : Nat) (hn : n < A.count)
    (sd : Ty.Side) (hne : s.tg.kn n sd ≠ s0.tg.kn n sd) : cost A s n < cost A s0 n := by
  have h1 := (h.pts n hn .inp).le
  have h2 := (h.pts n hn .out).le
  have h3 := kind_cost (A := A) h.locals n (s.tg.kn n .inp)
  have h4 : kind A s.lg n .out = kind A s0.lg n .out := rfl
  have h5 : rank (kind A s0.lg n sd) (s.tg.kn n sd) < rank (kind A s0.lg n sd) (s0.tg.kn n sd) := by
    rcases h.pts n hn sd with e | ⟨_, h⟩
    · exact absurd e hne
    · exact h
  simp only [cost]
  rw [h4]
  cases sd <;> omega

theorem Rel.m2 {A : Ast T} {names : List String} {s0 s : S T} {b : Bool} (h : Rel A names s0 s b) :
    M2 A names s ≤ M2 A names s0 ∧ (b = true → M2 A names s < M2 A names s0) := by
  have h1 := total_le fun n hn => h.cost_le n hn
  have h2 := h.edge
  have h3 := h.loc
  refine ⟨by simp only [M2]; omega, fun hb => ?_⟩
  rcases h.strict hb with ⟨n, hn, sd, hne⟩ | h4 | h4
  · have := total_lt (fun n hn => h.cost_le n hn) n hn (h.cost_lt n hn sd hne)
    simp only [M2]; omega
  · simp only [M2]; omega
  · simp only [M2]; omega

/-! ### Changes -/

/-- The path through the block is a definition. -/
def Fixed (A : Ast T) (s : S T) (op : Nat) : Prop :=
  (∃ k d, A.cmds op = [(k, .defn d)]) ∨ ∃ t d, Ty.Settled (s.tg.kn op .inp) t ∧ A.getImpl op t = some (.defn d)

/-- A change asked for in the state `s0`. -/
inductive Valid (A : Ast T) (names : List String) (s0 : S T) : Chg T → Prop
  | known {n : Nat} {sd : Ty.Side} {t : T} (hn : n < A.count)
      (hk : kind A s0.lg n sd = true ∨ (s0.tg.kn n sd).isMultiple = true) : Valid A names s0 (.ty (.known n sd t))
  | oblige {n : Nat} {sd : Ty.Side} {t : T} (hn : n < A.count)
      (hk : kind A s0.lg n sd = false ∨ (s0.tg.kn n sd).isMultiple = true) : Valid A names s0 (.ty (.oblige n sd t))
  | any {n : Nat} (hn : n < A.count) (hl : n ∈ A.lits) : Valid A names s0 (.ty (.anyInput n))
  | edge {e : Ty.Edge} (h1 : e.src < A.count) (h2 : e.dst < A.count) (hl : e.dst ∈ A.lits) : Valid A names s0 (.ty (.addEdge e))
  | var {name : String} {t : T} {n : Nat} (hn : n < A.count) (hk : name ∈ names) (hd : ¬ DefinedAt s0.lg (A.place n) name) :
      Valid A names s0 (.var name t n)
  | lzy {name : String} {to n op : Nat} (hn : n < A.count) (hk : name ∈ names) (hd : ¬ DefinedAt s0.lg (A.place n) name)
      (ho : op ∈ A.ops) (ha : to ∈ A.args op) (hf : Fixed A s0 op) : Valid A names s0 (.lzy name to n)
  | sealOp {n : Nat} (hn : n < A.count) (hb : ∀ d ∈ A.defs, A.place (A.body d) ≠ A.place n) : Valid A names s0 (.sealOp n)
  | breakEdge {op a : Nat} (ha : a < A.count) (hp : ∃ i, A.place a = .arg i :: A.place op) : Valid A names s0 (.breakEdge op a)

theorem place_mem {A : Ast T} {n : Nat} (h : n < A.count) : A.place n ∈ A.places := by
  simp only [Ast.place, Ast.count] at *
  rw [List.getElem?_eq_getElem h]
  exact List.getElem_mem h

/-- Setting a point. -/
theorem rel_set {A : Ast T} {names : List String} {s0 s : S T} {b : Bool} (h : Rel A names s0 s b) {n : Nat} {sd : Ty.Side} {k : Ty.Kn T}
    (hn : n < A.count) (hg : Good (kind A s0.lg n sd) (s0.tg.kn n sd) k) (hne : k ≠ s0.tg.kn n sd) (b' : Bool) :
    Rel A names s0 { s with tg := s.tg.set n sd k } (b || b') := by
  refine ⟨?_, h.locals, h.defined, ?_, h.loc, fun _ => .inl ⟨n, hn, sd, ?_⟩, fun hb => h.same (Bool.or_eq_false_iff.1 hb).1⟩
  · intro m hm sd'
    show Good _ _ ((s.tg.set n sd k).kn m sd')
    rw [Ty.set_kn]
    split
    · rename_i e; obtain ⟨rfl, rfl⟩ := e; exact hg
    · exact h.pts m hm sd'
  · exact Nat.le_trans (Nat.le_of_eq (edgeM_congr rfl rfl)) h.edge
  · show (s.tg.set n sd k).kn n sd ≠ _
    rw [Ty.set_kn, if_pos ⟨rfl, rfl⟩]; exact hne

theorem rel_true {A : Ast T} {names : List String} {s0 s : S T} {b : Bool} (h : Rel A names s0 s b) {b' : Bool} (hb : b' = b) :
    Rel A names s0 s b' := hb ▸ h

theorem rel_lg {A : Ast T} {names : List String} {s0 s : S T} {b : Bool} (h : Rel A names s0 s b) (c : Loc.Chg) (sl : List T) (b' : Bool)
    (hs : b' = true → b = false → locM A.places names (Loc.apply A.places s.lg c) < locM A.places names s0.lg)
    (hm : b' = false → (Loc.apply A.places s.lg c).maps = s.lg.maps) :
    Rel A names s0 { s with lg := Loc.apply A.places s.lg c, slots := sl } (b || b') := by
  have hle := apply_locM A.places names A.places s.lg c
  refine ⟨h.pts, fun x hx => apply_locals _ _ _ _ (h.locals x hx),
    fun p k hd => apply_defined _ _ _ _ _ (.inl (h.defined p k hd)), h.edge, Nat.le_trans hle h.loc, fun hb => ?_, ?_⟩
  · rw [Bool.or_eq_true] at hb
    cases b with
    | true =>
      rcases h.strict rfl with h1 | h1 | h1
      · exact .inl h1
      · exact .inr (.inl h1)
      · exact .inr (.inr (Nat.lt_of_le_of_lt hle h1))
    | false => exact .inr (.inr (hs (by simpa using hb) rfl))
  · intro hb p k hd
    obtain ⟨h1, h2⟩ := Bool.or_eq_false_iff.1 hb
    refine h.same h1 p k ?_
    obtain ⟨x, hx, he⟩ := hd
    exact ⟨x, by rw [← hm h2]; exact hx, he⟩

/-- A new definition. -/
theorem rel_def {A : Ast T} {names : List String} {s0 s : S T} {b : Bool} (h : Rel A names s0 s b) (c : Loc.Chg) (sl : List T)
    {n : Nat} {name : String} (hn : n < A.count) (hk : name ∈ names) (hd : ¬ DefinedAt s0.lg (A.place n) name)
    (hc : (A.place n, name) ∈ Loc.Chg.defs c) :
    Rel A names s0 { s with lg := Loc.apply A.places s.lg c, slots := sl } (b || true) := by
  refine rel_lg h c sl true (fun _ hb => ?_) (fun e => by cases e)
  have h1 : ¬ DefinedAt s.lg (A.place n) name := fun h' => hd (h.same hb _ _ h')
  refine Nat.lt_of_lt_of_le ?_ h.loc
  have h2 := apply_unsealed A.places A.places s.lg c
  have h3 := sealSum_le (ps := A.places) fun p => apply_seals A.places s.lg c p
  have h4 := undef_lt (names := names) (fun p k h => apply_defined A.places s.lg c p k (.inl h)) (place_mem hn) hk h1
    (apply_defined A.places s.lg c _ _ (.inr hc))
  simp only [locM]; omega

theorem apply1_rel {A : Ast T} {names : List String} {s0 s s' : S T} {b b' : Bool} {c : Chg T} (h : Rel A names s0 s b)
    (hv : Valid A names s0 c) (ha : apply1 A s c = .ok (s', b')) : Rel A names s0 s' (b || b') := by
  cases hv with
  | @known n sd t hn hk =>
    simp only [apply1, Ty.applyChg, Ty.setKn] at ha
    by_cases e : s.tg.kn n sd = .known t
    · rw [if_pos e] at ha
      cases ha
      simp only [tyAlters, e]
      exact rel_true h (by simp)
    · rw [if_neg e] at ha
      cases hc : Ty.canFlow (.known t) (s.tg.kn n sd) with
      | error x => rw [hc] at ha; cases ha
      | ok u =>
        rw [hc] at ha; cases ha
        obtain ⟨h1, h2⟩ := good_known (h.pts n hn sd) hk hc
        exact rel_set h hn h1 (fun e' => h2 e e'.symm) _
  | @oblige n sd t hn hk =>
    simp only [apply1, Ty.applyChg, Ty.setKn] at ha
    by_cases e : s.tg.kn n sd = .obliged t
    · rw [if_pos e] at ha
      cases ha
      simp only [tyAlters, e]
      exact rel_true h (by simp)
    · rw [if_neg e] at ha
      cases hc : Ty.canFlow (.obliged t) (s.tg.kn n sd) with
      | error x => rw [hc] at ha; cases ha
      | ok u =>
        rw [hc] at ha; cases ha
        obtain ⟨h1, h2⟩ := good_obliged (h.pts n hn sd) hk hc
        exact rel_set h hn h1 (fun e' => h2 e e'.symm) _
  | @any n hn hl =>
    simp only [apply1, Ty.applyChg] at ha
    by_cases e : (s.tg.kn n .inp).ty.isNone = true
    · rw [if_pos e, Ty.setKn] at ha
      by_cases e' : s.tg.kn n .inp = .any
      · rw [if_pos e'] at ha
        cases ha
        simp only [tyAlters, e']
        exact rel_true h (by simp)
      · rw [if_neg e'] at ha
        cases hc : Ty.canFlow .any (s.tg.kn n .inp) with
        | error x => rw [hc] at ha; cases ha
        | ok u =>
          rw [hc] at ha; cases ha
          obtain ⟨h1, h2⟩ := good_any (h.pts n hn .inp) (by simpa using e) e'
          exact rel_set h hn h1 (fun e' => h2 e'.symm) _
    · rw [if_neg e] at ha
      cases ha
      simp only [tyAlters, Bool.eq_false_iff.2 e]
      exact rel_true h (by simp)
  | @edge e h1 h2 hl =>
    simp only [apply1, Ty.applyChg] at ha
    by_cases he : e ∈ s.tg.edges
    · rw [if_pos he] at ha
      cases ha
      simp only [tyAlters, he]
      exact rel_true h (by simp)
    · rw [if_neg he] at ha
      cases ha
      have hlt := edgeM_append h1 h2 he
      exact ⟨h.pts, h.locals, h.defined, Nat.le_trans (Nat.le_of_lt hlt) h.edge, h.loc,
        fun _ => .inr (.inl (Nat.lt_of_lt_of_le hlt h.edge)), fun hb => h.same (Bool.or_eq_false_iff.1 hb).1⟩
  | @var name t n hn hk hd =>
    simp only [apply1] at ha
    cases ha
    exact rel_def h _ _ hn hk hd (by simp [Loc.Chg.defs])
  | @lzy name to n op hn hk hd ho ha' hf =>
    simp only [apply1] at ha
    cases ha
    exact rel_def h _ _ hn hk hd (by simp [Loc.Chg.defs])
  | @sealOp n hn _ =>
    simp only [apply1] at ha
    cases ha
    have := rel_lg h (.seal (A.place n)) s.slots (!s.lg.isSealed (A.place n)) (fun e _ =>
      Nat.lt_of_lt_of_le (seal_locM names A.places s.lg (place_mem hn) (by simpa using e)) h.loc) (fun _ => rfl)
    exact this
  | @breakEdge op a ha' _ =>
    simp only [apply1] at ha
    cases ha
    exact rel_lg h (.breakEdge (A.place op) (A.place a)) s.slots _ (fun e _ =>
      Nat.lt_of_lt_of_le (break_locM names A.places s.lg (place_mem ha') (by simpa using e)) h.loc) (fun _ => rfl)

end Verif.Comp
