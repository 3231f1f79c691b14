import Verif.Lemmas.EvalRun
/-! The variables there are while compiling, and the ones a change adds. -/
namespace Verif.Comp
open Verif
set_option linter.unusedSectionVars false
variable {T V : Type} [DecidableEq T]

/-! ### The graph of variables -/

/-- `D` are the variables in order, with the nodes where they are defined. -/
structure Locs (A : Ast T) (s : S T) (D : List Scope.DefAt) : Prop where
  lex : Loc.Lexical A.places s.lg.maps D
  locals : s.lg.locals = (List.range D.length).map .var
  count : s.lg.count = D.length
  slots : s.slots.length = D.length

theorem Locs.congr {A : Ast T} {s s' : S T} {D : List Scope.DefAt} (h : Locs A s D) (h1 : s'.lg.maps = s.lg.maps)
    (h2 : s'.lg.locals = s.lg.locals) (h3 : s'.lg.count = s.lg.count) (h4 : s'.slots = s.slots) : Locs A s' D :=
  ⟨by rw [h1]; exact h.lex, by rw [h2]; exact h.locals, by rw [h3]; exact h.count, by rw [h4]; exact h.slots⟩

/-- The variable a change adds, with its type. -/
def newDef (A : Ast T) : Chg T → Option (Scope.DefAt × T)
  | .var name t n => some ((A.place n, name), t)
  | _ => none

def newDefs (A : Ast T) (cs : List (Chg T)) : List (Scope.DefAt × T) := cs.filterMap (newDef A)

theorem newDefs_append (A : Ast T) (cs cs' : List (Chg T)) : newDefs A (cs ++ cs') = newDefs A cs ++ newDefs A cs' := by
  simp [newDefs]

theorem newDefs_none {A : Ast T} {cs : List (Chg T)} (h : ∀ c ∈ cs, newDef A c = none) : newDefs A cs = [] :=
  List.filterMap_eq_nil_iff.2 h

def isLzy : Chg T → Bool
  | .lzy _ _ _ => true
  | _ => false

theorem Ast.place_mem {A : Ast T} {n : Nat} (h : n < A.count) : A.place n ∈ A.places := by
  have h' : n < A.places.length := h
  simp only [Ast.place, List.getElem?_eq_getElem h', Option.getD_some]
  exact List.getElem_mem h'

section
variable {A : Ast T}

theorem Ast.Placed.ok {names : List String} (hw : A.Wf names) (h : A.Placed) : Loc.Closed A.places := ⟨hw.places, h.closed⟩

theorem apply1_locs (hc : Loc.Closed A.places) {s s' : S T} {D : List Scope.DefAt} (h : Locs A s D) {c : Chg T} (hl : isLzy c = false)
    (hn : ∀ name t n, c = .var name t n → A.place n ∈ A.places) {b : Bool} (e : apply1 A s c = .ok (s', b)) :
    Locs A s' (D ++ (newDef A c).toList.map (·.1)) ∧ s'.slots = s.slots ++ (newDef A c).toList.map (·.2) := by
  cases c with
  | ty c =>
    simp only [apply1] at e
    split at e
    · cases e
      refine ⟨?_, by simp [newDef]⟩
      simp only [newDef, Option.toList_none, List.map_nil, List.append_nil]
      exact h.congr rfl rfl rfl rfl
    · cases e
  | var name t n =>
    cases e
    refine ⟨⟨?_, ?_, ?_, ?_⟩, by simp [newDef]⟩
    · have := Loc.define_lexical hc s.lg D (by rw [h.locals]; simp) h.lex name (.var s.lg.count) (A.place n)
        (hn _ _ _ rfl)
      exact this
    · simp only [Loc.apply, Loc.addVar, Loc.define, newDef, Option.toList_some, List.map_cons, List.map_nil, List.length_append,
        List.length_cons, List.length_nil, h.locals, h.count]
      rw [List.range_succ, List.map_append]; rfl
    · simp [Loc.apply, Loc.addVar, newDef, h.count]
    · simp [newDef, h.slots]
  | lzy name to n => cases hl
  | sealOp n =>
    cases e
    refine ⟨?_, by simp [newDef]⟩
    simp only [newDef, Option.toList_none, List.map_nil, List.append_nil]
    exact h.congr rfl rfl rfl rfl
  | breakEdge op arg =>
    cases e
    refine ⟨?_, by simp [newDef]⟩
    simp only [newDef, Option.toList_none, List.map_nil, List.append_nil]
    exact h.congr rfl rfl rfl rfl

theorem newDefs_cons (c : Chg T) (cs : List (Chg T)) : newDefs A (c :: cs) = (newDef A c).toList ++ newDefs A cs := by
  unfold newDefs
  rw [List.filterMap_cons]
  cases newDef A c <;> rfl

theorem applyAll_locs (hc : Loc.Closed A.places) : ∀ {cs : List (Chg T)} {s s' : S T} {D : List Scope.DefAt} {b b' : Bool}, Locs A s D →
    (∀ c ∈ cs, isLzy c = false) → (∀ name t n, Chg.var name t n ∈ cs → A.place n ∈ A.places) → applyAll A s b cs = .ok (s', b') →
    Locs A s' (D ++ (newDefs A cs).map (·.1)) ∧ s'.slots = s.slots ++ (newDefs A cs).map (·.2)
  | [], s, s', D, b, b', h, _, _, e => by
    cases e
    simp only [newDefs, List.filterMap_nil, List.map_nil, List.append_nil]
    exact ⟨h, trivial⟩
  | c :: cs, s, s', D, b, b', h, hl, hn, e => by
    unfold applyAll at e
    cases h1 : apply1 A s c with
    | error x => rw [h1] at e; cases e
    | ok x =>
      obtain ⟨s1, b1⟩ := x
      rw [h1] at e
      obtain ⟨h2, h3⟩ := apply1_locs hc h (hl c (by simp)) (fun name t n e => hn name t n (by rw [e]; simp)) h1
      obtain ⟨h4, h5⟩ := applyAll_locs hc h2 (fun c hc => hl c (by simp [hc])) (fun name t n h => hn name t n (by simp [h])) e
      rw [newDefs_cons, List.map_append, List.map_append, ← List.append_assoc, ← List.append_assoc, ← h3]
      exact ⟨h4, h5⟩

theorem Locs.noPtr {s : S T} {D : List Scope.DefAt} (h : Locs A s D) : ∀ p, Loc.Local.ptr p ∉ s.lg.locals := by
  intro p hp
  rw [h.locals] at hp
  obtain ⟨_, _, e⟩ := List.mem_map.1 hp
  cases e

theorem Locs.local_at {s : S T} {D : List Scope.DefAt} (h : Locs A s D) {i : Nat} {l : Loc.Local} (hi : s.lg.locals[i]? = some l) : l = .var i := by
  rw [h.locals, List.getElem?_map] at hi
  obtain ⟨j, h1, h2⟩ := Option.map_eq_some_iff.1 hi
  have := (List.getElem?_eq_some_iff.1 h1).2
  simp at this
  rw [← h2, this]

/-- The variable a node defines. -/
theorem Locs.there (hc : Loc.Closed A.places) {s : S T} {D : List Scope.DefAt} (h : Locs A s D) {name : String} {n slot : Nat} {t : T}
    (hn : n < A.count) (hv : variableAt A s name n = some (slot, t)) : D[slot]? = some (A.place n, name) ∧ s.slots[slot]? = some t := by
  unfold variableAt at hv
  split at hv
  · rename_i i hi
    obtain ⟨u, h1, h2⟩ := Option.map_eq_some_iff.1 hv
    cases h2
    refine ⟨?_, h1⟩
    unfold Loc.newVar at hi
    obtain ⟨l, h3, h4⟩ := Option.map_eq_some_iff.1 hi
    obtain ⟨h5, h6⟩ := Option.filter_eq_some_iff.1 h3
    have e := h.local_at h4
    injection e with e
    obtain ⟨_, h7⟩ := h.lex.defined hc _ _ (Nat.le_refl _) (Ast.place_mem hn) _ _ h5
    rw [e, h7]
    simp only [decide_eq_true_eq] at h6
    rw [h6]
  · cases hv

/-- A variable that has to be added is not there. -/
theorem Locs.absent {s : S T} {D : List Scope.DefAt} (h : Locs A s D) {name : String} {n : Nat} (hn : n < A.count)
    (hv : Loc.newVar s.lg (A.place n) name = none) : (A.place n, name) ∉ D := by
  intro hm
  have h1 := (Loc.lastIdx_isSome D (A.place n) name).2 hm
  obtain ⟨i, h2⟩ := Option.isSome_iff_exists.1 h1
  have h3 := h.lex _ (Ast.place_mem hn) name
  rw [h2] at h3
  dsimp only at h3
  simp [Loc.newVar, h3] at hv

/-- A variable that is there already has a place. -/
theorem Locs.present {s : S T} {D : List Scope.DefAt} (h : Locs A s D) {name : String} {n slot : Nat}
    (hv : Loc.newVar s.lg (A.place n) name = some (some (.var slot))) : ∃ t, variableAt A s name n = some (slot, t) := by
  have hlt : slot < s.slots.length := by
    unfold Loc.newVar at hv
    obtain ⟨l, _, h4⟩ := Option.map_eq_some_iff.1 hv
    have e := h.local_at h4
    injection e with e
    have := (List.getElem?_eq_some_iff.1 h4).1
    rw [h.locals] at this
    simp at this
    rw [h.slots, e]; exact this
  refine ⟨s.slots[slot], ?_⟩
  unfold variableAt
  rw [hv]
  simp [hlt]

/-! ### Nodes next to a block -/

theorem Near.lt {names : List String} (hw : A.Wf names) {op n : Nat} (h : Near A op n) : n < A.count := by
  rcases h with h | h
  · exact hw.arg_lt op n h
  · exact next_lt hw h

theorem next_mem {op n : Nat} (h : A.next op = some n) : n ∈ A.blocks (A.parent op) :=
  (List.dropWhile_sublist _).subset (List.mem_of_getElem? h)

theorem Near.place {names : List String} (hw : A.Wf names) (hpl : A.Placed) {op n : Nat} (ho : op ∈ A.ops) (h : Near A op n) :
    (∃ i, A.place n = .arg i :: A.place op) ∨ ∃ j p, A.place op = .blk j :: p ∧ A.place n = .blk (j + 1) :: p := by
  rcases h with h | h
  · exact .inl (hw.arg_place op n h)
  · obtain ⟨j, hj⟩ := List.getElem?_of_mem (hpl.parent op ho)
    have he := hw.parent op ho
    rw [hpl.next_block hw he hj] at h
    exact .inr ⟨j, _, hpl.blk _ he j op hj, hpl.blk _ he (j + 1) n h⟩

theorem Near.inj {names : List String} (hw : A.Wf names) (hpl : A.Placed) {op op' n : Nat} (ho : op ∈ A.ops) (ho' : op' ∈ A.ops)
    (h : Near A op n) (h' : Near A op' n) : op = op' := by
  refine place_inj hw.places (hw.ops_lt _ ho) (hw.ops_lt _ ho') ?_
  rcases h.place hw hpl ho with ⟨i, h⟩ | ⟨j, p, h1, h⟩ <;> rcases h'.place hw hpl ho' with ⟨i', h'⟩ | ⟨j', p', h1', h'⟩ <;> rw [h] at h'
  · injection h'
  · injection h' with h' _; cases h'
  · injection h' with h' _; cases h'
  · injection h' with h2 h3
    injection h2 with h2
    rw [h1, h1', h3, show j = j' by omega]

theorem Near.not_root {names : List String} (hw : A.Wf names) (hpl : A.Placed) {op n : Nat} (ho : op ∈ A.ops) (h : Near A op n) : A.place n ≠ [] := by
  rcases h.place hw hpl ho with ⟨i, h⟩ | ⟨j, p, _, h⟩ <;> rw [h] <;> simp

theorem Near.not_body {names : List String} (hw : A.Wf names) (hpl : A.Placed) {op n d : Nat} (ho : op ∈ A.ops) (h : Near A op n)
    (hd : d ∈ A.defs) : A.place n ≠ A.place (A.body d) := by
  obtain ⟨k, p, hb⟩ := hpl.body d hd
  rcases h.place hw hpl ho with ⟨i, h⟩ | ⟨j, q, _, h⟩ <;> rw [h, hb] <;> simp

theorem Near.not_first {names : List String} (hw : A.Wf names) (hpl : A.Placed) {op n : Nat} (ho : op ∈ A.ops) (h : Near A op n) (p : Loc.Node) :
    A.place n ≠ .blk 0 :: p := by
  rcases h.place hw hpl ho with ⟨i, h⟩ | ⟨j, q, _, h⟩ <;> rw [h] <;> simp

/-! ### Commands -/

theorem follow_self {s : S T} (hp : ∀ p, Loc.Local.ptr p ∉ s.lg.locals) : ∀ (f n : Nat), follow A s f n = n
  | 0, _ => rfl
  | f + 1, n => by
    unfold follow
    split
    · rename_i to hv
      obtain ⟨v, _, h2⟩ := Option.bind_eq_some_iff.1 hv
      cases hg : Loc.get s.lg (A.place n) v with
      | none => rw [hg] at h2; cases h2
      | some o =>
        rw [hg] at h2
        simp only [Option.join_some] at h2
        rw [h2] at hg
        exact absurd (get_mem hg) (hp to)
    · rfl

theorem points_self {s : S T} (hp : ∀ p, Loc.Local.ptr p ∉ s.lg.locals) {n m : Nat} (h : Points A s n m) : m = n := by
  cases h with
  | here => rfl
  | there _ h => exact absurd (get_mem h) (hp _)

/-- The argument at hand is at this node. -/
def AtNode (r : Run T) (n : Option Nat) : Prop := r.cur.map (·.node) = n

theorem supplied_node {t : T} {a b : Arg T} (h : supplied t a = .ok b) : b.node = a.node := by
  unfold supplied at h
  repeat' split at h
  all_goals first | cases h; rfl | cases h

theorem returns_node {t : T} {a b : Arg T} (h : returns t a = .ok b) : b.node = a.node := by
  unfold returns at h
  repeat' split at h
  all_goals first | cases h; rfl | cases h

/-- Where a run is. -/
structure Where (A : Ast T) (op : Nat) (r : Run T) (n : Option Nat) : Prop where
  args : ∀ a ∈ r.args, a ∈ A.args op
  cur : AtNode r n
  node : ∀ a, n = some a → a ∈ A.args op

theorem put_where {op : Nat} {r r' : Run T} {n : Option Nat} (h : Where A op r n) {x : Except (List (Chg T)) (Arg T)} {a : Arg T}
    (ha : r.cur = some a) (hx : ∀ b, x = .ok b → b.node = a.node) {e : Option Err} (hr : r.put x = (r', e)) :
    Where A op r' n ∧ r'.args = r.args := by
  unfold Run.put at hr
  split at hr
  · cases hr; exact ⟨⟨h.args, h.cur, h.node⟩, rfl⟩
  · rename_i b
    cases hr
    refine ⟨⟨h.args, ?_, h.node⟩, rfl⟩
    have := h.cur
    unfold AtNode at this ⊢
    rw [ha] at this
    dsimp only
    rw [Option.map_some, hx b rfl]
    exact this

theorem need_where {op : Nat} {r r' : Run T} {n : Option Nat} (h : Where A op r n) {x : Except Err (Option (Chg T))} {e : Option Err}
    (hr : r.need x = (r', e)) : Where A op r' n ∧ r'.args = r.args := by
  unfold Run.need at hr
  split at hr <;> cases hr <;> exact ⟨⟨h.args, h.cur, h.node⟩, rfl⟩

/-- After a call other than for the next argument. -/
theorem request_where {s : S T} {op : Nat} {r r' : Run T} {n : Option Nat} (h : Where A op r n) {q : Req T} (hq : isNext q = false)
    {e : Option Err} (hr : request A s op r q = (r', e)) : Where A op r' n ∧ r'.args = r.args := by
  have same : ∀ {r'' : Run T}, r''.args = r.args → r''.cur = r.cur → Where A op r'' n ∧ r''.args = r.args :=
    fun h1 h2 => ⟨⟨by rw [h1]; exact h.args, by unfold AtNode; rw [h2]; exact h.cur, h.node⟩, h1⟩
  cases q with
  | next => cases hq
  | output t => cases hr; exact same rfl rfl
  | infer => cases hr; exact same rfl rfl
  | obligeArgs t => cases hr; exact same rfl rfl
  | addsVars b => cases hr; exact same rfl rfl
  | varsAdded => cases hr; exact same rfl rfl
  | supplied t =>
    simp only [request] at hr
    split at hr
    · cases hr; exact same rfl rfl
    · rename_i a ha; exact put_where h ha (fun b => supplied_node) hr
  | returns t =>
    simp only [request] at hr
    split at hr
    · cases hr; exact same rfl rfl
    · rename_i a ha; exact put_where h ha (fun b => returns_node) hr
  | concrete =>
    simp only [request] at hr
    split at hr <;> cases hr <;> exact same rfl rfl
  | decouple =>
    simp only [request] at hr
    split at hr <;> cases hr <;> exact same rfl rfl
  | createVar t =>
    simp only [request] at hr
    split at hr
    · cases hr; exact same rfl rfl
    · split at hr
      · cases hr; exact same rfl rfl
      · split at hr
        · cases hr; exact same rfl rfl
        · exact need_where h hr
  | inject name t =>
    simp only [request] at hr
    split at hr
    · cases hr; exact same rfl rfl
    · exact need_where h hr

theorem next_where {s : S T} (hp : ∀ p, Loc.Local.ptr p ∉ s.lg.locals) {op : Nat} {r : Run T} {n : Option Nat} (h : Where A op r n)
    {a : Nat} {as : List Nat} (ha : r.args = a :: as) : Where A op { r with args := as, cur := some (newArg A s a) } (some a) := by
  refine ⟨fun b hb => h.args b (by rw [ha]; simp [hb]), ?_, fun b e => ?_⟩
  · unfold AtNode
    simp only [Option.map_some, newArg, follow_self hp]
  · cases e; exact h.args _ (by rw [ha]; simp)

theorem start_where (op : Nat) : Where A op (.start (A.args op) : Run T) none := ⟨fun _ h => h, rfl, fun _ h => (by cases h)⟩

/-- What a run has to add: one variable next to the block, and then it fails. -/
def Adds (A : Ast T) (s : S T) (op : Nat) (old new : List (Chg T)) (e : Option Err) : Prop :=
  newDefs A new = newDefs A old ∨
  (∃ x, e = some x) ∧ ∃ name t n, Chg.var name t n ∈ new ∧ newDefs A new = newDefs A old ++ [((A.place n, name), t)] ∧ Near A op n ∧
    Loc.newVar s.lg (A.place n) name = none

theorem newDefs_ty {cs : List (Chg T)} (h : ∀ c ∈ cs, ∃ x, c = .ty x) : newDefs A cs = [] ∧ ∀ c ∈ cs, isLzy c = false :=
  ⟨newDefs_none fun c hc => by obtain ⟨x, e⟩ := h c hc; rw [e]; rfl, fun c hc => by obtain ⟨x, e⟩ := h c hc; rw [e]; rfl⟩

theorem supplied_ty {t : T} {a : Arg T} {cs : List (Chg T)} (h : supplied t a = .error cs) : ∀ c ∈ cs, ∃ x, c = .ty x := by
  unfold supplied at h
  repeat' split at h
  all_goals first | (cases h; intro c hc; first | (cases hc; done) | exact ⟨_, List.mem_singleton.1 hc⟩) | cases h

theorem returns_ty {t : T} {a : Arg T} {cs : List (Chg T)} (h : returns t a = .error cs) : ∀ c ∈ cs, ∃ x, c = .ty x := by
  unfold returns at h
  repeat' split at h
  all_goals first | (cases h; intro c hc; first | (cases hc; done) | exact ⟨_, List.mem_singleton.1 hc⟩) | cases h

theorem push_plain {r : Run T} {cs : List (Chg T)} (hc : ∀ c ∈ cs, newDef A c = none ∧ isLzy c = false) (hl : ∀ c ∈ r.chgs, isLzy c = false) :
    newDefs A (r.push cs).chgs = newDefs A r.chgs ∧ ∀ c ∈ (r.push cs).chgs, isLzy c = false := by
  refine ⟨?_, fun c h => ?_⟩
  · simp only [Run.push]
    rw [newDefs_append, newDefs_none fun c h => (hc c h).1, List.append_nil]
  · rcases List.mem_append.1 h with h | h
    · exact hl c h
    · exact (hc c h).2

theorem newVar_some {s : S T} {name : String} {t : T} {n : Nat} {c : Chg T} (h : newVar A s name t n = .ok (some c)) :
    c = .var name t n ∧ Loc.newVar s.lg (A.place n) name = none := by
  unfold newVar at h
  split at h
  · rename_i h1; cases h; exact ⟨rfl, h1⟩
  · cases h
  · cases h

theorem need_adds {s : S T} {op : Nat} {r r' : Run T} {name : String} {t : T} {n : Nat} (hn : Near A op n) {e : Option Err}
    (hl : ∀ c ∈ r.chgs, isLzy c = false) (h : r.need (newVar A s name t n) = (r', e)) :
    Adds A s op r.chgs r'.chgs e ∧ ∀ c ∈ r'.chgs, isLzy c = false := by
  unfold Run.need at h
  split at h
  · cases h; exact ⟨.inl rfl, hl⟩
  · cases h; exact ⟨.inl rfl, hl⟩
  · rename_i c hc
    cases h
    obtain ⟨rfl, h1⟩ := newVar_some hc
    refine ⟨.inr ⟨⟨_, rfl⟩, name, t, n, by simp [Run.push], ?_, hn, h1⟩, fun c hc => ?_⟩
    · simp only [Run.push]; rw [newDefs_append]; rfl
    · rcases List.mem_append.1 hc with hc | hc
      · exact hl c hc
      · rw [List.mem_singleton.1 hc]; rfl

theorem put_adds {s : S T} {op : Nat} {r r' : Run T} {x : Except (List (Chg T)) (Arg T)} (hx : ∀ cs, x = .error cs → ∀ c ∈ cs, ∃ y, c = .ty y)
    {e : Option Err} (hl : ∀ c ∈ r.chgs, isLzy c = false) (h : r.put x = (r', e)) :
    Adds A s op r.chgs r'.chgs e ∧ ∀ c ∈ r'.chgs, isLzy c = false := by
  unfold Run.put at h
  split at h
  · rename_i cs
    cases h
    obtain ⟨h1, h2⟩ := push_plain (A := A) (r := r) (cs := cs) (fun c hc => by obtain ⟨y, e⟩ := hx cs rfl c hc; rw [e]; exact ⟨rfl, rfl⟩) hl
    exact ⟨.inl h1, h2⟩
  · cases h; exact ⟨.inl rfl, hl⟩

theorem request_adds {names : List String} (hw : A.Wf names) {s : S T} {op : Nat} {r r' : Run T} {n : Option Nat} (hwh : Where A op r n)
    {q : Req T} {e : Option Err} (hl : ∀ c ∈ r.chgs, isLzy c = false) (h : request A s op r q = (r', e)) :
    Adds A s op r.chgs r'.chgs e ∧ ∀ c ∈ r'.chgs, isLzy c = false := by
  have plain : ∀ {cs : List (Chg T)}, (∀ c ∈ cs, newDef A c = none ∧ isLzy c = false) → r'.chgs = r.chgs ++ cs →
      Adds A s op r.chgs r'.chgs e ∧ ∀ c ∈ r'.chgs, isLzy c = false := by
    intro cs hc e
    rw [e]
    obtain ⟨h1, h2⟩ := push_plain (r := r) hc hl
    exact ⟨.inl h1, h2⟩
  have nothing : r'.chgs = r.chgs → Adds A s op r.chgs r'.chgs e ∧ ∀ c ∈ r'.chgs, isLzy c = false :=
    fun e => plain (cs := []) (fun _ h => (by cases h)) (by rw [e, List.append_nil])
  cases q with
  | output t => cases h; exact plain (cs := [_]) (fun c hc => by rw [List.mem_singleton.1 hc]; exact ⟨rfl, rfl⟩) rfl
  | infer => cases h; exact nothing rfl
  | obligeArgs t =>
    cases h
    refine plain (cs := _) (fun c hc => ?_) rfl
    obtain ⟨a, _, e⟩ := List.mem_map.1 hc
    rw [← e]; exact ⟨rfl, rfl⟩
  | addsVars b =>
    cases h
    refine plain (cs := _) (fun c hc => ?_) rfl
    split at hc
    · cases hc
    · obtain ⟨a, _, e⟩ := List.mem_map.1 hc
      rw [← e]; exact ⟨rfl, rfl⟩
  | varsAdded => cases h; exact plain (cs := [_]) (fun c hc => by rw [List.mem_singleton.1 hc]; exact ⟨rfl, rfl⟩) rfl
  | next =>
    simp only [request] at h
    split at h <;> cases h <;> exact nothing rfl
  | supplied t =>
    simp only [request] at h
    split at h
    · cases h; exact nothing rfl
    · exact put_adds (fun cs => supplied_ty) hl h
  | returns t =>
    simp only [request] at h
    split at h
    · cases h; exact nothing rfl
    · exact put_adds (fun cs => returns_ty) hl h
  | concrete =>
    simp only [request] at h
    split at h <;> cases h <;> exact nothing rfl
  | decouple =>
    simp only [request] at h
    split at h
    · cases h; exact nothing rfl
    · cases h; exact plain (cs := [_]) (fun c hc => by rw [List.mem_singleton.1 hc]; exact ⟨rfl, rfl⟩) rfl
  | createVar t =>
    simp only [request] at h
    split at h
    · cases h; exact nothing rfl
    · rename_i a ha
      split at h
      · cases h; exact nothing rfl
      · split at h
        · cases h; exact nothing rfl
        · rename_i m hm
          have hop : A.opOf a.node = op := by
            refine hw.arg_op op _ (hwh.node a.node ?_)
            have := hwh.cur
            unfold AtNode at this
            rw [← this, ha]; rfl
          rw [hop] at hm
          exact need_adds (.inr hm) hl h
  | inject name t =>
    simp only [request] at h
    split at h
    · cases h; exact nothing rfl
    · rename_i a as ha
      exact need_adds (.inl (hwh.args a (by rw [ha]; simp))) hl h

theorem requests_adds {names : List String} (hw : A.Wf names) {s : S T} (hp : ∀ p, Loc.Local.ptr p ∉ s.lg.locals) {op : Nat} :
    ∀ {qs : List (Req T)} {r r' : Run T} {n : Option Nat} {e : Option Err}, Where A op r n →
    (∀ c ∈ r.chgs, isLzy c = false) → requests A s op r qs = (r', e) → Adds A s op r.chgs r'.chgs e ∧ ∀ c ∈ r'.chgs, isLzy c = false
  | [], r, r', n, e, _, hl, h => by cases h; exact ⟨.inl rfl, hl⟩
  | q :: qs, r, r', n, e, hwh, hl, h => by
    unfold requests at h
    cases h1 : request A s op r q with
    | mk r1 e1 =>
      rw [h1] at h
      obtain ⟨h2, h3⟩ := request_adds hw hwh hl h1
      cases e1 with
      | some x => cases h; exact ⟨h2, h3⟩
      | none =>
        have h4 : newDefs A r1.chgs = newDefs A r.chgs := by
          rcases h2 with h2 | ⟨⟨x, h2⟩, _⟩
          · exact h2
          · cases h2
        have hw1 : ∃ m, Where A op r1 m := by
          cases hq : isNext q with
          | false => exact ⟨n, (request_where hwh hq h1).1⟩
          | true =>
            obtain rfl : q = .next := by cases q <;> first | rfl | cases hq
            simp only [request] at h1
            split at h1
            · cases h1
            · rename_i a as ha
              cases h1
              exact ⟨some a, next_where hp hwh ha⟩
        obtain ⟨m, hw1⟩ := hw1
        obtain ⟨h5, h6⟩ := requests_adds hw hp hw1 h3 h
        refine ⟨?_, h6⟩
        unfold Adds at h5 ⊢
        rw [h4] at h5
        exact h5

/-- What compiling a block has to add: nothing if it succeeds, or else at most one variable next to the block. -/
theorem runBuiltin_adds {I : Builtins T} {names : List String} (hw : A.Wf names) {s : S T} (hp : ∀ p, Loc.Local.ptr p ∉ s.lg.locals)
    {i op : Nat} {t : T} : (newDefs A (runBuiltin A I s i op t).chgs = [] ∨
    (∃ e, (runBuiltin A I s i op t).res = .error e) ∧ ∃ name u n, Chg.var name u n ∈ (runBuiltin A I s i op t).chgs ∧
      newDefs A (runBuiltin A I s i op t).chgs = [((A.place n, name), u)] ∧ Near A op n ∧ Loc.newVar s.lg (A.place n) name = none) ∧
    ∀ c ∈ (runBuiltin A I s i op t).chgs, isLzy c = false := by
  unfold runBuiltin
  dsimp only
  cases hr : requests A s op ⟨A.args op, none, [], false, false⟩ (I s i op t).1 with
  | mk r e =>
    obtain ⟨h1, h2⟩ := requests_adds hw hp (start_where op) (fun _ h => (by cases h)) hr
    cases e with
    | some e =>
      refine ⟨?_, h2⟩
      rcases h1 with h1 | ⟨_, name, u, n, h3, h4, h5⟩
      · exact .inl h1
      · exact .inr ⟨⟨_, rfl⟩, name, u, n, h3, h4, h5⟩
    | none =>
      have h3 : newDefs A r.chgs = [] := by
        rcases h1 with h1 | ⟨⟨x, h1⟩, _⟩
        · exact h1
        · cases h1
      dsimp only
      unfold finish
      split
      · exact ⟨.inl h3, h2⟩
      · split
        · exact ⟨.inl h3, h2⟩
        · rename_i u anon _ _
          refine ⟨.inl ?_, fun c hc => ?_⟩
          · dsimp only
            rw [newDefs_append, h3, (newDefs_ty (A := A) (cs := anon.map fun t => Chg.ty (.anonTy t)) fun c hc => by
              obtain ⟨x, _, e⟩ := List.mem_map.1 hc; exact ⟨_, e.symm⟩).1]
            rfl
          · rcases List.mem_append.1 hc with hc | hc
            · exact h2 c hc
            · obtain ⟨x, _, e⟩ := List.mem_map.1 hc
              rw [← e]; rfl

theorem callsiteArgs_ty {s : S T} {t : T} {args : List Nat} : ∀ {ps : List (Option T × Nat)} {cs : List (Chg T)} {e : Option Err},
    callsiteArgs A s t args ps = (cs, e) → ∀ c ∈ cs, ∃ x, c = .ty x
  | [], _, _, h => by cases h; intro c hc; cases hc
  | p :: ps, cs, e, h => by
    have key : ∀ {cs e}, callsiteArg A s t args p = (cs, e) → ∀ c ∈ cs, ∃ x, c = .ty x := by
      intro cs e h
      unfold callsiteArg at h
      split at h
      · cases h; intro c hc; cases hc
      · split at h
        · rename_i hx; cases h; exact supplied_ty hx
        · split at h
          · cases h; intro c hc; cases hc
          · split at h
            · rename_i hx; cases h; exact returns_ty hx
            · cases h; intro c hc; cases hc
    unfold callsiteArgs at h
    split at h
    · rename_i h1; cases h; exact key h1
    · rename_i h1
      cases h
      intro c hc
      rcases List.mem_append.1 hc with hc | hc
      · exact key h1 c hc
      · exact callsiteArgs_ty (cs := (callsiteArgs A s t args ps).1) (e := (callsiteArgs A s t args ps).2) rfl c hc

theorem runDef_ty {s : S T} {d : Nat} {t : T} : ∀ c ∈ (runDef A s d t).chgs, ∃ x, c = .ty x := by
  unfold runDef
  split
  · split
    · rename_i h; exact callsiteArgs_ty h
    · rename_i h
      split <;> exact callsiteArgs_ty h
  · intro c hc; exact ⟨_, List.mem_singleton.1 hc⟩

/-- The variable added by compiling a block. -/
structure Added (A : Ast T) (I : Builtins T) (s : S T) (op : Nat) (t : T) (x : Scope.DefAt × T) : Prop where
  err : ∃ e, (compileBlock A I s op t).res = .error e
  at_ : ∃ i n, A.getImpl op t = some (.intrinsic i) ∧ Chg.var x.1.2 x.2 n ∈ (runBuiltin A I s i op t).chgs ∧ x.1.1 = A.place n ∧ Near A op n ∧
    Loc.newVar s.lg (A.place n) x.1.2 = none

theorem compileBlock_adds {I : Builtins T} {names : List String} (hw : A.Wf names) {s : S T} (hp : ∀ p, Loc.Local.ptr p ∉ s.lg.locals)
    {op : Nat} {t : T} : (newDefs A (compileBlock A I s op t).chgs = [] ∨
      ∃ x, newDefs A (compileBlock A I s op t).chgs = [x] ∧ Added A I s op t x) ∧
    ∀ c ∈ (compileBlock A I s op t).chgs, isLzy c = false := by
  cases hg : A.getImpl op t with
  | none => simp only [compileBlock, hg]; exact ⟨.inl rfl, fun _ h => (by cases h)⟩
  | some c =>
    cases c with
    | defn d =>
      simp only [compileBlock, hg]
      exact ⟨.inl (newDefs_ty runDef_ty).1, (newDefs_ty (A := A) runDef_ty).2⟩
    | intrinsic i =>
      have e : compileBlock A I s op t = runBuiltin A I s i op t := by simp only [compileBlock, hg]
      obtain ⟨h1, h2⟩ := runBuiltin_adds (I := I) hw hp (i := i) (op := op) (t := t)
      refine ⟨?_, by rw [e]; exact h2⟩
      rcases h1 with h1 | ⟨h0, name, u, n, h3, h4, h5, h6⟩
      · exact .inl (by rw [e]; exact h1)
      · exact .inr ⟨((A.place n, name), u), by rw [e]; exact h4, by rw [e]; exact h0, i, n, hg, h3, rfl, h5, h6⟩

/-! ### All blocks of a round -/

theorem newDefs_var {cs : List (Chg T)} {name : String} {t : T} {n : Nat} (h : Chg.var name t n ∈ cs) : ((A.place n, name), t) ∈ newDefs A cs :=
  List.mem_filterMap.2 ⟨_, h, rfl⟩

theorem tryAll_defs (A : Ast T) (I : Builtins T) (s : S T) :
    newDefs A (tryAll A I s).chgs = (candidates A s).flatMap (fun x => newDefs A (compileBlock A I s x.1 x.2).chgs) ∧
    ∀ c ∈ (tryAll A I s).chgs, (∃ x ∈ candidates A s, c ∈ (compileBlock A I s x.1 x.2).chgs) ∨ (newDef A c = none ∧ isLzy c = false) := by
  have key : ∀ (xs : List (Nat × T)) (r : Tried T), (∀ x ∈ xs, x ∈ candidates A s) →
      newDefs A (xs.foldl (tryBlock A I s) r).chgs = newDefs A r.chgs ++ xs.flatMap (fun x => newDefs A (compileBlock A I s x.1 x.2).chgs) ∧
      ∀ c ∈ (xs.foldl (tryBlock A I s) r).chgs, c ∈ r.chgs ∨ (∃ x ∈ candidates A s, c ∈ (compileBlock A I s x.1 x.2).chgs) ∨
        (newDef A c = none ∧ isLzy c = false) := by
    intro xs
    induction xs with
    | nil => intro r _; simp; exact fun c hc => .inl hc
    | cons x xs ih =>
      intro r hx
      obtain ⟨h1, h2⟩ := ih (tryBlock A I s r x) fun y hy => hx y (by simp [hy])
      have h3 : newDefs A (tryBlock A I s r x).chgs = newDefs A r.chgs ++ newDefs A (compileBlock A I s x.1 x.2).chgs := by
        unfold tryBlock
        dsimp only
        split <;> simp only [newDefs_append] <;> split <;> simp [newDefs, newDef]
      refine ⟨by rw [List.foldl_cons, h1, h3, List.flatMap_cons, List.append_assoc], fun c hc => ?_⟩
      rcases h2 c hc with h | h
      · unfold tryBlock at h
        dsimp only at h
        split at h <;> simp only [List.mem_append, List.mem_singleton] at h
        · rcases h with ((h | h) | h) | h
          · exact .inl h
          · exact .inr (.inl ⟨x, hx x (by simp), h⟩)
          · rw [h]; exact .inr (.inr ⟨rfl, rfl⟩)
          · split at h
            · cases h
            · rw [List.mem_singleton.1 h]; exact .inr (.inr ⟨rfl, rfl⟩)
        · rcases h with (h | h) | h
          · exact .inl h
          · exact .inr (.inl ⟨x, hx x (by simp), h⟩)
          · split at h
            · cases h
            · rw [List.mem_singleton.1 h]; exact .inr (.inr ⟨rfl, rfl⟩)
      · exact .inr h
  obtain ⟨h1, h2⟩ := key (candidates A s) ⟨[], [], [], none⟩ fun _ h => h
  refine ⟨by unfold tryAll; rw [h1]; rfl, fun c hc => ?_⟩
  rcases h2 c hc with h | h
  · cases h
  · exact h

end

end Verif.Comp
