import Verif.Lemmas.CompApply
/-! Which changes the stages of compiling ask for. -/
namespace Verif.Comp
open Verif
set_option linter.unusedSectionVars false
variable {T : Type} [DecidableEq T]

/-- A pointer leads to an argument of a block on whose path is a definition. -/
def Ptrs (A : Ast T) (s : S T) : Prop :=
  ∀ p, Loc.Local.ptr p ∈ s.lg.locals → ∃ op ∈ A.ops, ∃ a ∈ A.args op, p = A.place a ∧ Fixed A s op

def AllValid (A : Ast T) (names : List String) (s : S T) (cs : List (Chg T)) : Prop := ∀ c ∈ cs, Valid A names s c

theorem allValid_nil (A : Ast T) (names : List String) (s : S T) : AllValid A names s [] := fun _ h => by cases h

theorem AllValid.append {A : Ast T} {names : List String} {s : S T} {a b : List (Chg T)} (ha : AllValid A names s a)
    (hb : AllValid A names s b) : AllValid A names s (a ++ b) := fun c h => (List.mem_append.1 h).elim (ha c) (hb c)

theorem AllValid.cons {A : Ast T} {names : List String} {s : S T} {a : Chg T} {b : List (Chg T)} (ha : Valid A names s a)
    (hb : AllValid A names s b) : AllValid A names s (a :: b) := fun c h => by
  rcases List.mem_cons.1 h with e | h
  · rw [e]; exact ha
  · exact hb c h

theorem allValid_one {A : Ast T} {names : List String} {s : S T} {a : Chg T} (ha : Valid A names s a) :
    AllValid A names s [a] := AllValid.cons ha (allValid_nil A names s)

theorem index_spec {A : Ast T} {p : Loc.Node} {m : Nat} (h : A.index p = some m) : m < A.count ∧ A.place m = p := by
  obtain ⟨h1, h2, _⟩ := List.findIdx?_eq_some_iff_getElem.1 h
  refine ⟨h1, ?_⟩
  simp only [Ast.place, List.getElem?_eq_getElem h1, Option.getD_some]
  simpa using h2

theorem place_inj {A : Ast T} (hp : A.places.Nodup) {m n : Nat} (hm : m < A.count) (hn : n < A.count)
    (h : A.place m = A.place n) : m = n := by
  simp only [Ast.place, Ast.count] at *
  rw [List.getElem?_eq_getElem hm, List.getElem?_eq_getElem hn] at h
  exact (List.getElem_inj hp).1 h

theorem pointed_of_index {A : Ast T} {l : Loc.State} {p : Loc.Node} {m : Nat} (h : A.index p = some m)
    (hp : Loc.Local.ptr p ∈ l.locals) : pointed A l m = true := by
  rw [pointed, (index_spec h).2]; simpa using hp

theorem get_mem {l : Loc.State} {p : Loc.Node} {k : String} {x : Loc.Local} (h : Loc.get l p k = some (some x)) : x ∈ l.locals := by
  unfold Loc.get at h
  split at h
  · injection h with h
    unfold Loc.getAny at h
    cases hm : l.maps p k with
    | none => rw [hm] at h; cases h
    | some y => rw [hm] at h; exact List.mem_of_getElem? h
  · cases h

theorem follow_spec (A : Ast T) (s : S T) : ∀ (f n : Nat), n < A.count →
    follow A s f n < A.count ∧ (follow A s f n = n ∨ pointed A s.lg (follow A s f n) = true)
  | 0, n, h => ⟨h, .inl rfl⟩
  | f + 1, n, h => by
    unfold follow
    split
    · rename_i to hv
      split
      · rename_i m hm
        have hmem : Loc.Local.ptr to ∈ s.lg.locals := by
          cases hv' : A.var n with
          | none => rw [hv'] at hv; cases hv
          | some v =>
            rw [hv'] at hv
            simp only [Option.bind_some] at hv
            cases hg : Loc.get s.lg (A.place n) v with
            | none => rw [hg] at hv; cases hv
            | some o => rw [hg] at hv; simp only [Option.join_some] at hv; rw [hv] at hg; exact get_mem hg
        obtain ⟨h1, h2⟩ := follow_spec A s f m (index_spec hm).1
        refine ⟨h1, .inr ?_⟩
        rcases h2 with e | h2
        · rw [e]; exact pointed_of_index hm hmem
        · exact h2
      · exact ⟨h, .inl rfl⟩
    · exact ⟨h, .inl rfl⟩

theorem pointed_arg {A : Ast T} {names : List String} (hw : A.Wf names) {s : S T} (hp : Ptrs A s) {n : Nat} (hn : n < A.count)
    (h : pointed A s.lg n = true) : ∃ op ∈ A.ops, n ∈ A.args op ∧ Fixed A s op := by
  obtain ⟨op, ho, a, ha, he, hf⟩ := hp _ (by simpa [pointed] using h)
  have := place_inj hw.places hn (hw.arg_lt op a ha) he
  subst this
  exact ⟨op, ho, ha, hf⟩

theorem view_multiple {k : Ty.Kn T} {ts : List T} {t : T} (h : view k = .inferred ts) (ht : t ∈ ts) : k.isMultiple = true := by
  cases k with
  | any => cases h
  | known => cases h
  | obliged => cases h
  | inferred us =>
    match us, h with
    | [], h => simp only [view] at h; cases h; cases ht
    | [_], h => cases h
    | _ :: _ :: _, _ => simp [Ty.Kn.isMultiple]

/-- What is known of an argument at hand. -/
def ArgOk (A : Ast T) (s : S T) (a : Arg T) : Prop :=
  a.node < A.count ∧
  (∀ ts t, a.inp = .inferred ts → t ∈ ts → pointed A s.lg a.node = true ∨ (s.tg.kn a.node .inp).isMultiple = true) ∧
  (∀ ts t, a.out = .inferred ts → t ∈ ts → pointed A s.lg a.node = true ∨ (s.tg.kn a.node .out).isMultiple = true) ∧
  ∃ op, a.node ∈ A.args op

theorem newArg_ok {A : Ast T} {names : List String} (hw : A.Wf names) {s : S T} (hp : Ptrs A s) {n op : Nat} (ha : n ∈ A.args op) :
    ArgOk A s (newArg A s n) := by
  obtain ⟨h1, h2⟩ := follow_spec A s (A.place n).length n (hw.arg_lt op n ha)
  refine ⟨h1, ?_, ?_, ?_⟩
  case refine_3 =>
    rcases h2 with e | h2
    · exact ⟨op, by show follow A s (A.place n).length n ∈ _; rw [e]; exact ha⟩
    · obtain ⟨op', _, h, _⟩ := pointed_arg hw hp h1 h2
      exact ⟨op', h⟩
  all_goals
  · intro ts t ht hm
    rcases h2 with e | h2
    · right
      show (s.tg.kn (follow A s (A.place n).length n) _).isMultiple = true
      rw [e]; exact view_multiple ht hm
    · exact .inl h2

/-- What a call on an argument gives. -/
def ArgRes (A : Ast T) (names : List String) (s : S T) : Except (List (Chg T)) (Arg T) → Prop
  | .ok b => ArgOk A s b
  | .error cs => AllValid A names s cs

theorem argRes_if {A : Ast T} {names : List String} {s : S T} {a : Arg T} (ha : ArgOk A s a) (p : Prop) [Decidable p] :
    ArgRes A names s (if p then .ok a else .error []) := by
  split
  · exact ha
  · exact allValid_nil A names s

theorem supplied_ok {A : Ast T} {names : List String} {s : S T} {a : Arg T} (ha : ArgOk A s a) (t : T) :
    ArgRes A names s (supplied t a) := by
  unfold supplied
  split
  · exact ⟨ha.1, fun _ _ e => by simp at e, ha.2.2.1, ha.2.2.2⟩
  · exact argRes_if ha _
  · exact argRes_if ha _
  · rename_i ts e
    obtain ⟨h1, h2, h3, _⟩ := ha
    show AllValid A names s _
    split
    · rename_i ht
      refine allValid_one (.known h1 ?_)
      rcases h2 ts t e ht with h | h
      · exact .inl (by simp [kind, h])
      · exact .inr h
    · exact allValid_nil A names s

theorem returns_ok {A : Ast T} {names : List String} (hw : A.Wf names) {s : S T} (hp : Ptrs A s) {a : Arg T} (ha : ArgOk A s a) (t : T) :
    ArgRes A names s (returns t a) := by
  unfold returns
  split
  · exact allValid_nil A names s
  · exact argRes_if ha _
  · exact argRes_if ha _
  · rename_i ts e
    obtain ⟨h1, h2, h3, _⟩ := ha
    show AllValid A names s _
    split
    · rename_i ht
      refine allValid_one (.oblige h1 ?_)
      rcases h3 ts t e ht with h | h
      · obtain ⟨op, ho, hm, _⟩ := pointed_arg hw hp h1 h
        exact .inl (by simp [kind, hw.arg_not_op op _ hm])
      · exact .inr h
    · exact allValid_nil A names s

theorem newVar_ok {A : Ast T} {names : List String} {s : S T} {name : String} {t : T} {n : Nat} {c : Chg T} (hn : n < A.count)
    (hk : name ∈ names) (h : newVar A s name t n = .ok (some c)) : Valid A names s c := by
  unfold newVar at h
  split at h
  · rename_i hd
    injection h with h; injection h with h; subst h
    exact .var hn hk (newVar_none hd)
  · cases h
  · cases h

theorem next_lt {A : Ast T} {names : List String} (hw : A.Wf names) {op n : Nat} (h : A.next op = some n) : n < A.count := by
  have : n ∈ A.blocks (A.parent op) :=
    (List.dropWhile_sublist _).subset (List.mem_of_getElem? h)
  exact hw.ops_lt _ (hw.block_op _ _ this)

theorem seal_places {A : Ast T} {names : List String} (hw : A.Wf names) {op : Nat} (ho : op ∈ A.ops) :
    ∀ d ∈ A.defs, A.place (A.body d) ≠ A.place op := by
  intro d hd e
  have hb : A.body d ∈ A.bodies := List.mem_map.2 ⟨d, hd, rfl⟩
  exact hw.op_not_body op ho (place_inj hw.places (hw.body_lt _ hb) (hw.ops_lt _ ho) e ▸ hb)

/-- While a built-in command runs. -/
structure RunOk (A : Ast T) (names : List String) (s : S T) (op : Nat) (r : Run T) : Prop where
  args : ∀ a ∈ r.args, a ∈ A.args op
  cur : ∀ a, r.cur = some a → ArgOk A s a
  chgs : AllValid A names s r.chgs

theorem RunOk.push {A : Ast T} {names : List String} {s : S T} {op : Nat} {r : Run T} (h : RunOk A names s op r) {cs : List (Chg T)}
    (hc : AllValid A names s cs) : RunOk A names s op (r.push cs) := ⟨h.args, h.cur, h.chgs.append hc⟩

theorem RunOk.need {A : Ast T} {names : List String} {s : S T} {op : Nat} {r : Run T} (h : RunOk A names s op r)
    {x : Except Err (Option (Chg T))} (hx : ∀ c, x = .ok (some c) → Valid A names s c) : RunOk A names s op (r.need x).1 := by
  match x with
  | .error e => exact h
  | .ok none => exact h
  | .ok (some c) => exact h.push (allValid_one (hx c rfl))

theorem RunOk.put {A : Ast T} {names : List String} {s : S T} {op : Nat} {r : Run T} (h : RunOk A names s op r)
    {x : Except (List (Chg T)) (Arg T)} (hx : ArgRes A names s x) :
    RunOk A names s op (r.put x).1 := by
  match x with
  | .error cs => exact h.push hx
  | .ok a => exact ⟨h.args, fun b hb => by injection hb with hb; subst hb; exact hx, h.chgs⟩

theorem request_ok {A : Ast T} {names : List String} (hw : A.Wf names) {s : S T} (hp : Ptrs A s) {op : Nat} (ho : op ∈ A.ops)
    (hf : ¬ Fixed A s op) {r : Run T} (h : RunOk A names s op r) (q : Req T) (hq : ∀ name t, q = .inject name t → name ∈ names) :
    RunOk A names s op (request A s op r q).1 := by
  cases q with
  | output t => exact h.push (allValid_one (.known (hw.ops_lt _ ho) (.inl (by simp [kind, ho]))))
  | infer => exact ⟨h.args, h.cur, h.chgs⟩
  | obligeArgs t =>
    refine h.push fun c hc => ?_
    obtain ⟨a, ha, rfl⟩ := List.mem_map.1 hc
    have ha := h.args a ha
    have hlt := hw.arg_lt op a ha
    refine .oblige hlt (.inl ?_)
    have h1 : pointed A s.lg a = false := by
      cases hpt : pointed A s.lg a with
      | false => rfl
      | true =>
        obtain ⟨op', _, ha', hf'⟩ := pointed_arg hw hp hlt hpt
        have : op' = op := by rw [← hw.arg_op op' a ha', ← hw.arg_op op a ha]
        subst this
        exact absurd hf' hf
    simp [kind, hw.arg_not_body op a ha, h1]
  | addsVars retain =>
    refine RunOk.push (r := { r with adds := true }) ⟨h.args, h.cur, h.chgs⟩ ?_
    split
    · exact allValid_nil A names s
    · intro c hc
      obtain ⟨a, ha, rfl⟩ := List.mem_map.1 hc
      exact .breakEdge (hw.arg_lt op a (h.args a ha)) (hw.arg_place op a (h.args a ha))
  | varsAdded => exact h.push (allValid_one (.sealOp (hw.ops_lt _ ho) (seal_places hw ho)))
  | next =>
    simp only [request]
    split
    · exact h
    · rename_i a as e
      have ha : ∀ x ∈ a :: as, x ∈ A.args op := e ▸ h.args
      exact ⟨fun x hx => ha x (by simp [hx]), fun b hb => by
        injection hb with hb; subst hb; exact newArg_ok hw hp (ha a (by simp)), h.chgs⟩
  | supplied t =>
    simp only [request]
    split
    · exact h
    · rename_i a e
      exact h.put (supplied_ok (h.cur a e) t)
  | returns t =>
    simp only [request]
    split
    · exact h
    · rename_i a e
      exact h.put (returns_ok hw hp (h.cur a e) t)
  | concrete =>
    simp only [request]
    split <;> exact h
  | decouple =>
    simp only [request]
    split
    · exact h
    · rename_i a e
      obtain ⟨h1, _, _, op', h2⟩ := h.cur a e
      exact h.push (allValid_one (.breakEdge h1 (by rw [hw.arg_op op' _ h2]; exact hw.arg_place op' _ h2)))
  | createVar t =>
    simp only [request]
    split
    · exact h
    · rename_i a e
      split
      · exact h
      · rename_i v hv
        split
        · exact h
        · rename_i n hn
          exact h.need fun c hc => newVar_ok (next_lt hw hn) (hw.var_name _ _ hv) hc
  | inject name t =>
    simp only [request]
    split
    · exact h
    · rename_i a as e
      exact h.need fun c hc => newVar_ok (hw.arg_lt op a (h.args a (by rw [e]; simp))) (hq name t rfl) hc

theorem requests_ok {A : Ast T} {names : List String} (hw : A.Wf names) {s : S T} (hp : Ptrs A s) {op : Nat} (ho : op ∈ A.ops)
    (hf : ¬ Fixed A s op) : ∀ (qs : List (Req T)) {r : Run T}, RunOk A names s op r →
      (∀ name t, Req.inject name t ∈ qs → name ∈ names) → RunOk A names s op (requests A s op r qs).1
  | [], _, h, _ => h
  | q :: qs, r, h, hq => by
    have h1 := request_ok hw hp ho hf h q fun name t e => hq name t (by simp [e])
    unfold requests
    split
    · rename_i r' e
      rw [e] at h1
      exact requests_ok hw hp ho hf qs h1 fun name t hm => hq name t (by simp [hm])
    · rename_i r' e' e
      rw [e] at h1
      exact h1

/-- What a block asks for: valid changes, and, if it compiles, types to be added. -/
def OutOk (A : Ast T) (names : List String) (s : S T) (o : Out T) : Prop :=
  ∃ cs anon, o.chgs = cs ++ anon.map (fun t => Chg.ty (.anonTy t)) ∧ AllValid A names s cs ∧
    ((∃ e, o.res = .error e) → anon = [])

theorem outOk_plain {A : Ast T} {names : List String} {s : S T} {o : Out T} (h : AllValid A names s o.chgs) : OutOk A names s o :=
  ⟨o.chgs, [], by simp, h, fun _ => rfl⟩

theorem runBuiltin_ok {A : Ast T} {I : Builtins T} {names : List String} (hw : A.Wf names) (hi : I.Named names) {s : S T} (hp : Ptrs A s)
    {op : Nat} (ho : op ∈ A.ops) (hf : ¬ Fixed A s op) (i : Nat) (t : T) : OutOk A names s (runBuiltin A I s i op t) := by
  have h := requests_ok hw hp ho hf (I s i op t).1 (r := ⟨A.args op, none, [], false, false⟩)
    ⟨fun _ h => h, fun _ e => (by cases e), allValid_nil A names s⟩ fun name u hm => hi s i op t name u hm
  unfold runBuiltin
  dsimp only
  split
  · rename_i r e he
    rw [he] at h
    exact outOk_plain h.chgs
  · rename_i r he
    rw [he] at h
    cases (I s i op t).2 with
    | fail b => exact outOk_plain h.chgs
    | ok u anon =>
      by_cases hr : r.args ≠ []
      · simp only [finish, if_pos hr]; exact outOk_plain h.chgs
      · simp only [finish, if_neg hr]
        exact ⟨r.chgs, anon, rfl, h.chgs, fun ⟨e, he⟩ => by cases he⟩

theorem getImpl_mem {A : Ast T} {op : Nat} {t : T} {c : Cmd} (h : A.getImpl op t = some c) : ∃ k, (k, c) ∈ A.cmds op := by
  unfold Ast.getImpl at h
  split at h
  · rename_i x hx
    injection h with h
    subst h
    exact ⟨_, List.mem_of_find?_eq_some hx⟩
  · cases hx : (A.cmds op).find? fun c => c.1 = none with
    | none => simp [hx] at h
    | some x =>
      simp [hx] at h
      subst h
      exact ⟨_, List.mem_of_find?_eq_some hx⟩

theorem def_mem {A : Ast T} {op d : Nat} {k : Option T} (ho : op ∈ A.ops) (h : (k, Cmd.defn d) ∈ A.cmds op) :
    d ∈ A.defs ∧ A.body d ∈ A.bodies := by
  have : d ∈ A.defs := by
    simp only [Ast.defs, List.mem_filterMap, List.mem_flatMap]
    exact ⟨_, ⟨op, ho, h⟩, rfl⟩
  exact ⟨this, List.mem_map.2 ⟨d, this, rfl⟩⟩

theorem callsiteArg_ok {A : Ast T} {names : List String} (hw : A.Wf names) {s : S T} (hp : Ptrs A s) (t : T) {op : Nat}
    (p : Option T × Nat) : AllValid A names s (callsiteArg A s t (A.args op) p).1 := by
  unfold callsiteArg
  split
  · exact allValid_nil A names s
  · rename_i n hn
    have hlt := hw.arg_lt op n (List.mem_of_getElem? hn)
    have h1 := supplied_ok (names := names) (newArg_ok hw hp (List.mem_of_getElem? hn)) t
    split
    · rename_i cs e
      rw [e] at h1; exact h1
    · rename_i a e
      rw [e] at h1
      split
      · exact allValid_nil A names s
      · rename_i u _
        have h2 := returns_ok hw hp h1 u
        split
        · rename_i cs e'
          rw [e'] at h2; exact h2
        · exact allValid_nil A names s

theorem callsiteArgs_ok {A : Ast T} {names : List String} (hw : A.Wf names) {s : S T} (hp : Ptrs A s) (t : T) {op : Nat} :
    ∀ ps : List (Option T × Nat), AllValid A names s (callsiteArgs A s t (A.args op) ps).1
  | [] => allValid_nil A names s
  | p :: ps => by
    have h1 := callsiteArg_ok hw hp t (op := op) p
    have h2 := callsiteArgs_ok hw hp t (op := op) ps
    unfold callsiteArgs
    split
    · rename_i cs e he
      rw [he] at h1; exact h1
    · rename_i cs he
      rw [he] at h1; exact h1.append h2

theorem runDef_ok {A : Ast T} {names : List String} (hw : A.Wf names) {s : S T} (hp : Ptrs A s) {d : Nat} (hd : A.body d ∈ A.bodies)
    (t : T) : AllValid A names s (runDef A s d t).chgs := by
  have h := callsiteArgs_ok hw hp t (op := A.owner d) (s.callsiteOf d)
  unfold runDef
  split
  · split
    · rename_i cs e he
      rw [he] at h; exact h
    · rename_i cs he
      rw [he] at h
      split <;> exact h
  · exact allValid_one (.known (hw.body_lt _ hd) (.inl (by simp [kind, hd])))

/-- A block compiled for the type its input is settled with. -/
theorem compileBlock_ok {A : Ast T} {I : Builtins T} {names : List String} (hw : A.Wf names) (hi : I.Named names) {s : S T}
    (hp : Ptrs A s) {op : Nat} (ho : op ∈ A.ops) {t : T} (ht : (s.tg.kn op .inp).ty = some t) :
    OutOk A names s (compileBlock A I s op t) := by
  unfold compileBlock
  split
  · exact outOk_plain (allValid_nil A names s)
  · rename_i i hg
    refine runBuiltin_ok hw hi hp ho ?_ i t
    rintro (⟨k, d, hk⟩ | ⟨u, d, hs, hd⟩)
    · obtain ⟨k', hm⟩ := getImpl_mem hg
      rw [hk] at hm
      simp at hm
    · have : u = t := by rcases hs with hs | hs <;> rw [hs] at ht <;> simpa [Ty.Kn.ty] using ht
      subst this
      rw [hg] at hd; cases hd
  · rename_i d hg
    obtain ⟨k, hm⟩ := getImpl_mem hg
    exact outOk_plain (runDef_ok hw hp (def_mem ho hm).2 t)

theorem variableChgs_ok {A : Ast T} {names : List String} (hw : A.Wf names) (s : S T) {n : Nat} (hn : n < A.count) :
    AllValid A names s (variableChgs A s n) := by
  unfold variableChgs
  split
  · exact allValid_nil A names s
  · rename_i v hv
    have hl := hw.var_lit n v hv
    split
    · rename_i hm
      split
      · split
        · exact (allValid_one (.known hn (.inr hm))).append (allValid_one (.any hn hl))
        · exact allValid_nil A names s
      · split
        · rename_i m hi
          have := (index_spec hi).1
          exact (allValid_one (.edge this hn hl)).append (allValid_one (.edge this hn hl))
        · exact allValid_nil A names s
      · exact allValid_nil A names s
    · exact allValid_nil A names s

theorem assign_ok {A : Ast T} {names : List String} (hw : A.Wf names) (s : S T) :
    AllValid A names s ((List.range A.count).flatMap (variableChgs A s)) := by
  intro c hc
  obtain ⟨n, hn, hc⟩ := List.mem_flatMap.1 hc
  exact variableChgs_ok hw s (List.mem_range.1 hn) c hc

/-- A definition on the path through a block. -/
theorem knownPaths_spec {A : Ast T} {names : List String} (hw : A.Wf names) {s : S T} (hn : Ty.NoSingle s.tg) {d : Nat}
    (h : d ∈ knownPaths A s) : A.owner d ∈ A.ops ∧ d ∈ A.defs ∧ A.body d ∈ A.bodies ∧ Fixed A s (A.owner d) := by
  obtain ⟨op, ho, hd⟩ := List.mem_filterMap.1 h
  have key : (∃ k, (k, Cmd.defn d) ∈ A.cmds op) ∧ Fixed A s op := by
    unfold predict at hd
    split at hd
    · rename_i t ht
      cases hg : A.getImpl op t with
      | none => rw [hg] at hd; cases hd
      | some c =>
        cases c with
        | intrinsic i => rw [hg] at hd; cases hd
        | defn d' =>
          rw [hg] at hd
          simp only [Option.bind_some, Cmd.def?, Option.some.injEq] at hd
          subst hd
          refine ⟨getImpl_mem hg, .inr ⟨t, d', ?_, hg⟩⟩
          have := hn op .inp
          generalize s.tg.kn op .inp = k at *
          match k, ht, this with
          | .known u, ht, _ => simp only [Ty.Kn.ty, Option.some.injEq] at ht; exact .inl (ht ▸ rfl)
          | .obliged u, ht, _ => simp only [Ty.Kn.ty, Option.some.injEq] at ht; exact .inr (ht ▸ rfl)
          | .inferred [u], _, h => exact absurd rfl (h u)
    · split at hd
      · rename_i c hc
        obtain ⟨k, c⟩ := c
        cases c with
        | intrinsic i => cases hd
        | defn d' =>
          simp only [Cmd.def?, Option.some.injEq] at hd
          subst hd
          exact ⟨⟨k, by rw [hc]; simp⟩, .inl ⟨k, d', hc⟩⟩
      · cases hd
  obtain ⟨⟨k, hk⟩, hf⟩ := key
  have : A.owner d = op := hw.owner op ho _ hk d rfl
  rw [this]
  exact ⟨ho, (def_mem ho hk).1, (def_mem ho hk).2, hf⟩

theorem callsiteParam_ok {A : Ast T} {names : List String} (hw : A.Wf names) {s : S T} (hp : Ptrs A s) {d : Nat}
    (hd : A.body d ∈ A.bodies) {name : String} (hk : name ∈ names) (t : Option T) {n op : Nat} (hn : n ∈ A.args op) :
    AllValid A names s (callsiteParam A s d name t n).1 := by
  have h0 := newArg_ok hw hp hn
  unfold callsiteParam
  split
  · rename_i cs e
    unfold declared at e
    split at e
    · cases e
    · rename_i u
      have := returns_ok hw hp h0 u
      rw [e] at this; exact this
  · split
    · exact allValid_nil A names s
    · exact allValid_nil A names s
    · split
      · exact allValid_nil A names s
      · split
        · exact allValid_nil A names s
        · exact allValid_nil A names s
        · rename_i c hc
          exact allValid_one (newVar_ok (hw.body_lt _ hd) hk hc)

theorem mapLoop_ok {A : Ast T} {names : List String} (hw : A.Wf names) {s : S T} (hp : Ptrs A s) {d : Nat}
    (hd : A.body d ∈ A.bodies) (ho : A.owner d ∈ A.ops) (hf : Fixed A s (A.owner d)) :
    ∀ (ps : List (String × Blk.PTy T)) (i : Nat) (as : List Nat) (acc : List (Option T × Nat)) (chg : Bool),
      (∀ p ∈ ps, p.1 ∈ names) → (∀ a ∈ as, a ∈ A.args (A.owner d)) → AllValid A names s (mapLoop A s d i ps as acc chg).1 := by
  intro ps
  induction ps with
  | nil =>
    intro i as acc chg _ _
    cases as <;> exact allValid_nil A names s
  | cons p ps ih =>
    intro i as acc chg hps has
    obtain ⟨name, p⟩ := p
    cases as with
    | nil => cases p <;> exact allValid_nil A names s
    | cons a as =>
      have hps' : ∀ p ∈ ps, p.1 ∈ names := fun q hq => hps q (by simp [hq])
      have has' : ∀ x ∈ as, x ∈ A.args (A.owner d) := fun x hx => has x (by simp [hx])
      have hk : name ∈ names := hps (name, p) (by simp)
      have ha := has a (by simp)
      by_cases hpe : p = .expr
      · subst hpe
        simp only [mapLoop]
        split
        · exact allValid_nil A names s
        · exact ih _ _ _ _ hps' has'
        · rename_i c hc
          refine AllValid.cons ?_ (ih _ _ _ _ hps' has')
          unfold newLazy at hc
          split at hc
          · rename_i hd'
            injection hc with hc; injection hc with hc; subst hc
            exact .lzy (hw.body_lt _ hd) hk (newVar_none hd') ho ha hf
          · cases hc
          · cases hc
      · have hc := callsiteParam_ok hw hp hd hk (ptyOf p) ha
        have e : mapLoop A s d i ((name, p) :: ps) (a :: as) acc chg = match callsiteParam A s d name (ptyOf p) a with
            | (cs, .error e) => (cs, .fail e)
            | (cs, .ok none) => (cs, .later)
            | (cs, .ok (some true)) =>
              (cs ++ (mapLoop A s d (i + 1) ps as (acc ++ [(ptyOf p, i % 256)]) chg).1,
                (mapLoop A s d (i + 1) ps as (acc ++ [(ptyOf p, i % 256)]) chg).2)
            | (cs, .ok (some false)) =>
              (cs ++ (mapLoop A s d (i + 1) ps as acc true).1, (mapLoop A s d (i + 1) ps as acc true).2) := by
          cases p <;> first | rfl | exact absurd rfl hpe
        rw [e]
        split <;> (rename_i hx; rw [hx] at hc; first | exact hc | exact hc.append (ih _ _ _ _ hps' has'))

theorem mapDef_ok {A : Ast T} {names : List String} (hw : A.Wf names) {s : S T} (hp : Ptrs A s) {d : Nat}
    (hd : A.body d ∈ A.bodies) (ho : A.owner d ∈ A.ops) (hf : Fixed A s (A.owner d)) : AllValid A names s (mapDef A s d).1 := by
  unfold mapDef
  split
  · exact allValid_nil A names s
  · exact mapLoop_ok hw hp hd ho hf _ _ _ _ _ (hw.param_name d) fun _ h => h

end Verif.Comp
