import Verif.Lemmas.EvalKept
import Verif.Lemmas.LocKept
/-! What the compiler has found out about names stays: no variable is added where something may already have been resolved. -/
namespace Verif.Comp
open Verif
set_option linter.unusedSectionVars false
variable {T V : Type} [DecidableEq T]

/-- Whatever was resolved is resolved to the same, and the variables of nodes are still theirs. -/
structure Onward (A : Ast T) (s s' : S T) : Prop where
  get : ∀ n ∈ A.places, ∀ k r, Loc.get s.lg n k = some r → Loc.get s'.lg n k = some r
  there : ∀ n ∈ A.places, ∀ k r, Loc.newVar s.lg n k = some r → Loc.newVar s'.lg n k = some r
  slots : ∀ (i : Nat) u, s.slots[i]? = some u → s'.slots[i]? = some u

theorem Onward.refl (A : Ast T) (s : S T) : Onward A s s := ⟨fun _ _ _ _ h => h, fun _ _ _ _ h => h, fun _ _ h => h⟩

theorem Onward.trans {A : Ast T} {s s' s'' : S T} (h : Onward A s s') (h' : Onward A s' s'') : Onward A s s'' :=
  ⟨fun n hn k r e => h'.get n hn k r (h.get n hn k r e), fun n hn k r e => h'.there n hn k r (h.there n hn k r e), fun i u e => h'.slots i u (h.slots i u e)⟩

theorem Onward.still {A : Ast T} {s s' : S T} (h1 : s'.lg = s.lg) (h2 : s'.slots = s.slots) : Onward A s s' :=
  ⟨fun _ _ _ _ h => by rw [h1]; exact h, fun _ _ _ _ h => by rw [h1]; exact h, fun _ _ h => by rw [h2]; exact h⟩

theorem Onward.variableAt {A : Ast T} {s s' : S T} (h : Onward A s s') {name : String} {n : Nat} (hn : n < A.count) {x : Nat × T}
    (hx : variableAt A s name n = some x) : variableAt A s' name n = some x := by
  unfold Comp.variableAt at hx
  split at hx
  · rename_i slot hs
    obtain ⟨t, h1, h2⟩ := Option.map_eq_some_iff.1 hx
    unfold Comp.variableAt
    rw [h.there _ (Ast.place_mem hn) _ _ hs]
    dsimp only
    rw [h.slots _ _ h1, Option.map_some, h2]
  · cases hx

theorem Onward.holdOf {A : Ast T} {s s' : S T} (h : Onward A s s') {n : Nat} (hn : n < A.count) {x : Hold T} (hx : holdOf A s n = some x) :
    holdOf A s' n = some x := by
  unfold Comp.holdOf at hx ⊢
  split at hx
  · split at hx
    · rename_i slot hs
      obtain ⟨t, h1, h2⟩ := Option.map_eq_some_iff.1 hx
      rw [h.get _ (Ast.place_mem hn) _ _ hs]
      dsimp only
      rw [h.slots _ _ h1, Option.map_some, h2]
    · cases hx
  · exact hx

/-- What a list of changes does to the graph of variables. -/
structure Forth (A : Ast T) (cs : List (Chg T)) (s s' : S T) : Prop where
  onward : Onward A s s'
  edges : Loc.EdgesOk s'.lg
  sealed_ : ∀ p, s'.lg.isSealed p = true → s.lg.isSealed p = true ∨ ∃ m, Chg.sealOp m ∈ cs ∧ p = A.place m
  seals : ∀ a p, p ∈ s.lg.seals a → p ∈ s'.lg.seals a ∨ ∃ o x, Chg.breakEdge o x ∈ cs ∧ a = A.place x ∧ p = A.place o

/-- No change takes away that a variable may be made here. -/
structure Spares (A : Ast T) (cs : List (Chg T)) (p : Loc.Node) : Prop where
  seal_ : ∀ m, Chg.sealOp m ∈ cs → ∀ l, Loc.Allowed l p → Loc.Allowed (Loc.apply A.places l (.seal (A.place m))) p
  edge : ∀ o x, Chg.breakEdge o x ∈ cs → ∀ l, Loc.Allowed l p → Loc.Allowed (Loc.apply A.places l (.breakEdge (A.place o) (A.place x))) p

theorem Spares.tail {A : Ast T} {c : Chg T} {cs : List (Chg T)} {p : Loc.Node} (h : Spares A (c :: cs) p) : Spares A cs p :=
  ⟨fun m hm => h.seal_ m (List.mem_cons_of_mem _ hm), fun o x hm => h.edge o x (List.mem_cons_of_mem _ hm)⟩

section
variable {A : Ast T}

theorem Forth.cons {c : Chg T} {cs : List (Chg T)} {s s1 s' : S T} (h1 : Forth A [c] s s1) (h : Forth A cs s1 s') : Forth A (c :: cs) s s' := by
  refine ⟨h1.onward.trans h.onward, h.edges, fun p hp => ?_, fun a p hp => ?_⟩
  · rcases h.sealed_ p hp with h2 | ⟨m, h2, e⟩
    · rcases h1.sealed_ p h2 with h3 | ⟨m, h3, e⟩
      · exact .inl h3
      · exact .inr ⟨m, by rw [List.mem_singleton.1 h3]; simp, e⟩
    · exact .inr ⟨m, List.mem_cons_of_mem _ h2, e⟩
  · rcases h1.seals a p hp with h2 | ⟨o, x, h2, e⟩
    · rcases h.seals a p h2 with h3 | ⟨o, x, h3, e⟩
      · exact .inl h3
      · exact .inr ⟨o, x, List.mem_cons_of_mem _ h3, e⟩
    · exact .inr ⟨o, x, by rw [List.mem_singleton.1 h2]; simp, e⟩

theorem get_apply_same {nodes : List Loc.Node} {l : Loc.State} {c : Loc.Chg} (h1 : (Loc.apply nodes l c).maps = l.maps)
    (h2 : (Loc.apply nodes l c).locals = l.locals) {n : Loc.Node} {k : String} {r : Option Loc.Local} (h : Loc.get l n k = some r) :
    Loc.get (Loc.apply nodes l c) n k = some r := by
  unfold Loc.get at h ⊢
  split at h
  · rename_i hs
    rw [if_pos (show Loc.isSealedAt (Loc.apply nodes l c) n = true from Loc.apply_sealedIn nodes l c _ _ hs), ← h]
    unfold Loc.getAny
    rw [h1, h2]
  · cases h

theorem forth1 (hc : Loc.Closed A.places) (hargs : Loc.ArgsOk A.places) {s s' : S T} {D : List Scope.DefAt} (h : Locs A s D) (he : Loc.EdgesOk s.lg)
    {c : Chg T} (hl : isLzy c = false) (hv : ∀ name t n, c = .var name t n → A.place n ∈ A.places ∧ (A.place n, name) ∉ D ∧ Loc.Allowed s.lg (A.place n))
    (hb : ∀ o x, c = .breakEdge o x → ∃ i, A.place x = .arg i :: A.place o) {b : Bool} (e : apply1 A s c = .ok (s', b)) : Forth A [c] s s' := by
  have hlen : s.lg.locals.length = D.length := by rw [h.locals]; simp
  cases c with
  | ty c =>
    simp only [apply1] at e
    split at e
    · cases e
      exact ⟨.still rfl rfl, he, fun _ h => .inl h, fun _ _ h => .inl h⟩
    · cases e
  | var name t n =>
    cases e
    obtain ⟨h1, h2, h3⟩ := hv name t n rfl
    refine ⟨⟨fun m hm k r hr => Loc.get_newVar hc hargs h.lex hlen he h1 h3 name hm hr, fun m hm k r hr => Loc.newVar_newVar hc h.lex hlen h1 h2 hm hr,
      fun i u hi => append_at i u hi⟩, Loc.apply_edges A.places s.lg (.newVar name (A.place n)) (fun _ _ e => by cases e) he, fun _ h => .inl h, fun _ _ h => .inl h⟩
  | lzy name to n => cases hl
  | sealOp n =>
    cases e
    refine ⟨⟨fun m hm k r hr => get_apply_same (nodes := A.places) (c := .seal (A.place n)) rfl rfl hr, fun _ _ _ _ h => h, fun _ _ h => h⟩, Loc.apply_edges A.places s.lg (.seal (A.place n)) (fun _ _ e => by cases e) he,
      fun p hp => ?_, fun _ _ h => .inl h⟩
    simp only [Loc.apply, Bool.or_eq_true, decide_eq_true_eq] at hp
    rcases hp with hp | hp
    · exact .inr ⟨n, by simp, hp⟩
    · exact .inl hp
  | breakEdge op arg =>
    cases e
    refine ⟨⟨fun m hm k r hr => get_apply_same (nodes := A.places) (c := .breakEdge (A.place op) (A.place arg)) rfl rfl hr, fun _ _ _ _ h => h, fun _ _ h => h⟩, Loc.apply_edges A.places s.lg (.breakEdge (A.place op) (A.place arg)) (fun o a e => ?_) he,
      fun p hp => .inl hp, fun a p hp => ?_⟩
    · cases e; exact hb op arg rfl
    · simp only [Loc.apply]
      split
      · rename_i e
        by_cases hpe : p = A.place op
        · exact .inr ⟨op, arg, by simp, e, hpe⟩
        · exact .inl (List.mem_filter.2 ⟨hp, by simpa using hpe⟩)
      · exact .inl hp

theorem allowed_newVar {nodes : List Loc.Node} {l : Loc.State} {name : String} {n p : Loc.Node} (h : Loc.Allowed l p) :
    Loc.Allowed (Loc.apply nodes l (.newVar name n)) p := by
  unfold Loc.Allowed at h ⊢
  split at h <;> exact h

/-- A list of changes that adds variables only where they may be made. -/
theorem applyAll_forth (hc : Loc.Closed A.places) (hargs : Loc.ArgsOk A.places) : ∀ {cs : List (Chg T)} {s s' : S T} {D : List Scope.DefAt} {b b' : Bool},
    Locs A s D → Loc.EdgesOk s.lg → (∀ c ∈ cs, isLzy c = false) → (∀ name t n, Chg.var name t n ∈ cs → A.place n ∈ A.places ∧ (A.place n, name) ∉ D) →
    (∀ name t n, Chg.var name t n ∈ cs → Loc.Allowed s.lg (A.place n) ∧ Spares A cs (A.place n)) → ((newDefs A cs).map (·.1)).Nodup →
    (∀ o x, Chg.breakEdge o x ∈ cs → ∃ i, A.place x = .arg i :: A.place o) → applyAll A s b cs = .ok (s', b') → Forth A cs s s'
  | [], s, s', D, b, b', h, he, _, _, _, _, _, e => by
    cases e
    exact ⟨.refl A s, he, fun _ h => .inl h, fun _ _ h => .inl h⟩
  | c :: cs, s, s', D, b, b', h, he, hl, hn, hal, hnd, hb, e => by
    unfold applyAll at e
    cases h1 : apply1 A s c with
    | error x => rw [h1] at e; cases e
    | ok x =>
      obtain ⟨s1, b1⟩ := x
      rw [h1] at e
      have hf := forth1 hc hargs h he (hl c (by simp)) (fun name t n e => by
        have h2 := hn name t n (by rw [e]; simp)
        exact ⟨h2.1, h2.2, (hal name t n (by rw [e]; simp)).1⟩) (fun o x e => hb o x (by rw [e]; simp)) h1
      have hlocs := (apply1_locs hc h (hl c (by simp)) (fun name t n e => (hn name t n (by rw [e]; simp)).1) h1).1
      rw [newDefs_cons, List.map_append] at hnd
      obtain ⟨hnd1, hnd2, hnd3⟩ := List.nodup_append.1 hnd
      refine hf.cons (applyAll_forth hc hargs hlocs hf.edges (fun c hc => hl c (List.mem_cons_of_mem _ hc)) (fun name t n hm => ?_) (fun name t n hm => ?_) hnd2
        (fun o x hm => hb o x (List.mem_cons_of_mem _ hm)) e)
      · obtain ⟨h2, h3⟩ := hn name t n (List.mem_cons_of_mem _ hm)
        refine ⟨h2, fun hm' => ?_⟩
        rcases List.mem_append.1 hm' with h4 | h4
        · exact h3 h4
        · exact hnd3 _ h4 _ (List.mem_map.2 ⟨_, newDefs_var hm, rfl⟩) rfl
      · obtain ⟨h2, h3⟩ := hal name t n (List.mem_cons_of_mem _ hm)
        refine ⟨?_, h3.tail⟩
        cases c with
        | ty c =>
          simp only [apply1] at h1
          split at h1
          · cases h1; exact h2
          · cases h1
        | var name t n => cases h1; exact allowed_newVar h2
        | lzy name to n => cases hl (.lzy name to n) (by simp)
        | sealOp m => cases h1; exact h3.seal_ m (by simp) _ h2
        | breakEdge o x => cases h1; exact h3.edge o x (by simp) _ h2

/-! ### Whose places a command seals -/

/-- Only the block itself is sealed, and only its arguments are cut off from it. -/
def Mine (A : Ast T) (op : Nat) : Chg T → Prop
  | .sealOp m => m = op
  | .breakEdge o a => o = op ∧ a ∈ A.args op
  | _ => True

theorem ty_mine {op : Nat} {cs : List (Chg T)} (h : ∀ c ∈ cs, ∃ x, c = .ty x) : ∀ c ∈ cs, Mine A op c := fun c hc => by
  obtain ⟨x, e⟩ := h c hc
  rw [e]; trivial

theorem push_mine {op : Nat} {r : Run T} (h : ∀ c ∈ r.chgs, Mine A op c) {cs : List (Chg T)} (hc : ∀ c ∈ cs, Mine A op c) :
    ∀ c ∈ (r.push cs).chgs, Mine A op c := fun c hm => (List.mem_append.1 hm).elim (h c) (hc c)

theorem put_mine {op : Nat} {r : Run T} (h : ∀ c ∈ r.chgs, Mine A op c) {x : Except (List (Chg T)) (Arg T)} (hx : ∀ cs, x = .error cs → ∀ c ∈ cs, ∃ y, c = .ty y) :
    ∀ c ∈ (r.put x).1.chgs, Mine A op c := by
  unfold Run.put
  split
  · exact push_mine h (ty_mine (hx _ rfl))
  · exact h

theorem need_mine {op : Nat} {s : S T} {r : Run T} (h : ∀ c ∈ r.chgs, Mine A op c) {name : String} {t : T} {n : Nat} :
    ∀ c ∈ (r.need (newVar A s name t n)).1.chgs, Mine A op c := by
  unfold Run.need
  split
  · exact h
  · exact h
  · rename_i c hc
    refine push_mine h fun c' hc' => ?_
    rw [List.mem_singleton.1 hc', (newVar_some hc).1]; trivial

theorem request_mine {names : List String} (hw : A.Wf names) {s : S T} {op : Nat} {r : Run T} {n : Option Nat} (hwh : Where A op r n)
    (h : ∀ c ∈ r.chgs, Mine A op c) (q : Req T) : ∀ c ∈ (request A s op r q).1.chgs, Mine A op c := by
  cases q with
  | output t => exact push_mine h fun c hc => by rw [List.mem_singleton.1 hc]; trivial
  | infer => exact h
  | obligeArgs t =>
    refine push_mine h fun c hc => ?_
    obtain ⟨a, _, e⟩ := List.mem_map.1 hc
    rw [← e]; trivial
  | addsVars b =>
    refine push_mine (r := { r with adds := true }) h fun c hc => ?_
    split at hc
    · cases hc
    · obtain ⟨a, ha, e⟩ := List.mem_map.1 hc
      rw [← e]; exact ⟨rfl, hwh.args a ha⟩
  | varsAdded => exact push_mine h fun c hc => by rw [List.mem_singleton.1 hc]; rfl
  | next =>
    simp only [request]
    split <;> exact h
  | supplied t =>
    simp only [request]
    split
    · exact h
    · exact put_mine h fun cs => supplied_ty
  | returns t =>
    simp only [request]
    split
    · exact h
    · exact put_mine h fun cs => returns_ty
  | concrete =>
    simp only [request]
    split <;> exact h
  | decouple =>
    simp only [request]
    split
    · exact h
    · rename_i a ha
      refine push_mine h fun c hc => ?_
      rw [List.mem_singleton.1 hc]
      have h1 : a.node ∈ A.args op := hwh.node _ (by
        have := hwh.cur
        unfold AtNode at this
        rw [← this, ha]; rfl)
      exact ⟨hw.arg_op op _ h1, h1⟩
  | createVar t =>
    simp only [request]
    split
    · exact h
    · split
      · exact h
      · split
        · exact h
        · exact need_mine h
  | inject name t =>
    simp only [request]
    split
    · exact h
    · exact need_mine h

theorem request_on {s : S T} (hp : ∀ p, Loc.Local.ptr p ∉ s.lg.locals) {op : Nat} {r r1 : Run T} {n : Option Nat} (hwh : Where A op r n) {q : Req T}
    (h1 : request A s op r q = (r1, none)) : ∃ m, Where A op r1 m := by
  cases hq : isNext q with
  | false => exact ⟨n, (request_where hwh hq h1).1⟩
  | true =>
    obtain rfl : q = .next := by cases q <;> first | rfl | cases hq
    simp only [request] at h1
    split at h1
    · cases h1
    · rename_i a as ha
      cases h1
      exact ⟨some a, next_where hp hwh ha⟩

theorem requests_mine {names : List String} (hw : A.Wf names) {s : S T} (hp : ∀ p, Loc.Local.ptr p ∉ s.lg.locals) {op : Nat} :
    ∀ {qs : List (Req T)} {r : Run T} {n : Option Nat}, Where A op r n → (∀ c ∈ r.chgs, Mine A op c) → ∀ c ∈ (requests A s op r qs).1.chgs, Mine A op c
  | [], r, n, _, h => h
  | q :: qs, r, n, hwh, h => by
    have h1 := request_mine hw hwh h q (s := s)
    unfold requests
    cases h2 : request A s op r q with
    | mk r1 e =>
      rw [h2] at h1
      cases e with
      | some e => exact h1
      | none =>
        obtain ⟨m, hm⟩ := request_on hp hwh h2
        exact requests_mine hw hp hm h1

theorem runBuiltin_mine {I : Builtins T} {names : List String} (hw : A.Wf names) {s : S T} (hp : ∀ p, Loc.Local.ptr p ∉ s.lg.locals) {i op : Nat} {t : T} :
    ∀ c ∈ (runBuiltin A I s i op t).chgs, Mine A op c := by
  have h := requests_mine hw hp (qs := (I s i op t).1) (start_where op) fun _ h => by cases h
  unfold runBuiltin
  dsimp only
  cases hr : requests A s op ⟨A.args op, none, [], false, false⟩ (I s i op t).1 with
  | mk r e =>
    rw [show requests A s op (.start (A.args op)) (I s i op t).1 = (r, e) from hr] at h
    cases e with
    | some e => exact h
    | none =>
      dsimp only
      unfold finish
      split
      · exact h
      · split
        · exact h
        · intro c hc
          rcases List.mem_append.1 hc with hc | hc
          · exact h c hc
          · obtain ⟨x, _, e⟩ := List.mem_map.1 hc
            rw [← e]; trivial

theorem tryAll_chgs (A : Ast T) (I : Builtins T) (s : S T) : ∀ c ∈ (tryAll A I s).chgs, (∃ x ∈ candidates A s, c ∈ (compileBlock A I s x.1 x.2).chgs) ∨
    (∃ y, c = .ty y) ∨ ∃ x ∈ candidates A s, c = .sealOp x.1 ∧ (compileBlock A I s x.1 x.2).adds = false := by
  have key : ∀ (xs : List (Nat × T)) (r : Tried T), (∀ x ∈ xs, x ∈ candidates A s) → ∀ c ∈ (xs.foldl (tryBlock A I s) r).chgs, c ∈ r.chgs ∨
      (∃ x ∈ candidates A s, c ∈ (compileBlock A I s x.1 x.2).chgs) ∨ (∃ y, c = .ty y) ∨
        ∃ x ∈ candidates A s, c = .sealOp x.1 ∧ (compileBlock A I s x.1 x.2).adds = false := by
    intro xs
    induction xs with
    | nil => intro r _ c hc; exact .inl hc
    | cons x xs ih =>
      intro r hx c hc
      rcases ih (tryBlock A I s r x) (fun y hy => hx y (by simp [hy])) c hc with h | h
      · have hs : c ∈ (if (compileBlock A I s x.1 x.2).adds then ([] : List (Chg T)) else [.sealOp x.1]) →
            ∃ x ∈ candidates A s, c = .sealOp x.1 ∧ (compileBlock A I s x.1 x.2).adds = false := by
          intro h
          split at h
          · cases h
          · rename_i ha
            exact ⟨x, hx x (by simp), List.mem_singleton.1 h, by simpa using ha⟩
        unfold tryBlock at h
        dsimp only at h
        split at h <;> simp only [List.mem_append, List.mem_singleton] at h
        · rcases h with ((h | h) | h) | h
          · exact .inl h
          · exact .inr (.inl ⟨x, hx x (by simp), h⟩)
          · exact .inr (.inr (.inl ⟨_, h⟩))
          · exact .inr (.inr (.inr (hs h)))
        · rcases h with (h | h) | h
          · exact .inl h
          · exact .inr (.inl ⟨x, hx x (by simp), h⟩)
          · exact .inr (.inr (.inr (hs h)))
      · exact .inr h
  intro c hc
  rcases key (candidates A s) ⟨[], [], [], none⟩ (fun _ h => h) c hc with h | h
  · cases h
  · exact h

end

end Verif.Comp
