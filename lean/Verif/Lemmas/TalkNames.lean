import Verif.Lemmas.Talk
import Verif.Lemmas.Firm
import Verif.Spec.Names
/-! Commands that are conversations: when they are taken to have announced all their variables, they have. -/
namespace Verif.Comp
open Verif
set_option linter.unusedSectionVars false
variable {T V : Type} [DecidableEq T]

/-! ### What a call can change -/

/-- The changes a call can lead to. -/
def Req.May : Req T → Chg T → Prop
  | .addsVars r, .breakEdge _ _ => r = false
  | .varsAdded, .sealOp _ => True
  | .decouple, .breakEdge _ _ => True
  | .createVar _, .var _ _ _ => True
  | .inject _ _, .var _ _ _ => True
  | _, .ty _ => True
  | _, _ => False

section
variable {A : Ast T} {s s' : S T} {op : Nat}

theorem push_may {r : Run T} {q : Req T} {cs : List (Chg T)} (h : ∀ c ∈ cs, q.May c) {c : Chg T} (hc : c ∈ (r.push cs).chgs) : c ∈ r.chgs ∨ q.May c := by
  rcases List.mem_append.1 hc with hc | hc
  · exact .inl hc
  · exact .inr (h c hc)

theorem may_ty (q : Req T) (x : Ty.Chg T) : q.May (.ty x) := by cases q <;> trivial

theorem put_may {r : Run T} {q : Req T} {x : Except (List (Chg T)) (Arg T)} (hx : ∀ cs, x = .error cs → ∀ c ∈ cs, ∃ y, c = .ty y) {c : Chg T}
    (hc : c ∈ (r.put x).1.chgs) : c ∈ r.chgs ∨ q.May c := by
  cases x with
  | error cs => exact push_may (fun c hc => by obtain ⟨y, e⟩ := hx cs rfl c hc; rw [e]; exact may_ty _ _) hc
  | ok a => exact .inl hc

theorem need_may {r : Run T} {q : Req T} {name : String} {t : T} {n : Nat} (hq : q.May (.var name t n)) {c : Chg T}
    (hc : c ∈ (r.need (newVar A s name t n)).1.chgs) : c ∈ r.chgs ∨ q.May c := by
  unfold newVar at hc
  split at hc
  · exact push_may (fun c hc => by rw [List.mem_singleton.1 hc]; exact hq) hc
  · exact .inl hc
  · exact .inl hc

theorem request_may (r : Run T) (q : Req T) {c : Chg T} (hc : c ∈ (request A s op r q).1.chgs) : c ∈ r.chgs ∨ q.May c := by
  cases q with
  | output t => exact push_may (fun c hc => by rw [List.mem_singleton.1 hc]; trivial) hc
  | infer => exact .inl hc
  | obligeArgs t => exact push_may (fun c hc => by obtain ⟨a, _, e⟩ := List.mem_map.1 hc; rw [← e]; trivial) hc
  | addsVars retain =>
    rcases List.mem_append.1 hc with hc | hc
    · exact .inl hc
    · cases retain with
      | true => cases hc
      | false =>
        obtain ⟨a, _, e⟩ := List.mem_map.1 hc
        rw [← e]; exact .inr rfl
  | varsAdded => exact push_may (fun c hc => by rw [List.mem_singleton.1 hc]; trivial) hc
  | next =>
    unfold request at hc
    dsimp only at hc
    split at hc <;> exact .inl hc
  | supplied t =>
    unfold request at hc
    dsimp only at hc
    split at hc
    · exact .inl hc
    · refine put_may (fun cs e c hc => ?_) hc
      unfold supplied at e
      split at e
      · cases e
      · split at e <;> cases e; cases hc
      · split at e <;> cases e; cases hc
      · cases e
        split at hc
        · rw [List.mem_singleton.1 hc]; exact ⟨_, rfl⟩
        · cases hc
  | returns t =>
    unfold request at hc
    dsimp only at hc
    split at hc
    · exact .inl hc
    · refine put_may (fun cs e c hc => ?_) hc
      unfold returns at e
      split at e
      · cases e; cases hc
      · split at e <;> cases e; cases hc
      · split at e <;> cases e; cases hc
      · cases e
        split at hc
        · rw [List.mem_singleton.1 hc]; exact ⟨_, rfl⟩
        · cases hc
  | concrete =>
    unfold request at hc
    dsimp only at hc
    split at hc <;> exact .inl hc
  | decouple =>
    unfold request at hc
    dsimp only at hc
    split at hc
    · exact .inl hc
    · exact push_may (fun c hc => by rw [List.mem_singleton.1 hc]; trivial) hc
  | createVar t =>
    unfold request at hc
    dsimp only at hc
    split at hc
    · exact .inl hc
    · split at hc
      · exact .inl hc
      · split at hc
        · exact .inl hc
        · exact need_may (q := .createVar t) trivial hc
  | inject name t =>
    unfold request at hc
    dsimp only at hc
    split at hc
    · exact .inl hc
    · exact need_may (q := .inject name t) trivial hc

theorem requests_may : ∀ {qs : List (Req T)} {r : Run T} {c : Chg T}, c ∈ (requests A s op r qs).1.chgs → c ∈ r.chgs ∨ ∃ q ∈ qs, q.May c
  | [], _, _, h => .inl h
  | q :: qs, r, c, h => by
    have h1 := request_may (A := A) (s := s) (op := op) r q (c := c)
    unfold requests at h
    cases h2 : request A s op r q with
    | mk r1 e =>
      rw [h2] at h h1
      cases e with
      | some e =>
        rcases h1 h with h | h
        · exact .inl h
        · exact .inr ⟨q, .head _, h⟩
      | none =>
        rcases requests_may h with h | ⟨q', h3, h4⟩
        · rcases h1 h with h | h
          · exact .inl h
          · exact .inr ⟨q, .head _, h⟩
        · exact .inr ⟨q', .tail _ h3, h4⟩

theorem request_keeps (r : Run T) (q : Req T) : (∀ c ∈ r.chgs, c ∈ (request A s op r q).1.chgs) ∧ (r.adds = true → (request A s op r q).1.adds = true) := by
  have need : ∀ x : Except Err (Option (Chg T)), (∀ c ∈ r.chgs, c ∈ (r.need x).1.chgs) ∧ (r.adds = true → (r.need x).1.adds = true) := fun x => by
    rcases x with _ | _ | _
    · exact ⟨fun _ h => h, fun h => h⟩
    · exact ⟨fun _ h => h, fun h => h⟩
    · exact ⟨fun _ h => List.mem_append_left _ h, fun h => h⟩
  have put : ∀ x, (∀ c ∈ r.chgs, c ∈ (r.put x).1.chgs) ∧ (r.adds = true → (r.put x).1.adds = true) := fun x => by
    rcases x with _ | _
    · exact ⟨fun _ h => List.mem_append_left _ h, fun h => h⟩
    · exact ⟨fun _ h => h, fun h => h⟩
  have push : ∀ cs, (∀ c ∈ r.chgs, c ∈ (r.push cs).chgs) ∧ (r.adds = true → (r.push cs).adds = true) := fun cs =>
    ⟨fun _ h => List.mem_append_left _ h, fun h => h⟩
  have same : (∀ c ∈ r.chgs, c ∈ r.chgs) ∧ (r.adds = true → r.adds = true) := ⟨fun _ h => h, fun h => h⟩
  cases q <;> simp only [request] <;> (try split) <;> (try split) <;> (try split) <;>
    first | exact same | exact push _ | exact put _ | exact need _ | exact ⟨fun _ h => List.mem_append_left _ h, fun _ => rfl⟩

theorem requests_keeps : ∀ (qs : List (Req T)) (r : Run T), (∀ c ∈ r.chgs, c ∈ (requests A s op r qs).1.chgs) ∧ (r.adds = true → (requests A s op r qs).1.adds = true)
  | [], _ => ⟨fun _ h => h, fun h => h⟩
  | q :: qs, r => by
    obtain ⟨h1, h2⟩ := request_keeps (A := A) (s := s) (op := op) r q
    unfold requests
    cases h : request A s op r q with
    | mk r1 e =>
      rw [h] at h1 h2
      cases e with
      | some e => exact ⟨h1, h2⟩
      | none =>
        obtain ⟨h3, h4⟩ := requests_keeps qs r1
        exact ⟨fun c hc => h3 c (h1 c hc), fun hc => h4 (h2 hc)⟩

/-- The first call and then the rest. -/
theorem requests_first {r : Run T} {q : Req T} {qs : List (Req T)} : requests A s op r (q :: qs) = match request A s op r q with
    | (r1, none) => requests A s op r1 qs
    | (r1, some e) => (r1, some e) := by
  conv => lhs; unfold requests
  rfl

theorem requests_app : ∀ (p : List (Req T)) {r : Run T} {q : List (Req T)}, requests A s op r (p ++ q) = match requests A s op r p with
    | (r1, none) => requests A s op r1 q
    | (r1, some e) => (r1, some e)
  | [], _, _ => rfl
  | x :: p, r, q => by
    rw [List.cons_append, requests_first, requests_first]
    cases h : request A s op r x with
    | mk r1 e =>
      cases e with
      | some e => rfl
      | none => exact requests_app p

theorem takes_may {l : Bool} {t : Option T} {u : Option T → Option T} {o : Option T} {q : Req T} (hq : q ∈ takes l t u o) {c : Chg T} (h : q.May c) :
    (∃ x, c = .ty x) ∨ l = true ∧ ∃ o a, c = .breakEdge o a := by
  unfold takes at hq
  simp only [List.mem_cons, List.mem_append, List.mem_map, Option.mem_toList, List.mem_singleton, List.not_mem_nil, or_false] at hq
  rcases hq with e | e | ⟨_, _, e⟩ | ⟨_, _, e⟩ | e
  · subst e; cases c <;> first | exact .inl ⟨_, rfl⟩ | exact h.elim
  · cases l with
    | false => cases e
    | true =>
      rw [if_pos rfl] at e
      rw [List.mem_singleton.1 e] at h
      cases c <;> first | exact .inl ⟨_, rfl⟩ | exact .inr ⟨rfl, _, _, rfl⟩ | exact h.elim
  · subst e; cases c <;> first | exact .inl ⟨_, rfl⟩ | exact h.elim
  · subst e; cases c <;> first | exact .inl ⟨_, rfl⟩ | exact h.elim
  · subst e; cases c <;> first | exact .inl ⟨_, rfl⟩ | exact h.elim

/-! ### The order of a conversation -/

/-- It asks for no variables. -/
structure Talk.NoVars (k : Talk T V) : Prop where
  inject : k.Injects fun _ _ => False
  bind : k.NoBind

/-- After announcing that all variables are asked for, it asks for none. -/
def Talk.Late : Talk T V → Prop
  | .fail _ => True
  | .done _ _ _ => True
  | .given _ => True
  | .tell .varsAdded k => k.NoVars
  | .tell _ k => k.Late
  | .read _ _ _ k => ∀ i o, (k i o).Late
  | .inject _ _ k => k.Late
  | .bind _ k => k.Late

/-- It announces that there are variables, before it asks for any. -/
def Talk.Opens : Talk T V → Prop
  | .tell (.addsVars _) k => k.Late
  | .tell .varsAdded _ => False
  | .tell _ k => k.Opens
  | _ => False

/-- No argument is freed. -/
def Talk.Tight : Talk T V → Prop
  | .fail _ => True
  | .done _ _ _ => True
  | .given _ => True
  | .tell (.addsVars r) k => r = true ∧ k.Tight
  | .tell _ k => k.Tight
  | .read l _ _ k => l = false ∧ ∀ i o, (k i o).Tight
  | .inject _ _ k => k.Tight
  | .bind _ k => k.Tight

/-- No argument is freed once variables of arguments are asked for. -/
def Talk.Frees : Talk T V → Prop
  | .fail _ => True
  | .done _ _ _ => True
  | .given _ => True
  | .tell (.addsVars false) k => k.Injects fun _ _ => False
  | .tell _ k => k.Frees
  | .read _ _ _ k => ∀ i o, (k i o).Frees
  | .inject _ _ k => k.Tight
  | .bind _ k => k.Frees

theorem Talk.Frees.of : ∀ {k : Talk T V}, (k.Injects fun _ _ => False) → k.Frees
  | .fail _, _ => trivial
  | .done .., _ => trivial
  | .given _, _ => trivial
  | .tell (.addsVars false) _, h => h
  | .tell (.addsVars true) k, h => Talk.Frees.of (k := k) h
  | .tell (.output _) k, h => Talk.Frees.of (k := k) h
  | .tell (.oblige _) k, h => Talk.Frees.of (k := k) h
  | .tell .varsAdded k, h => Talk.Frees.of (k := k) h
  | .read _ _ _ k, h => fun i o => Talk.Frees.of (h i o)
  | .inject .., h => h.1.elim
  | .bind _ k, h => Talk.Frees.of (k := k) h

/-! ### Which changes a conversation leads to -/

theorem Talk.NoVars.run {k : Talk T V} (h : k.NoVars) (as : List Nat) {q : Req T} (hq : q ∈ (k.run A s op as).1) {name : String} {v : T} {n : Nat} :
    ¬ q.May (.var name v n) := fun hm => by
  cases q with
  | createVar t => exact Talk.run_bind k as h.bind hq
  | inject m t => exact Talk.run_inject k as h.inject hq
  | _ => exact hm

theorem Talk.NoVars.none {k : Talk T V} (h : k.NoVars) (as : List Nat) {r : Run T} {name : String} {v : T} {n : Nat}
    (hc : .var name v n ∈ (requests A s op r (k.run A s op as).1).1.chgs) : .var name v n ∈ r.chgs := by
  rcases requests_may hc with hc | ⟨q, h1, h2⟩
  · exact hc
  · exact absurd h2 (h.run as h1)

theorem Talk.Tight.run : ∀ {k : Talk T V}, k.Tight → ∀ (as : List Nat) {q : Req T}, q ∈ (k.run A s op as).1 → ∀ {o a : Nat}, ¬ q.May (.breakEdge o a)
  | .fail _, _, _, _, h, _, _, _ => by cases h
  | .done .., _, _, _, h, _, _, _ => by cases h
  | .given _, _, _, _, h, _, _, hm => by rw [List.mem_singleton.1 h] at hm; exact hm
  | .tell w k, ht, as, q, h, _, _, hm => by
    rcases List.mem_cons.1 h with e | h
    · subst e
      cases w with
      | addsVars r => rw [ht.1] at hm; cases hm
      | _ => exact hm
    · refine Talk.Tight.run (k := k) ?_ as h hm
      cases w with
      | addsVars r => exact ht.2
      | _ => exact ht
  | .read .., _, [], _, h, _, _, hm => by rw [List.mem_singleton.1 h] at hm; exact hm
  | .read l t u k, ht, a :: as, q, h, _, _, hm => by
    have key : ∀ {o'}, q ∉ takes l t u o' := fun hq => by
      rcases takes_may hq hm with ⟨_, e⟩ | ⟨e, _⟩
      · cases e
      · rw [ht.1] at e; cases e
    rcases run_read (A := A) (s := s) (op := op) k l t u a as with ⟨i, o, _, _, e⟩ | ⟨_, e⟩
    · rw [e] at h
      rcases List.mem_append.1 h with h | h
      · exact key h
      · exact Talk.Tight.run (ht.2 i o) as h hm
    · rw [e] at h; exact key h
  | .inject _ _ k, ht, as, q, h, _, _, hm => by
    rcases List.mem_cons.1 h with e | h
    · subst e; exact hm
    · exact Talk.Tight.run (k := k) ht as h hm
  | .bind .., _, [], _, h, _, _, hm => by rw [List.mem_singleton.1 h] at hm; exact hm
  | .bind _ k, ht, a :: as, q, h, _, _, hm => by
    rcases List.mem_cons.1 h with e | h
    · subst e; exact hm
    · rcases List.mem_cons.1 h with e | h
      · subst e; exact hm
      · exact Talk.Tight.run (k := k) ht as h hm

theorem Talk.Tight.none {k : Talk T V} (h : k.Tight) (as : List Nat) {r : Run T} {o a : Nat}
    (hc : .breakEdge o a ∈ (requests A s op r (k.run A s op as).1).1.chgs) : .breakEdge o a ∈ r.chgs := by
  rcases requests_may hc with hc | ⟨q, h1, h2⟩
  · exact hc
  · exact absurd h2 (h.run as h1)

/-! ### Taking an argument -/

theorem took_args (hs : Sane s) {l : Bool} {t : Option T} {u : Option T → Option T} {o : Option T} {r r' : Run T} {a : Nat} {as : List Nat} (hr : r.args = a :: as)
    (h : requests A s op r (takes l t u o) = (r', none)) : r'.args = as := by
  rw [← List.append_nil (takes l t u o)] at h
  obtain ⟨b, r3, e1, _, _, _, e2, _⟩ := took_takes (qs := []) hs h
  cases e2
  rw [hr] at e1
  injection e1 with _ e1
  exact e1.symm

/-- What is freed by taking an argument is that argument. -/
theorem takes_frees (hs : Sane s) {l : Bool} {t : Option T} {u : Option T → Option T} {o : Option T} {r : Run T} {a : Nat} {as : List Nat} (hr : r.args = a :: as)
    {m b : Nat} (h : .breakEdge m b ∈ (requests A s op r (takes l t u o)).1.chgs) : .breakEdge m b ∈ r.chgs ∨ b = a := by
  have e0 : takes l t u o = .next :: ((if l then [.decouple] else []) ++ (t.toList.map .supplied ++ ((u o).toList.map .returns ++ [.concrete]))) := by
    simp [takes]
  rw [e0] at h
  unfold requests at h
  have e1 : request A s op r .next = ({ r with args := as, cur := some (newArg A s a) }, none) := by simp only [request, hr]
  rw [e1] at h
  dsimp only at h
  have rest : ∀ {r' : Run T}, .breakEdge m b ∈ (requests A s op r' (t.toList.map .supplied ++ ((u o).toList.map .returns ++ [.concrete]))).1.chgs → .breakEdge m b ∈ r'.chgs := by
    intro r' h
    rcases requests_may h with h | ⟨q, h1, h2⟩
    · exact h
    · simp only [List.mem_append, List.mem_map, Option.mem_toList, List.mem_singleton] at h1
      rcases h1 with ⟨_, _, e⟩ | ⟨_, _, e⟩ | e <;> subst e <;> exact h2.elim
  cases l with
  | false => exact .inl (rest (r' := { r with args := as, cur := some (newArg A s a) }) h)
  | true =>
    rw [if_pos rfl] at h
    replace h : Chg.breakEdge m b ∈ (requests A s op { r with args := as, cur := some (newArg A s a) } (.decouple :: (t.toList.map .supplied ++ ((u o).toList.map .returns ++ [.concrete])))).1.chgs := h
    unfold requests at h
    simp only [request] at h
    rcases List.mem_append.1 (rest h) with h | h
    · exact .inl h
    · have e := List.mem_singleton.1 h
      injection e with _ e
      exact .inr (e.trans (follow_self hs.noPtr _ _))

/-! ### Asking for variables -/

theorem asks_there (hs : Sane s) {name : String} {t : T} {n : Nat} (h : newVar A s name t n = .ok none) : ∃ x, variableAt A s name n = some x := by
  unfold newVar at h
  split at h
  · cases h
  · rename_i slot e
    have hm : Loc.Local.var slot ∈ s.lg.locals := by
      unfold Loc.newVar at e
      obtain ⟨v, _, e⟩ := Option.map_eq_some_iff.1 e
      exact List.mem_of_getElem? e
    obtain ⟨_, e', hl⟩ := hs.vars _ hm
    cases e'
    unfold variableAt
    rw [e]
    exact ⟨(slot, s.slots[slot]), by simp only [List.getElem?_eq_getElem hl, Option.map_some]⟩
  · cases h

theorem asks_none {r r' : Run T} {x : Except Err (Option (Chg T))} (h : r.need x = (r', none)) : x = .ok none ∧ r' = r := by
  rcases x with _ | _ | _ <;> cases h
  exact ⟨rfl, rfl⟩

theorem asks_var {r : Run T} {name m : String} {t v : T} {n n' : Nat} (h : .var name v n ∈ (r.need (newVar A s' m t n')).1.chgs) :
    .var name v n ∈ r.chgs ∨ (name = m ∧ n = n') := by
  unfold newVar at h
  split at h
  · rcases List.mem_append.1 h with h | h
    · exact .inl h
    · have := List.mem_singleton.1 h
      cases this
      exact .inr ⟨rfl, rfl⟩
  · exact .inl h
  · exact .inl h

theorem need_keeps {r : Run T} {x : Except Err (Option (Chg T))} : (r.need x).1.args = r.args := by
  rcases x with _ | _ | _ <;> rfl

/-- A conversation that got to announcing that all variables are asked for: all it asks for, knowing more, are there. -/
theorem Talk.late (hs : Sane s) (hs' : Sane s') (hw : Within s s') : ∀ (k : Talk T V) (as : List Nat) {r r' : Run T}, k.Late → r.args = as → r'.args = as →
    (∀ m, .sealOp m ∉ r.chgs) → ∀ {m : Nat}, .sealOp m ∈ (requests A s op r (k.run A s op as).1).1.chgs → ∀ {name : String} {v : T} {n : Nat},
    .var name v n ∈ (requests A s' op r' (k.run A s' op as).1).1.chgs → .var name v n ∈ r'.chgs ∨ ∃ x, variableAt A s name n = some x
  | .fail _, _, _, _, _, _, _, hn, _, h, _, _, _, _ => absurd h (hn _)
  | .done .., _, _, _, _, _, _, hn, _, h, _, _, _, _ => absurd h (hn _)
  | .given _, _, _, _, _, _, _, hn, _, h, _, _, _, _ => absurd h (hn _)
  | .tell .varsAdded k, as, r, r', hk, _, _, _, _, _, _, _, _, h' => by
    have := Talk.NoVars.none (k := k) hk as h'
    rcases List.mem_append.1 this with h | h
    · exact .inl h
    · cases List.mem_singleton.1 h
  | .tell (.output t) k, as, r, r', hk, hr, hr', hn, _, h, _, _, _, h' => by
    have := Talk.late hs hs' hw k as (r := r.push [.ty (.known op .out t)]) (r' := r'.push [.ty (.known op .out t)]) hk hr hr'
      (fun m hm => by rcases List.mem_append.1 hm with hm | hm; exact hn _ hm; cases List.mem_singleton.1 hm) h h'
    rcases this with h | h
    · rcases List.mem_append.1 h with h | h
      · exact .inl h
      · cases List.mem_singleton.1 h
    · exact .inr h
  | .tell (.oblige t) k, as, r, r', hk, hr, hr', hn, _, h, _, _, _, h' => by
    have := Talk.late hs hs' hw k as (r := r.push (r.args.map fun a => .ty (.oblige a .inp t))) (r' := r'.push (r'.args.map fun a => .ty (.oblige a .inp t))) hk hr hr'
      (fun m hm => by
        rcases List.mem_append.1 hm with hm | hm
        · exact hn _ hm
        · obtain ⟨_, _, e⟩ := List.mem_map.1 hm; cases e) h h'
    rcases this with h | h
    · rcases List.mem_append.1 h with h | h
      · exact .inl h
      · obtain ⟨_, _, e⟩ := List.mem_map.1 h; cases e
    · exact .inr h
  | .tell (.addsVars b) k, as, r, r', hk, hr, hr', hn, _, h, _, _, _, h' => by
    have := Talk.late hs hs' hw k as (r := ({ r with adds := true } : Run T).push (if b then [] else r.args.map fun a => .breakEdge op a))
      (r' := ({ r' with adds := true } : Run T).push (if b then [] else r'.args.map fun a => .breakEdge op a)) hk hr hr'
      (fun m hm => by
        rcases List.mem_append.1 hm with hm | hm
        · exact hn _ hm
        · split at hm
          · cases hm
          · obtain ⟨_, _, e⟩ := List.mem_map.1 hm; cases e) h h'
    rcases this with h | h
    · rcases List.mem_append.1 h with h | h
      · exact .inl h
      · split at h
        · cases h
        · obtain ⟨_, _, e⟩ := List.mem_map.1 h; cases e
    · exact .inr h
  | .read .., [], _, _, _, hr, _, hn, _, h, _, _, _, _ => by
    simp only [Talk.run, requests, request, hr] at h
    exact absurd h (hn _)
  | .read l t u k, a :: as, r, r', hk, hr, hr', hn, m, h, name, v, n, h' => by
    have nt : ∀ {o} {c : Chg T}, ((∃ m, c = .sealOp m) ∨ ∃ name v n, c = .var name v n) → ∀ {s : S T} {r : Run T}, c ∈ (requests A s op r (takes l t u o)).1.chgs → c ∈ r.chgs := by
      intro o c hc s r h
      rcases requests_may h with h | ⟨q, h1, h2⟩
      · exact h
      · rcases takes_may h1 h2 with ⟨_, e⟩ | ⟨_, _, _, e⟩ <;> subst e <;> rcases hc with ⟨_, e⟩ | ⟨_, _, _, e⟩ <;> cases e
    rcases run_read (A := A) (s := s) (op := op) k l t u a as with ⟨i, o, hi, ho, e⟩ | ⟨_, e⟩
    · rw [e] at h
      have hi' : inTy s' t a = some i := by
        cases t with
        | some t => exact hi
        | none => exact ty_within hs hw (show (s.tg.kn a .inp).ty = some i from hi)
      have ho' := ty_within hs hw ho
      dsimp only at h
      rw [requests_app] at h
      rcases run_read (A := A) (s := s') (op := op) k l t u a as with ⟨i', o', hi2, ho2, e'⟩ | ⟨hn', _⟩
      · rw [hi'] at hi2
        rw [ho'] at ho2
        cases hi2
        cases ho2
        rw [e'] at h'
        dsimp only at h'
        rw [requests_app] at h'
        have n1 := fun (m : Nat) => nt (o := some o) (c := .sealOp m) (.inl ⟨_, rfl⟩) (s := s) (r := r)
        have n2 := nt (o := some o) (c := .var name v n) (.inr ⟨_, _, _, rfl⟩) (s := s') (r := r')
        cases h1 : requests A s op r (takes l t u (some o)) with
        | mk r1 x =>
          rw [h1] at h n1
          cases x with
          | some x => exact absurd (n1 _ h) (hn _)
          | none =>
            cases h2 : requests A s' op r' (takes l t u (some o)) with
            | mk r2 y =>
              rw [h2] at h' n2
              cases y with
              | some y => exact .inl (n2 h')
              | none =>
                rcases Talk.late hs hs' hw (k i o) as (hk i o) (took_args hs hr h1) (took_args hs' hr' h2) (fun m hm => hn m (n1 m hm)) h h' with h | h
                · exact .inl (n2 h)
                · exact .inr h
      · rcases hn' with hn' | hn'
        · rw [hi'] at hn'; cases hn'
        · rw [ho'] at hn'; cases hn'
    · rw [e] at h
      exact absurd (nt (.inl ⟨_, rfl⟩) h) (hn _)
  | .inject nm t k, [], r, r', hk, hr, hr', hn, m, h, name, v, n, h' => by
    simp only [Talk.run, requests, request, hr] at h
    exact absurd h (hn _)
  | .inject nm t k, a :: as, r, r', hk, hr, hr', hn, m, h, name, v, n, h' => by
    simp only [Talk.run] at h h'
    rw [requests_first] at h h'
    simp only [request, hr, hr'] at h h'
    cases h1 : r.need (newVar A s nm t a) with
    | mk r1 x =>
      rw [h1] at h
      cases x with
      | some x =>
        have : .sealOp m ∈ (r.need (newVar A s nm t a)).1.chgs := by rw [h1]; exact h
        rcases need_may (q := .inject nm t) trivial this with h | h
        · exact absurd h (hn _)
        · exact h.elim
      | none =>
        obtain ⟨h2, rfl⟩ := asks_none h1
        have hth := asks_there hs h2
        have hv := asks_var (A := A) (s' := s') (r := r') (name := name) (v := v) (n := n) (m := nm) (t := t) (n' := a)
        cases h3 : r'.need (newVar A s' nm t a) with
        | mk r2 y =>
          rw [h3] at h' hv
          have key : .var name v n ∈ r2.chgs → .var name v n ∈ r'.chgs ∨ ∃ x, variableAt A s name n = some x := fun h => by
            rcases hv h with h | ⟨rfl, rfl⟩
            · exact .inl h
            · exact .inr hth
          cases y with
          | some y => exact key h'
          | none =>
            obtain ⟨_, rfl⟩ := asks_none h3
            exact Talk.late hs hs' hw k (a :: as) hk hr hr' hn h h'
  | .bind .., [], r, _, _, hr, _, hn, _, h, _, _, _, _ => by
    simp only [Talk.run, requests, request, hr] at h
    exact absurd h (hn _)
  | .bind t k, a :: as, r, r', hk, hr, hr', hn, m, h, name, v, n, h' => by
    simp only [Talk.run] at h h'
    rw [requests_first] at h h'
    simp only [request, hr, hr'] at h h'
    rw [requests_first] at h h'
    simp only [request] at h h'
    have en : (newArg A s a).node = a := follow_self hs.noPtr _ _
    have en' : (newArg A s' a).node = a := follow_self hs'.noPtr _ _
    rw [en] at h
    rw [en'] at h'
    cases hv : A.var a with
    | none => simp only [hv] at h; exact absurd h (hn _)
    | some w =>
      simp only [hv] at h h'
      cases hx : A.next (A.opOf a) with
      | none =>
        simp only [hx] at h h'
        exact Talk.late hs hs' hw k as (r := { r with args := as, cur := some (newArg A s a) }) (r' := { r' with args := as, cur := some (newArg A s' a) }) hk rfl rfl hn h h'
      | some b =>
        simp only [hx] at h h'
        generalize hq : ({ r with args := as, cur := some (newArg A s a) } : Run T) = q at h
        generalize hq' : ({ r' with args := as, cur := some (newArg A s' a) } : Run T) = q' at h'
        have c1 : q.chgs = r.chgs := by rw [← hq]
        have c2 : q'.chgs = r'.chgs := by rw [← hq']
        have a1 : q.args = as := by rw [← hq]
        have a2 : q'.args = as := by rw [← hq']
        rw [← c1] at hn
        rw [← c2]
        cases h1 : q.need (newVar A s w t b) with
        | mk r1 x =>
          rw [h1] at h
          cases x with
          | some x =>
            have : .sealOp m ∈ (q.need (newVar A s w t b)).1.chgs := by rw [h1]; exact h
            rcases need_may (q := .createVar t) trivial this with h | h
            · exact absurd h (hn _)
            · exact h.elim
          | none =>
            obtain ⟨h2, rfl⟩ := asks_none h1
            have hth := asks_there hs h2
            have hv := asks_var (A := A) (s' := s') (r := q') (name := name) (v := v) (n := n) (m := w) (t := t) (n' := b)
            cases h3 : q'.need (newVar A s' w t b) with
            | mk r2 y =>
              rw [h3] at h' hv
              have key : .var name v n ∈ r2.chgs → .var name v n ∈ q'.chgs ∨ ∃ x, variableAt A s name n = some x := fun h => by
                rcases hv h with h | ⟨rfl, rfl⟩
                · exact .inl h
                · exact .inr hth
              cases y with
              | some y => exact key h'
              | none =>
                obtain ⟨_, rfl⟩ := asks_none h3
                exact Talk.late hs hs' hw k as hk a1 a2 hn h h'

/-! ### Where variables are asked for -/

theorem tell_ok (r : Run T) (q : Say T) : ∃ r1, request A s op r q.req = (r1, none) ∧ r1.args = r.args := by
  cases q <;> exact ⟨_, rfl, rfl⟩

/-- Binding the name of an argument asks for a variable of the next block. -/
theorem binds_site (hs : Sane s) {names : List String} (hw : A.Wf names) {r : Run T} {a : Nat} {as : List Nat} (hr : r.args = a :: as) (t : T) :
    ((requests A s op r [.next, .createVar t]).2 = none → (requests A s op r [.next, .createVar t]).1.args = as) ∧
    ∀ name v n, .var name v n ∈ (requests A s op r [.next, .createVar t]).1.chgs → .var name v n ∈ r.chgs ∨ n ∈ A.ops := by
  refine ⟨fun h => ?_, fun name v n h => ?_⟩
  · cases h1 : requests A s op r [.next, .createVar t] with
    | mk r1 x =>
      rw [h1] at h
      cases h
      obtain ⟨b, x, r2, e1, _, _, e2, _⟩ := took_createVar hs hw h1
      cases e2
      rw [hr] at e1
      injection e1 with _ e1
      exact e1.symm
  · rw [requests_first] at h
    simp only [request, hr] at h
    rw [requests_first] at h
    simp only [request] at h
    split at h
    · rename_i r1 h1
      revert h
      split at h1
      · cases h1
      · rename_i w hv
        split at h1
        · cases h1; exact fun h => .inl h
        · obtain ⟨_, rfl⟩ := asks_none h1
          exact fun h => .inl h
    · rename_i r1 e h1
      split at h1
      · cases h1; exact .inl h
      · rename_i w hv
        split at h1
        · cases h1
        · rename_i m hm
          have h2 : .var name v n ∈ (Run.need { r with args := as, cur := some (newArg A s a) } (newVar A s w t m)).1.chgs := by rw [h1]; exact h
          rcases asks_var h2 with h | ⟨_, e⟩
          · exact .inl h
          · exact .inr (e ▸ hw.block_op _ _ (next_mem hm))

/-- Variables are asked for in arguments that are left, and in the next block. -/
theorem Talk.sites (hs : Sane s) {names : List String} (hw : A.Wf names) : ∀ (k : Talk T V) (as : List Nat) {r : Run T}, r.args = as → ∀ {name : String} {v : T} {n : Nat},
    .var name v n ∈ (requests A s op r (k.run A s op as).1).1.chgs → .var name v n ∈ r.chgs ∨ n ∈ A.ops ∨ n ∈ as ∧ ¬ k.Injects fun _ _ => False
  | .fail _, _, _, _, _, _, _, h => .inl h
  | .done .., _, _, _, _, _, _, h => .inl h
  | .given _, _, _, _, _, _, _, h => .inl h
  | .tell q k, as, r, hr, _, _, _, h => by
    obtain ⟨r1, e, h1⟩ := tell_ok (A := A) (s := s) (op := op) r q
    simp only [Talk.run] at h
    rw [requests_first, e] at h
    rcases Talk.sites hs hw k as (h1.trans hr) h with h | h
    · have h2 := request_may (A := A) (s := s) (op := op) r q.req (by rw [e]; exact h)
      rcases h2 with h | h
      · exact .inl h
      · cases q <;> exact h.elim
    · exact .inr h
  | .read .., [], r, hr, _, _, _, h => by
    simp only [Talk.run, requests, request, hr] at h
    exact .inl h
  | .read l t u k, a :: as, r, hr, name, v, n, h => by
    have nt : ∀ {o}, .var name v n ∈ (requests A s op r (takes l t u o)).1.chgs → .var name v n ∈ r.chgs := by
      intro o h
      rcases requests_may h with h | ⟨q, h1, h2⟩
      · exact h
      · rcases takes_may h1 h2 with ⟨_, e⟩ | ⟨_, _, _, e⟩ <;> cases e
    rcases run_read (A := A) (s := s) (op := op) k l t u a as with ⟨i, o, hi, ho, e⟩ | ⟨_, e⟩
    · rw [e] at h
      dsimp only at h
      rw [requests_app] at h
      have n1 := nt (o := some o)
      cases h1 : requests A s op r (takes l t u (some o)) with
      | mk r1 x =>
        rw [h1] at h n1
        cases x with
        | some x => exact .inl (n1 h)
        | none =>
          rcases Talk.sites hs hw (k i o) as (took_args hs hr h1) h with h | h | ⟨h, h2⟩
          · exact .inl (n1 h)
          · exact .inr (.inl h)
          · exact .inr (.inr ⟨List.mem_cons_of_mem _ h, fun h3 => h2 (h3 i o)⟩)
    · rw [e] at h
      exact .inl (nt h)
  | .inject nm t k, [], r, hr, _, _, _, h => by
    simp only [Talk.run, requests, request, hr] at h
    exact .inl h
  | .inject nm t k, a :: as, r, hr, name, v, n, h => by
    simp only [Talk.run] at h
    rw [requests_first] at h
    simp only [request, hr] at h
    have hv := asks_var (A := A) (s' := s) (r := r) (name := name) (v := v) (n := n) (m := nm) (t := t) (n' := a)
    cases h1 : r.need (newVar A s nm t a) with
    | mk r1 x =>
      rw [h1] at h hv
      cases x with
      | some x =>
        rcases hv h with h | ⟨_, e⟩
        · exact .inl h
        · exact .inr (.inr ⟨by rw [e]; exact .head _, fun h => h.1⟩)
      | none =>
        obtain ⟨_, rfl⟩ := asks_none h1
        rcases Talk.sites hs hw k (a :: as) hr h with h | h | ⟨h, _⟩
        · exact .inl h
        · exact .inr (.inl h)
        · exact .inr (.inr ⟨h, fun h => h.1⟩)
  | .bind .., [], r, hr, _, _, _, h => by
    simp only [Talk.run, requests, request, hr] at h
    exact .inl h
  | .bind t k, a :: as, r, hr, name, v, n, h => by
    replace h : Chg.var name v n ∈ (requests A s op r ([.next, .createVar t] ++ (k.run A s op as).1)).1.chgs := h
    rw [requests_app] at h
    obtain ⟨h1, h2⟩ := binds_site (op := op) hs hw hr t
    cases h3 : requests A s op r [.next, .createVar t] with
    | mk r1 x =>
      rw [h3] at h h1 h2
      cases x with
      | some x =>
        rcases h2 _ _ _ h with h | h
        · exact .inl h
        · exact .inr (.inl h)
      | none =>
        rcases Talk.sites hs hw k as (h1 rfl) h with h | h | ⟨h, h4⟩
        · rcases h2 _ _ _ h with h | h
          · exact .inl h
          · exact .inr (.inl h)
        · exact .inr (.inl h)
        · exact .inr (.inr ⟨List.mem_cons_of_mem _ h, h4⟩)

/-- An argument that is freed gets no variable, knowing more. -/
theorem Talk.apart (hs : Sane s) (hs' : Sane s') (hw : Within s s') {names : List String} (hA : A.Wf names) {b : Nat} (hb : b ∉ A.ops) : ∀ (k : Talk T V) (as : List Nat) {r r' : Run T},
    k.Frees → as.Nodup → r.args = as → r'.args = as → ∀ {m : Nat}, .breakEdge m b ∈ (requests A s op r (k.run A s op as).1).1.chgs → ∀ {name : String} {v : T},
    .var name v b ∈ (requests A s' op r' (k.run A s' op as).1).1.chgs → .breakEdge m b ∈ r.chgs ∨ .var name v b ∈ r'.chgs
  | .fail _, _, _, _, _, _, _, _, _, h, _, _, _ => .inl h
  | .done .., _, _, _, _, _, _, _, _, h, _, _, _ => .inl h
  | .given _, _, _, _, _, _, _, _, _, h, _, _, _ => .inl h
  | .tell q k, as, r, r', hk, hn, hr, hr', m, h, name, v, h' => by
    obtain ⟨r1, e1, h1⟩ := tell_ok (A := A) (s := s) (op := op) r q
    obtain ⟨r2, e2, h2⟩ := tell_ok (A := A) (s := s') (op := op) r' q
    simp only [Talk.run] at h h'
    rw [requests_first, e1] at h
    rw [requests_first, e2] at h'
    have hv : .var name v b ∈ r2.chgs → .var name v b ∈ r'.chgs := fun h => by
      rcases request_may (A := A) (s := s') (op := op) r' q.req (by rw [e2]; exact h) with h | h
      · exact h
      · cases q <;> exact h.elim
    by_cases hq : q = .addsVars false
    · subst hq
      rcases Talk.sites hs' hA k as (h2.trans hr') h' with h | h | ⟨_, h⟩
      · exact .inr (hv h)
      · exact absurd h hb
      · exact absurd hk h
    · have hk' : k.Frees := by
        cases q with
        | addsVars r =>
          cases r with
          | true => exact hk
          | false => exact absurd rfl hq
        | _ => exact hk
      rcases Talk.apart hs hs' hw hA hb k as hk' hn (h1.trans hr) (h2.trans hr') h h' with h | h
      · rcases request_may (A := A) (s := s) (op := op) r q.req (by rw [e1]; exact h) with h | h
        · exact .inl h
        · cases q with
          | addsVars r =>
            cases r with
            | true => cases h
            | false => exact absurd rfl hq
          | _ => exact h.elim
      · exact .inr (hv h)
  | .read .., [], r, _, _, _, hr, _, _, h, _, _, _ => by
    simp only [Talk.run, requests, request, hr] at h
    exact .inl h
  | .read l t u k, a :: as, r, r', hk, hn, hr, hr', m, h, name, v, h' => by
    have nt : ∀ {o} {s : S T} {r : Run T}, .var name v b ∈ (requests A s op r (takes l t u o)).1.chgs → .var name v b ∈ r.chgs := by
      intro o s r h
      rcases requests_may h with h | ⟨q, h1, h2⟩
      · exact h
      · rcases takes_may h1 h2 with ⟨_, e⟩ | ⟨_, _, _, e⟩ <;> cases e
    have hna := (List.nodup_cons.1 hn).1
    have hnd := (List.nodup_cons.1 hn).2
    -- What is asked for later is not in this argument.
    have later : ∀ {i o}, .var name v a ∈ (requests A s' op r' (takes l t u (some o) ++ ((k i o).run A s' op as).1)).1.chgs → b = a → .var name v b ∈ r'.chgs := by
      intro i o h e
      subst e
      rw [requests_app] at h
      have n2 := nt (o := some o) (s := s') (r := r')
      cases h2 : requests A s' op r' (takes l t u (some o)) with
      | mk r2 y =>
        rw [h2] at h n2
        cases y with
        | some y => exact n2 h
        | none =>
          rcases Talk.sites hs' hA (k i o) as (took_args hs' hr' h2) h with h | h | ⟨h, _⟩
          · exact n2 h
          · exact absurd h hb
          · exact absurd h hna
    have later' : b = a → .var name v b ∈ r'.chgs := fun e => by
      rcases run_read (A := A) (s := s') (op := op) k l t u a as with ⟨i', o', _, _, e'⟩ | ⟨_, e'⟩
      · rw [e'] at h'
        exact later (by rw [← e]; exact h') e
      · rw [e'] at h'
        exact nt h'
    rcases run_read (A := A) (s := s) (op := op) k l t u a as with ⟨i, o, hi, ho, e⟩ | ⟨_, e⟩
    · rw [e] at h
      have hi' : inTy s' t a = some i := by
        cases t with
        | some t => exact hi
        | none => exact ty_within hs hw (show (s.tg.kn a .inp).ty = some i from hi)
      have ho' := ty_within hs hw ho
      dsimp only at h
      rw [requests_app] at h
      rcases run_read (A := A) (s := s') (op := op) k l t u a as with ⟨i', o', hi2, ho2, e'⟩ | ⟨hn', _⟩
      · rw [hi'] at hi2
        rw [ho'] at ho2
        cases hi2
        cases ho2
        rw [e'] at h'
        dsimp only at h'
        rw [requests_app] at h'
        have n1 := takes_frees (A := A) (op := op) (l := l) (t := t) (u := u) (o := some o) hs hr (m := m) (b := b)
        have n2 := nt (o := some o) (s := s') (r := r')
        cases h1 : requests A s op r (takes l t u (some o)) with
        | mk r1 x =>
          rw [h1] at h n1
          have first : .breakEdge m b ∈ r1.chgs → .breakEdge m b ∈ r.chgs ∨ .var name v b ∈ r'.chgs := fun h => by
            rcases n1 h with h | h
            · exact .inl h
            · exact .inr (later' h)
          cases x with
          | some x => exact first h
          | none =>
            cases h2 : requests A s' op r' (takes l t u (some o)) with
            | mk r2 y =>
              rw [h2] at h' n2
              cases y with
              | some y => exact .inr (n2 h')
              | none =>
                rcases Talk.apart hs hs' hw hA hb (k i o) as (hk i o) hnd (took_args hs hr h1) (took_args hs' hr' h2) h h' with h | h
                · exact first h
                · exact .inr (n2 h)
      · rcases hn' with hn' | hn'
        · rw [hi'] at hn'; cases hn'
        · rw [ho'] at hn'; cases hn'
    · rw [e] at h
      rcases takes_frees hs hr h with h | h
      · exact .inl h
      · exact .inr (later' h)
  | .inject nm t k, as, r, r', hk, hn, hr, hr', m, h, name, v, h' => by
    have ht : (Talk.inject nm t k).Tight := hk
    exact .inl (ht.none as h)
  | .bind .., [], r, _, _, _, hr, _, _, h, _, _, _ => by
    simp only [Talk.run, requests, request, hr] at h
    exact .inl h
  | .bind t k, a :: as, r, r', hk, hn, hr, hr', m, h, name, v, h' => by
    replace h : Chg.breakEdge m b ∈ (requests A s op r ([.next, .createVar t] ++ (k.run A s op as).1)).1.chgs := h
    replace h' : Chg.var name v b ∈ (requests A s' op r' ([.next, .createVar t] ++ (k.run A s' op as).1)).1.chgs := h'
    rw [requests_app] at h h'
    obtain ⟨h1, _⟩ := binds_site (op := op) hs hA hr t
    obtain ⟨h2, h2'⟩ := binds_site (op := op) hs' hA hr' t
    have n1 : .breakEdge m b ∈ (requests A s op r [.next, .createVar t]).1.chgs → .breakEdge m b ∈ r.chgs := fun h => by
      rcases requests_may h with h | ⟨q, h1, h2⟩
      · exact h
      · simp only [List.mem_cons, List.not_mem_nil, or_false] at h1
        rcases h1 with e | e <;> subst e <;> exact h2.elim
    have n2 : .var name v b ∈ (requests A s' op r' [.next, .createVar t]).1.chgs → .var name v b ∈ r'.chgs := fun h =>
      (h2' _ _ _ h).resolve_right hb
    cases h3 : requests A s op r [.next, .createVar t] with
    | mk r1 x =>
      rw [h3] at h h1 n1
      cases x with
      | some x => exact .inl (n1 h)
      | none =>
        cases h4 : requests A s' op r' [.next, .createVar t] with
        | mk r2 y =>
          rw [h4] at h' h2 n2
          cases y with
          | some y => exact .inr (n2 h')
          | none =>
            rcases Talk.apart hs hs' hw hA hb k as hk (List.nodup_cons.1 hn).2 (h1 rfl) (h2 rfl) h h' with h | h
            · exact .inl (n1 h)
            · exact .inr (n2 h)

/-! ### Commands -/

/-- A command that was taken to have announced all its variables has. -/
theorem Talk.opens (hs : Sane s) (hs' : Sane s') (hw : Within s s') : ∀ (k : Talk T V) (as : List Nat) {r r' : Run T}, k.Opens → r.args = as → r'.args = as →
    (∀ m, .sealOp m ∉ r.chgs) → (∀ name v n, .var name v n ∉ r'.chgs) →
    ((requests A s op r (k.run A s op as).1).1.adds = false ∨ ∃ m, .sealOp m ∈ (requests A s op r (k.run A s op as).1).1.chgs) → ∀ {name : String} {v : T} {n : Nat},
    .var name v n ∈ (requests A s' op r' (k.run A s' op as).1).1.chgs → ∃ x, variableAt A s name n = some x
  | .fail _, _, _, _, hk, _, _, _, _, _, _, _, _, _ => hk.elim
  | .done .., _, _, _, hk, _, _, _, _, _, _, _, _, _ => hk.elim
  | .given _, _, _, _, hk, _, _, _, _, _, _, _, _, _ => hk.elim
  | .read .., _, _, _, hk, _, _, _, _, _, _, _, _, _ => hk.elim
  | .inject .., _, _, _, hk, _, _, _, _, _, _, _, _, _ => hk.elim
  | .bind .., _, _, _, hk, _, _, _, _, _, _, _, _, _ => hk.elim
  | .tell .varsAdded _, _, _, _, hk, _, _, _, _, _, _, _, _, _ => hk.elim
  | .tell (.addsVars b) k, as, r, r', hk, hr, hr', hn, hn', h, name, v, n, h' => by
    have hk : k.Late := hk
    rcases h with h | ⟨m, h⟩
    · exact absurd ((requests_keeps (A := A) (s := s) (op := op) (k.run A s op as).1 _).2 rfl) (by rw [Bool.not_eq_true]; exact h)
    · have := Talk.late hs hs' hw (.tell (.addsVars b) k) as (r := r) (r' := r') hk hr hr' hn h h'
      exact this.resolve_left (hn' _ _ _)
  | .tell (.output t) k, as, r, r', hk, hr, hr', hn, hn', h, _, _, _, h' =>
    Talk.opens hs hs' hw k as (r := r.push [.ty (.known op .out t)]) (r' := r'.push [.ty (.known op .out t)]) hk hr hr'
      (fun m hm => by rcases List.mem_append.1 hm with hm | hm; exact hn _ hm; cases List.mem_singleton.1 hm)
      (fun name v n hm => by rcases List.mem_append.1 hm with hm | hm; exact hn' _ _ _ hm; cases List.mem_singleton.1 hm) h h'
  | .tell (.oblige t) k, as, r, r', hk, hr, hr', hn, hn', h, _, _, _, h' =>
    Talk.opens hs hs' hw k as (r := r.push (r.args.map fun a => .ty (.oblige a .inp t))) (r' := r'.push (r'.args.map fun a => .ty (.oblige a .inp t))) hk hr hr'
      (fun m hm => by
        rcases List.mem_append.1 hm with hm | hm
        · exact hn _ hm
        · obtain ⟨_, _, e⟩ := List.mem_map.1 hm; cases e)
      (fun name v n hm => by
        rcases List.mem_append.1 hm with hm | hm
        · exact hn' _ _ _ hm
        · obtain ⟨_, _, e⟩ := List.mem_map.1 hm; cases e) h h'

theorem finish_adds {r : Run T} {x : Fin T} : (finish r x).adds = r.adds := by
  unfold finish
  split
  · rfl
  · split <;> rfl

theorem finish_chgs {r : Run T} {x : Fin T} {c : Chg T} (hc : ∀ y, c ≠ .ty y) : c ∈ (finish r x).chgs ↔ c ∈ r.chgs := by
  unfold finish
  split
  · exact Iff.rfl
  · split
    · exact Iff.rfl
    · refine ⟨fun h => ?_, List.mem_append_left _⟩
      rcases List.mem_append.1 h with h | h
      · exact h
      · obtain ⟨_, _, e⟩ := List.mem_map.1 h
        exact absurd e.symm (hc _)

theorem builtin_adds {I : Builtins T} {i : Nat} {t : T} : (runBuiltin A I s i op t).adds = (requests A s op ⟨A.args op, none, [], false, false⟩ (I s i op t).1).1.adds := by
  unfold runBuiltin
  dsimp only
  split
  · rename_i h; rw [h]
  · rename_i h; rw [h, finish_adds]

theorem builtin_chgs {I : Builtins T} {i : Nat} {t : T} {c : Chg T} (hc : ∀ y, c ≠ .ty y) :
    c ∈ (runBuiltin A I s i op t).chgs ↔ c ∈ (requests A s op ⟨A.args op, none, [], false, false⟩ (I s i op t).1).1.chgs := by
  unfold runBuiltin
  dsimp only
  split
  · rename_i h; rw [h]
  · rename_i h; rw [h, finish_chgs hc]

/-- Commands that are conversations in the right order. -/
theorem Talks.prompt {C : Talks T V} {names : List String} (hw : A.Wf names) (hn : ∀ op ∈ A.ops, (A.args op).Nodup)
    (hc : ∀ op ∈ A.ops, ∀ t i, A.getImpl op t = some (.intrinsic i) →
      ((C i op (A.args op).length t).NoVars ∨ (C i op (A.args op).length t).Opens) ∧ (C i op (A.args op).length t).Frees) : (C.builtins A).Prompt A where
  all s s' i op t ho hg hs hs' hwi hse name v n h := by
    obtain ⟨h1, _⟩ := hc op ho t i hg
    rw [builtin_chgs (fun _ e => by cases e)] at h
    rcases h1 with h1 | h1
    · have := h1.none (A.args op) h
      cases this
    · refine Talk.opens hs hs' hwi _ (A.args op) (r := ⟨A.args op, none, [], false, false⟩) (r' := ⟨A.args op, none, [], false, false⟩) h1 rfl rfl (fun _ h => by cases h) (fun _ _ _ h => by cases h) ?_ h
      rcases hse with hse | hse
      · rw [builtin_adds] at hse; exact .inl hse
      · rw [builtin_chgs (fun _ e => by cases e)] at hse; exact .inr ⟨_, hse⟩
  apart s s' i op t ho hg hs hs' hwi o a h name v h' := by
    obtain ⟨_, h1⟩ := hc op ho t i hg
    have ha := (runBuiltin_mine hw hs.noPtr _ h).2
    rw [builtin_chgs (fun _ e => by cases e)] at h h'
    rcases Talk.apart hs hs' hwi hw (hw.arg_not_op op a ha) _ (A.args op) h1 (hn op ho) rfl rfl h h' with h | h <;> cases h

end

end Verif.Comp
