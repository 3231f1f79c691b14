import Verif.Props.ExpandRun
/-! C61: an implementation gets the arguments that are written. -/
namespace Verif.Exp

theorem snoc_ind {A : Type} {P : List A → Prop} (h0 : P []) (h1 : ∀ l e, P l → P (l ++ [e])) (l : List A) : P l := by
  have : ∀ l : List A, P l.reverse := by
    intro l
    induction l with
    | nil => exact h0
    | cons a l ih => rw [List.reverse_cons]; exact h1 _ _ ih
  rw [← List.reverse_reverse l]
  exact this _

theorem fill_rev (ts : List Nat) : ∀ (v : List (Option Nat)), ts.length ≤ v.length →
    fill (ts.zipIdx.map fun x => (x.2, x.1)).reverse v = ts.map some ++ v.drop ts.length := by
  refine snoc_ind (P := fun ts => ∀ (v : List (Option Nat)), ts.length ≤ v.length →
    fill (ts.zipIdx.map fun x => (x.2, x.1)).reverse v = ts.map some ++ v.drop ts.length) ?_ ?_ ts
  · intro v _; simp [fill]
  · intro a x ih v hv
    simp only [List.length_append, List.length_singleton] at hv
    rw [List.zipIdx_append, List.map_append, List.reverse_append]
    simp only [List.zipIdx_singleton, List.map_cons, List.map_nil, List.reverse_singleton, List.singleton_append, Nat.zero_add, fill]
    rw [if_neg (by omega), ih _ (by simp; omega)]
    rw [List.map_append, List.append_assoc]
    congr 1
    have hd := List.drop_eq_getElem_cons (by omega : a.length < v.length)
    rw [List.drop_set, if_neg (by omega), Nat.sub_self, List.length_append, List.length_singleton]
    rw [hd]
    rfl

theorem fill_nil (ts : List Nat) : fill (ts.zipIdx.map fun x => (x.2, x.1)).reverse [] = ts.map some := by
  refine snoc_ind (P := fun ts => fill (ts.zipIdx.map fun x => (x.2, x.1)).reverse [] = ts.map some) (by simp [fill]) ?_ ts
  intro a x _
  rw [List.zipIdx_append, List.map_append, List.reverse_append]
  simp only [List.zipIdx_singleton, List.map_cons, List.map_nil, List.reverse_singleton, List.singleton_append, Nat.zero_add, fill]
  rw [if_pos (by simp), fill_rev _ _ (by simp)]
  rw [List.map_append, List.drop_set, if_neg (by omega), Nat.sub_self]
  simp

theorem mapM_some (ts : List Nat) : (ts.map some).mapM id = some ts := by
  induction ts with
  | nil => rfl
  | cons a l ih => simp only [List.map_cons, List.mapM_cons, id, ih]; rfl

theorem pick_terms {g : Graph} {c : Nat} {b fl : Bool} : ∀ (l : List (Nat × Nat)),
    (∀ t ∈ l, ∃ x, g.nodes[t.1]? = some x ∧ x.isFlag = b) →
    (l.map fun x => (⟨x.1, c, .term (x.2 % 256)⟩ : Edge)).filterMap (pickTerm g fl) =
      if b = fl then l.map fun x => (x.2 % 256, x.1) else [] := by
  intro l
  induction l with
  | nil => intro _; simp
  | cons t l ih =>
    intro h
    obtain ⟨x, h1, h2⟩ := h t List.mem_cons_self
    rw [List.map_cons, List.filterMap_cons, ih fun t ht => h t (List.mem_cons_of_mem _ ht)]
    simp only [pickTerm, h1, h2]
    by_cases hb : b = fl
    · simp [hb]
    · simp [hb]

theorem termsOf_node {g : Graph} (hu : Up g) {op t : Nat} {fl : Bool} (h : t ∈ termsOf g op fl) :
    ∃ x, g.nodes[t]? = some x ∧ x.isFlag = fl := by
  have hlt := (hu _ (mem_termsOf h)).2
  change t < _ at hlt
  refine ⟨g.nodes[t], List.getElem?_eq_getElem hlt, ?_⟩
  have := (List.mem_filter.1 h).2
  simpa [List.getElem?_eq_getElem hlt] using this

theorem linked_terms {g : Graph} (hi : Inv g) {op c : Nat} {ty : Option String} (h : ⟨op, c, .keyed ty⟩ ∈ g.edges) (fl : Bool) :
    (g.edges.filter (·.dst = c)).filterMap (pickTerm g fl) = (termsOf g op fl).zipIdx.map fun x => (x.2 % 256, x.1) := by
  have := (hi.fed _ h ty rfl).1
  dsimp only at this
  rw [this]
  have mem : ∀ b, ∀ t ∈ (termsOf g op b).zipIdx, ∃ x, g.nodes[t.1]? = some x ∧ x.isFlag = b := by
    rintro b ⟨t, i⟩ ht
    exact termsOf_node hi.up (List.mem_of_getElem? (List.mk_mem_zipIdx_iff_getElem?.1 ht))
  unfold cmdEdges
  rw [List.filterMap_cons, List.filterMap_append]
  unfold termEdges
  rw [pick_terms _ (mem true), pick_terms _ (mem false)]
  cases fl <;> simp [pickTerm]

/-- **C61**: an implementation of an operation gets the arguments of the operation, or its flags, all of them and in order,
if there are not more than 256 of them. -/
theorem terms_received_partial {D : Defs} {e : Expr} {g : Graph} (h : init D e = .ok g) {op c : Nat} {ty : Option String}
    (hk : ⟨op, c, .keyed ty⟩ ∈ g.edges) (fl : Bool) (hl : (termsOf g op fl).length ≤ 256) :
    getTerms g c fl = some (termsOf g op fl) := by
  have hi := (init_done h).1
  unfold getTerms
  rw [List.filterMap_reverse, linked_terms hi hk fl]
  have : (termsOf g op fl).zipIdx.map (fun x => (x.2 % 256, x.1)) = (termsOf g op fl).zipIdx.map fun x => (x.2, x.1) := by
    apply List.map_congr_left
    rintro ⟨t, i⟩ ht
    have := List.mk_mem_zipIdx_iff_getElem?.1 ht
    have := (List.getElem?_eq_some_iff.1 this).1
    dsimp only
    rw [Nat.mod_eq_of_lt (by omega)]
  rw [this, fill_nil, mapM_some]

theorem fill_bound : ∀ (es : List (Nat × Nat)) (v : List (Option Nat)), (∀ x ∈ es, x.1 < 256) → v.length ≤ 256 →
    (fill es v).length ≤ 256 := by
  intro es
  induction es with
  | nil => intro v _ h; exact h
  | cons x es ih =>
    obtain ⟨i, n⟩ := x
    intro v h hv
    have h1 := h (i, n) List.mem_cons_self
    dsimp only at h1
    simp only [fill]
    refine ih _ (fun x hx => h x (List.mem_cons_of_mem _ hx)) ?_
    split <;> simp <;> omega

theorem mapM_length : ∀ (l : List (Option Nat)) (r : List Nat), l.mapM id = some r → r.length = l.length := by
  intro l
  induction l with
  | nil => intro r h; cases h; rfl
  | cons a l ih =>
    intro r h
    simp only [List.mapM_cons, id] at h
    cases a with
    | none => cases h
    | some a =>
      cases hl : l.mapM id with
      | none => rw [hl] at h; cases h
      | some r' =>
        rw [hl] at h
        cases h
        simp [ih r' hl]

/-- **C61 does not hold as stated**: of more than 256 arguments some are always lost. -/
theorem terms_lost {D : Defs} {e : Expr} {g : Graph} (h : init D e = .ok g) {op c : Nat} {ty : Option String}
    (hk : ⟨op, c, .keyed ty⟩ ∈ g.edges) (fl : Bool) (hl : 256 < (termsOf g op fl).length) :
    getTerms g c fl ≠ some (termsOf g op fl) := by
  have hi := (init_done h).1
  unfold getTerms
  rw [List.filterMap_reverse, linked_terms hi hk fl]
  intro hc
  have h1 := mapM_length _ _ hc
  have h2 := fill_bound ((termsOf g op fl).zipIdx.map fun x => (x.2 % 256, x.1)).reverse [] (by
    intro x hx
    obtain ⟨y, _, rfl⟩ := List.mem_map.1 (List.mem_reverse.1 hx)
    exact Nat.mod_lt _ (by omega)) (by simp)
  omega

/-! What the terms of an operation are. -/

def Term.isFlag : Term → Bool
  | .flag _ => true
  | _ => false

theorem ShowsT.isFlag {g : Graph} {k : Nat} : ∀ {t : Term}, ShowsT g k t → ∃ x, g.nodes[k]? = some x ∧ x.isFlag = t.isFlag
  | .flag _, h => ⟨_, h, rfl⟩
  | .plain _, h => ⟨_, h, rfl⟩
  | .pound _, h => ⟨_, h, rfl⟩
  | .expr (.mk _ _), h => ⟨_, h.1, rfl⟩

theorem ShowsTs.filter {g : Graph} {p : Nat → Bool} {fl : Bool} (hp : ∀ (k : Nat) x, g.nodes[k]? = some x → p k = (x.isFlag == fl)) :
    ∀ {ts : List Term} {ks : List Nat}, ShowsTs g ks ts → ShowsTs g (ks.filter p) (ts.filter fun t => t.isFlag == fl)
  | [], _, h => by rw [show _ = [] from h]; rfl
  | t :: ts, _, ⟨k, ks', h1, h2, h3⟩ => by
    subst h1
    obtain ⟨x, h4, h5⟩ := h2.isFlag
    have h6 := ShowsTs.filter hp h3
    rw [List.filter_cons, List.filter_cons, hp k x h4, h5]
    split
    · exact ⟨k, _, rfl, h2, h6⟩
    · exact h6

/-- **C61**: the terms of the node of a block are the flags, or the arguments, that are written in the block. -/
theorem terms_written {g : Graph} {m : Nat} {op : Option String} {i o : Option String} {ts : List Term}
    (h : ShowsB g m (.mk op i o ts)) (fl : Bool) : ShowsTs g (termsOf g m fl) (ts.filter fun t => t.isFlag == fl) :=
  ShowsTs.filter (fun k x hx => by simp [hx]) h.2

/-! ### Instances -/

def withMany (n : Nat) : Expr := one "len" (.flag "q" :: List.replicate n (.plain (.ident "a")))

theorem many_terms (n : Nat) {g : Graph} (h : init someDefs (withMany n) = .ok g) :
    ∃ op c, ⟨op, c, .keyed none⟩ ∈ g.edges ∧ (termsOf g op false).length = n ∧ (termsOf g op true).length = 1 := by
  obtain ⟨_, m, ms, hm, ⟨⟨f, hf, hn⟩, hts⟩, _⟩ := program_shown h
  cases hf
  have len : ∀ (ts : List Term) (ks : List Nat), ShowsTs g ks ts → ks.length = ts.length := by
    intro ts
    induction ts with
    | nil => intro ks h; rw [show ks = [] from h]; rfl
    | cons t ts ih =>
      rintro ks ⟨k, ks', rfl, _, h⟩
      simp [ih ks' h]
  have h1 := fun fl => len _ _ (terms_written (i := none) (o := none) ⟨⟨"len", rfl, hn⟩, hts⟩ fl)
  obtain ⟨_, hall⟩ := all_implementations h hn
  rcases hall ⟨none, none⟩ (by simp [someDefs]) with ⟨c, hc, _⟩ | ⟨t, d, ht, _⟩
  · refine ⟨m, c, hc, ?_, ?_⟩
    · rw [h1 false]; simp [Term.isFlag]
    · rw [h1 true]; simp [Term.isFlag]
  · cases ht

theorem ok_of_isOk {g : Except Err Graph} (h : (match g with | .ok _ => true | _ => false) = true) : ∃ x, g = .ok x := by
  cases g with
  | ok x => exact ⟨x, rfl⟩
  | error _ => cases h

/-- `inner` on a string: the definition for strings is chosen, and inside of it none is left. -/
example : (init someDefs (one "inner" [])).toOption.map (fun g => (g.nodes[1]?, getImpl g 1 "Str", g.nodes[2]?, g.nodes[4]?, getImpl g 4 "Str")) =
    some (some (.op "inner"), some 2, some (.defn "inner" (some "Str")), some (.op "inner"), none) := by
  decide +kernel

/-- A call with three arguments and a flag: both are received. -/
example : ∃ g op c, init someDefs (withMany 3) = .ok g ∧ ⟨op, c, .keyed none⟩ ∈ g.edges ∧ (termsOf g op false).length = 3 ∧
    getTerms g c false = some (termsOf g op false) ∧ getTerms g c true = some (termsOf g op true) := by
  obtain ⟨g, hg⟩ := ok_of_isOk (g := init someDefs (withMany 3)) (by decide +kernel)
  obtain ⟨op, c, h1, h2, h3⟩ := many_terms 3 hg
  exact ⟨g, op, c, hg, h1, h2, terms_received_partial hg h1 false (by omega), terms_received_partial hg h1 true (by omega)⟩

/-- A call with 257 arguments: some are lost, without an error. -/
theorem call_loses_arguments : ∃ g op c, init someDefs (withMany 257) = .ok g ∧ ⟨op, c, .keyed none⟩ ∈ g.edges ∧
    (termsOf g op false).length = 257 ∧ getTerms g c false ≠ some (termsOf g op false) := by
  obtain ⟨g, hg⟩ := ok_of_isOk (g := init someDefs (withMany 257)) (by decide +kernel)
  obtain ⟨op, c, h1, h2, _⟩ := many_terms 257 hg
  exact ⟨g, op, c, hg, h1, h2, terms_lost hg h1 false (by omega)⟩

end Verif.Exp
