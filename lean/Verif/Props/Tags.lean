import Verif.Props.Parse
import Verif.Lemmas.TagsWords
/-! C73, C74, C75: the places of the parts of parsed input. -/
namespace Verif.Tags
open Verif.Nom Verif.File
open Verif.Parse (Env Str)

variable {k : Env}

/-- **C73**. Input is parsed with tags when it is parsed, and the text at each tag is what was read there. -/
theorem tag_is_place (w : Str) :
    (∀ r x, parse k w = .ok r x → ∃ y, Parse.parse k w = .ok r y ∧ x.text w = some y) ∧
      ∀ r y, Parse.parse k w = .ok r y → ∃ x, parse k w = .ok r x ∧ x.text w = some y := by
  have h := parse_sim k w
  rcases h.cases with ⟨r, b, a, e1, e2, h1, h2⟩ | ⟨e1, e2⟩ | ⟨e1, e2⟩
  · rw [e1, e2]
    refine ⟨?_, ?_⟩
    · intro r' x hx; cases hx; exact ⟨a, rfl, h1⟩
    · intro r' x hx; cases hx; exact ⟨b, rfl, h1⟩
  · rw [e1, e2]; exact ⟨fun _ _ h => (by cases h), fun _ _ h => (by cases h)⟩
  · rw [e1, e2]; exact ⟨fun _ _ h => (by cases h), fun _ _ h => (by cases h)⟩

theorem parse_q {w r : Str} {x : LParsed} (h : parse k w = .ok r x) : QParsed w x := by
  rcases (parse_sim k w).cases with ⟨r, b, a, e1, e2, h1, h2⟩ | ⟨e1, e2⟩ | ⟨e1, e2⟩
  · rw [e1] at h; cases h; exact h2
  · rw [e1] at h; cases h
  · rw [e1] at h; cases h

theorem chain_row {w : Str} {lo hi : Nat} {l : List Node} (h : Chain w lo hi l) :
    InOrder l ∧ l.Pairwise (fun a b => (outer w a).start < (outer w b).start) ∧ ∀ n ∈ l, lo ≤ (outer w n).start ∧ n.tag.stop ≤ hi := by
  induction h with
  | nil h => exact ⟨.nil, .nil, fun n hn => (by cases hn)⟩
  | cons h1 h2 ih =>
    have b1 := h1.low; have b2 := h1.start; have b3 := h1.stop; have b4 := h1.high; have b5 := h1.lt; have b6 := h2.le
    refine ⟨List.Pairwise.cons ?_ ih.1, List.Pairwise.cons ?_ ih.2.1, ?_⟩
    · intro m hm
      have c1 := (h2.mem hm).start
      have c2 := (ih.2.2 m hm).1
      omega
    · intro m hm
      have c2 := (ih.2.2 m hm).1
      omega
    · intro m hm
      rcases List.mem_cons.1 hm with rfl | hm
      · omega
      · have := ih.2.2 m hm
        omega

/-- **C73**. The parts of the input stand one after the other in it, and the tags of expressions have those of their parts
inside, one after the other. -/
theorem tags_nested {w r : Str} {x : LParsed} (h : parse k w = .ok r x) :
    x.Nested ∧ ∃ l, l.Perm x.leaves ∧ InOrder l ∧ ∀ n ∈ l, n.tag.start ≤ n.tag.stop ∧ n.tag.stop ≤ size w := by
  have q := parse_q h
  obtain ⟨l, h1, h2⟩ := q.good
  have c := chain_row h2
  exact ⟨q.wf, l, h1, c.1, fun n hn => ⟨(h2.mem hn).ne, (c.2.2 n hn).2⟩⟩

/-- The parts of parsed input are its words, each at its place. -/
theorem parts_are_words {w r : Str} {x : LParsed} (h : parse k w = .ok r x) (hu : x.usesPath = false) :
    ∃ y, Parse.parse k w = .ok r y ∧ (x.leaves.map fun n => (n.ty, n.tag.str w)).Perm ((words y).map fun p => (p.1, some p.2)) := by
  obtain ⟨y, h1, h2⟩ := (tag_is_place w).1 r x h
  exact ⟨y, h1, same_words h hu h2⟩

/-! The part at a position. -/

theorem isNode_some {t : Span} {pos : Nat} {ty : NodeType} {n : Node} (h : isNode t pos ty = some n) : n = ⟨t, ty⟩ ∧ t.has pos = true := by
  unfold isNode at h
  split at h
  · cases h; exact ⟨rfl, by assumption⟩
  · cases h

theorem isNode_has {t : Span} {pos : Nat} {ty : NodeType} (h : t.has pos = true) : isNode t pos ty = some ⟨t, ty⟩ := by
  unfold isNode; rw [if_pos h]

theorem or_some {α : Type} {a b : Option α} {x : α} (h : a.or b = some x) : a = some x ∨ b = some x := by
  cases a with
  | none => exact .inr h
  | some a => exact .inl h

theorem has_covers {s : Span} {n : Node} {pos : Nat} (h : s.covers n) (hp : n.tag.has pos = true) : s.has pos = true := by
  unfold Span.covers at h
  unfold Span.has at *
  simp only [Bool.and_eq_true, decide_eq_true_eq] at *
  omega

mutual
theorem nodeE_sound {pos : Nat} {n : Node} : ∀ e : LExpr, e.nodeAt pos = some n → n ∈ e.leaves ∧ n.tag.has pos = true
  | .mk t bs _, h => by
    simp only [LExpr.nodeAt] at h
    split at h
    · exact nodeBs_sound bs h
    · cases h
theorem nodeBs_sound {pos : Nat} {n : Node} : ∀ bs : List LBlk, nodeAtBs pos bs = some n → n ∈ leavesBs bs ∧ n.tag.has pos = true
  | [], h => by cases h
  | b :: bs, h => by
    simp only [nodeAtBs] at h
    simp only [leavesBs, List.mem_append]
    rcases or_some h with h | h
    · have := nodeB_sound b h; exact ⟨.inl this.1, this.2⟩
    · have := nodeBs_sound bs h; exact ⟨.inr this.1, this.2⟩
theorem nodeB_sound {pos : Nat} {n : Node} : ∀ b : LBlk, b.nodeAt pos = some n → n ∈ b.leaves ∧ n.tag.has pos = true
  | .mk a o c ts, h => by
    simp only [LBlk.nodeAt] at h
    split at h
    · simp only [LBlk.leaves, List.mem_cons]
      rcases or_some h with h | h
      · obtain ⟨rfl, h1⟩ := isNode_some h
        exact ⟨.inl rfl, h1⟩
      · have := nodeTs_sound ts h; exact ⟨.inr this.1, this.2⟩
    · cases h
theorem nodeTs_sound {pos : Nat} {n : Node} : ∀ bs : List LTerm, nodeAtTs pos bs = some n → n ∈ leavesTs bs ∧ n.tag.has pos = true
  | [], h => by cases h
  | b :: bs, h => by
    simp only [nodeAtTs] at h
    simp only [leavesTs, List.mem_append]
    rcases or_some h with h | h
    · have := nodeT_sound b h; exact ⟨.inl this.1, this.2⟩
    · have := nodeTs_sound bs h; exact ⟨.inr this.1, this.2⟩
theorem nodeT_sound {pos : Nat} {n : Node} : ∀ t : LTerm, t.nodeAt pos = some n → n ∈ t.leaves ∧ n.tag.has pos = true
  | .flag t, h => by
    obtain ⟨rfl, h1⟩ := isNode_some h
    exact ⟨List.mem_singleton.2 rfl, h1⟩
  | .arg a, h => nodeA_sound a h
theorem nodeA_sound {pos : Nat} {n : Node} : ∀ t : LArg, t.nodeAt pos = some n → n ∈ t.leaves ∧ n.tag.has pos = true
  | .ident t, h => by
    obtain ⟨rfl, h1⟩ := isNode_some h
    exact ⟨List.mem_singleton.2 rfl, h1⟩
  | .num t, h => by
    obtain ⟨rfl, h1⟩ := isNode_some h
    exact ⟨List.mem_singleton.2 rfl, h1⟩
  | .pound _ t, h => by
    obtain ⟨rfl, h1⟩ := isNode_some h
    exact ⟨List.mem_singleton.2 rfl, h1⟩
  | .var t, h => by
    obtain ⟨rfl, h1⟩ := isNode_some h
    exact ⟨List.mem_singleton.2 rfl, h1⟩
  | .expr e, h => nodeE_sound e h
  | .dot t op lhs rhs out, h => by
    simp only [LArg.nodeAt] at h
    split at h
    · simp only [LArg.leaves, List.mem_cons, List.mem_append, List.not_mem_nil, or_false]
      rcases or_some h with h | h
      · obtain ⟨rfl, h1⟩ := isNode_some h
        exact ⟨.inl rfl, h1⟩
      · rcases or_some h with h | h
        · have := nodeA_sound lhs h; exact ⟨.inr (.inl this.1), this.2⟩
        · obtain ⟨rfl, h1⟩ := isNode_some h
          exact ⟨.inr (.inr rfl), h1⟩
    · cases h
end

theorem or_isSome {α : Type} {a b : Option α} (h : a.isSome = true ∨ b.isSome = true) : (a.or b).isSome = true := by
  cases a with
  | none => rcases h with h | h; cases h; exact h
  | some a => rfl

theorem isNode_isSome {t : Span} {pos : Nat} {ty : NodeType} (h : t.has pos = true) : (isNode t pos ty).isSome = true := by
  rw [isNode_has h]; rfl

mutual
theorem nodeE_finds {pos : Nat} {n : Node} (hp : n.tag.has pos = true) : ∀ e : LExpr, NestE e → n ∈ e.leaves → (e.nodeAt pos).isSome = true
  | .mk t bs _, h, hn => by
    simp only [LExpr.nodeAt]
    rw [if_pos (has_covers (h.1 n hn) hp)]
    exact nodeBs_finds hp bs h.2 hn
theorem nodeBs_finds {pos : Nat} {n : Node} (hp : n.tag.has pos = true) : ∀ bs : List LBlk, NestBs bs → n ∈ leavesBs bs →
    (nodeAtBs pos bs).isSome = true
  | [], _, hn => by cases hn
  | b :: bs, h, hn => by
    simp only [leavesBs, List.mem_append] at hn
    simp only [nodeAtBs]
    rcases hn with hn | hn
    · exact or_isSome (.inl (nodeB_finds hp b h.1 hn))
    · exact or_isSome (.inr (nodeBs_finds hp bs h.2 hn))
theorem nodeB_finds {pos : Nat} {n : Node} (hp : n.tag.has pos = true) : ∀ b : LBlk, NestB b → n ∈ b.leaves → (b.nodeAt pos).isSome = true
  | .mk a o c ts, h, hn => by
    simp only [LBlk.nodeAt]
    rw [if_pos (has_covers (h.1 n hn) hp)]
    simp only [LBlk.leaves, List.mem_cons] at hn
    rcases hn with rfl | hn
    · exact or_isSome (.inl (isNode_isSome hp))
    · exact or_isSome (.inr (nodeTs_finds hp ts h.2 hn))
theorem nodeTs_finds {pos : Nat} {n : Node} (hp : n.tag.has pos = true) : ∀ ts : List LTerm, NestTs ts → n ∈ leavesTs ts →
    (nodeAtTs pos ts).isSome = true
  | [], _, hn => by cases hn
  | b :: bs, h, hn => by
    simp only [leavesTs, List.mem_append] at hn
    simp only [nodeAtTs]
    rcases hn with hn | hn
    · exact or_isSome (.inl (nodeT_finds hp b h.1 hn))
    · exact or_isSome (.inr (nodeTs_finds hp bs h.2 hn))
theorem nodeT_finds {pos : Nat} {n : Node} (hp : n.tag.has pos = true) : ∀ t : LTerm, NestT t → n ∈ t.leaves → (t.nodeAt pos).isSome = true
  | .flag t, _, hn => by
    rw [List.mem_singleton.1 hn] at hp
    exact isNode_isSome hp
  | .arg a, h, hn => nodeA_finds hp a h hn
theorem nodeA_finds {pos : Nat} {n : Node} (hp : n.tag.has pos = true) : ∀ a : LArg, NestA a → n ∈ a.leaves → (a.nodeAt pos).isSome = true
  | .ident t, _, hn => by
    rw [List.mem_singleton.1 hn] at hp
    exact isNode_isSome hp
  | .num t, _, hn => by
    rw [List.mem_singleton.1 hn] at hp
    exact isNode_isSome hp
  | .pound _ t, _, hn => by
    rw [List.mem_singleton.1 hn] at hp
    exact isNode_isSome hp
  | .var t, _, hn => by
    rw [List.mem_singleton.1 hn] at hp
    exact isNode_isSome hp
  | .expr e, h, hn => nodeE_finds hp e h hn
  | .dot t op lhs rhs out, h, hn => by
    simp only [LArg.nodeAt]
    rw [if_pos (has_covers (h.1 n hn) hp)]
    simp only [LArg.leaves, List.mem_cons, List.mem_append, List.not_mem_nil, or_false] at hn
    rcases hn with rfl | hn | rfl
    · exact or_isSome (.inl (isNode_isSome hp))
    · exact or_isSome (.inr (or_isSome (.inl (nodeA_finds hp lhs h.2 hn))))
    · exact or_isSome (.inr (or_isSome (.inr (isNode_isSome hp))))
end

theorem field_sound {pos : Nat} {n : Node} {f : LField} (h : f.nodeAt pos = some n) : n ∈ f.leaves ∧ n.tag.has pos = true := by
  unfold LField.nodeAt at h
  simp only [LField.leaves, List.mem_cons, List.mem_map]
  rcases or_some h with h | h
  · obtain ⟨rfl, h1⟩ := isNode_some h; exact ⟨.inl rfl, h1⟩
  rcases or_some h with h | h
  · obtain ⟨rfl, h1⟩ := isNode_some h; exact ⟨.inr (.inl rfl), h1⟩
  obtain ⟨p, hp, h⟩ := List.exists_of_findSome?_eq_some h
  obtain ⟨rfl, h1⟩ := isNode_some h
  exact ⟨.inr (.inr ⟨p, hp, rfl⟩), h1⟩

theorem fields_sound {pos : Nat} {n : Node} {fs : List LField} (h : fs.findSome? (LField.nodeAt pos) = some n) :
    n ∈ fs.flatMap LField.leaves ∧ n.tag.has pos = true := by
  obtain ⟨f, hf, h⟩ := List.exists_of_findSome?_eq_some h
  have := field_sound h
  exact ⟨List.mem_flatMap.2 ⟨f, hf, this.1⟩, this.2⟩

theorem variant_sound {pos : Nat} {n : Node} {v : Span × Option (List LField)} (h : variantNodeAt pos v = some n) :
    n ∈ variantLeaves v ∧ n.tag.has pos = true := by
  unfold variantNodeAt at h
  obtain ⟨v, fs⟩ := v
  simp only [variantLeaves, List.mem_cons]
  rcases or_some h with h | h
  · obtain ⟨rfl, h1⟩ := isNode_some h; exact ⟨.inl rfl, h1⟩
  · cases fs with
    | none => cases h
    | some fs => have := fields_sound h; exact ⟨.inr this.1, this.2⟩

theorem body_sound {pos : Nat} {n : Node} {b : LTyBody} (h : b.nodeAt pos = some n) : n ∈ b.leaves ∧ n.tag.has pos = true := by
  cases b with
  | sum vs =>
    obtain ⟨f, hf, h⟩ := List.exists_of_findSome?_eq_some (show vs.findSome? (variantNodeAt pos) = some n from h)
    have := variant_sound h
    exact ⟨List.mem_flatMap.2 ⟨f, hf, this.1⟩, this.2⟩
  | product fs => exact fields_sound h

theorem findSome_isSome {α β : Type} {f : α → Option β} {l : List α} {a : α} (ha : a ∈ l) (h : (f a).isSome = true) :
    (l.findSome? f).isSome = true := by
  rw [List.findSome?_isSome_iff]
  exact ⟨a, ha, h⟩

theorem field_finds {pos : Nat} {n : Node} (hp : n.tag.has pos = true) {f : LField} (h : n ∈ f.leaves) : (f.nodeAt pos).isSome = true := by
  simp only [LField.leaves, List.mem_cons, List.mem_map] at h
  unfold LField.nodeAt
  rcases h with rfl | rfl | ⟨p, h1, rfl⟩
  · exact or_isSome (.inl (isNode_isSome hp))
  · exact or_isSome (.inr (or_isSome (.inl (isNode_isSome hp))))
  · exact or_isSome (.inr (or_isSome (.inr (findSome_isSome h1 (isNode_isSome hp)))))

theorem fields_finds {pos : Nat} {n : Node} (hp : n.tag.has pos = true) {fs : List LField} (h : n ∈ fs.flatMap LField.leaves) :
    (fs.findSome? (LField.nodeAt pos)).isSome = true := by
  obtain ⟨f, h1, h2⟩ := List.mem_flatMap.1 h
  exact findSome_isSome h1 (field_finds hp h2)

theorem body_finds {pos : Nat} {n : Node} (hp : n.tag.has pos = true) {b : LTyBody} (h : n ∈ b.leaves) : (b.nodeAt pos).isSome = true := by
  cases b with
  | product fs => exact fields_finds hp h
  | sum vs =>
    obtain ⟨⟨v, fs⟩, h1, h2⟩ := List.mem_flatMap.1 h
    refine findSome_isSome h1 ?_
    simp only [variantLeaves, List.mem_cons] at h2
    unfold variantNodeAt
    rcases h2 with rfl | h2
    · exact or_isSome (.inl (isNode_isSome hp))
    · cases fs with
      | none => cases h2
      | some fs => exact or_isSome (.inr (fields_finds hp h2))

/-- Two parts which have the same position are the same. -/
theorem same_part {w : Str} {lo hi : Nat} {ns : List Node} (h : Good w lo hi ns) {a b : Node} (ha : a ∈ ns) (hb : b ∈ ns) {pos : Nat}
    (h1 : a.tag.has pos = true) (h2 : b.tag.has pos = true) : a = b := by
  obtain ⟨l, hl, hc⟩ := h
  have row := (chain_row hc).1
  have ha := hl.mem_iff.2 ha
  have hb := hl.mem_iff.2 hb
  clear hc hl
  unfold Span.has at h1 h2
  simp only [Bool.and_eq_true, decide_eq_true_eq] at h1 h2
  induction row with
  | nil => cases ha
  | cons h _ ih =>
    rcases List.mem_cons.1 ha with ea | ha'
    · rcases List.mem_cons.1 hb with eb | hb'
      · rw [ea, eb]
      · have := h b hb'; rw [← ea] at this; omega
    · rcases List.mem_cons.1 hb with eb | hb'
      · have := h a ha'; rw [← eb] at this; omega
      · exact ih ha' hb'

/-- What is said of a position is said of a part there, or of the `def` before the name. -/
theorem node_sound {x : LParsed} {pos : Nat} {n : Node} (h : x.nodeAt pos = some n) :
    n ∈ x.leaves ∧ (n.tag.has pos = true ∨ x.leaves.head? = some n ∧ n.tag.start ≤ pos ∧ pos ≤ n.tag.stop) := by
  cases x with
  | expr e => have := nodeE_sound e h; exact ⟨this.1, .inl this.2⟩
  | ty d =>
    simp only [LParsed.nodeAt] at h
    simp only [LParsed.leaves, List.mem_cons]
    split at h
    · cases h
      refine ⟨.inl rfl, .inr ⟨rfl, Nat.zero_le _, ?_⟩⟩
      show pos ≤ d.name.start - 1
      omega
    · rcases or_some h with h | h
      · obtain ⟨rfl, h1⟩ := isNode_some h; exact ⟨.inr (.inl rfl), .inl h1⟩
      · have := body_sound h; exact ⟨.inr (.inr this.1), .inl this.2⟩
  | impl d =>
    simp only [LParsed.nodeAt] at h
    simp only [LParsed.leaves, List.mem_cons, List.mem_append, List.mem_map]
    split at h
    · cases h
      refine ⟨.inl rfl, .inr ⟨rfl, Nat.zero_le _, ?_⟩⟩
      show pos ≤ d.name.start - 1
      omega
    · rcases or_some h with h | h
      · obtain ⟨rfl, h1⟩ := isNode_some h; exact ⟨.inr (.inl rfl), .inl h1⟩
      rcases or_some h with h | h
      · obtain ⟨t, ht, h⟩ := Option.bind_eq_some_iff.1 h
        obtain ⟨rfl, h1⟩ := isNode_some h
        exact ⟨.inr (.inr (.inl (.inl (by rw [ht]; simp [typeLeaf])))), .inl h1⟩
      rcases or_some h with h | h
      · have := nodeE_sound _ h; exact ⟨.inr (.inr (.inr this.1)), .inl this.2⟩
      · obtain ⟨p, hp, h⟩ := List.exists_of_findSome?_eq_some h
        obtain ⟨rfl, h1⟩ := isNode_some h
        exact ⟨.inr (.inr (.inl (.inr ⟨p, hp, rfl⟩))), .inl h1⟩

theorem node_finds {w : Str} {x : LParsed} (q : QParsed w x) {pos : Nat} {n : Node} (hn : n ∈ x.leaves) (hp : n.tag.has pos = true) :
    (x.nodeAt pos).isSome = true := by
  cases x with
  | expr e => exact nodeE_finds hp e q.nest hn
  | ty d =>
    simp only [LParsed.nodeAt]
    split
    · rfl
    · rename_i h0
      simp only [LParsed.leaves, List.mem_cons] at hn
      rcases hn with rfl | rfl | hn
      · unfold Span.has defTag at hp
        simp only [Bool.and_eq_true, decide_eq_true_eq] at hp
        omega
      · exact or_isSome (.inl (isNode_isSome hp))
      · exact or_isSome (.inr (body_finds hp hn))
  | impl d =>
    simp only [LParsed.nodeAt]
    split
    · rfl
    · rename_i h0
      simp only [LParsed.leaves, List.mem_cons, List.mem_append, List.mem_map] at hn
      rcases hn with rfl | rfl | (hn | ⟨p, h1, rfl⟩) | hn
      · unfold Span.has defTag at hp
        simp only [Bool.and_eq_true, decide_eq_true_eq] at hp
        omega
      · exact or_isSome (.inl (isNode_isSome hp))
      · refine or_isSome (.inr (or_isSome (.inl ?_)))
        cases ht : d.inTy with
        | none => rw [ht] at hn; cases hn
        | some t =>
          rw [ht] at hn
          rw [List.mem_singleton.1 hn] at hp
          exact isNode_isSome hp
      · exact or_isSome (.inr (or_isSome (.inr (or_isSome (.inr (findSome_isSome h1 (isNode_isSome hp)))))))
      · exact or_isSome (.inr (or_isSome (.inr (or_isSome (.inl (nodeE_finds hp _ q.nest hn))))))

theorem head_only {w : Str} {x : LParsed} (q : QParsed w x) {pos : Nat} {m n : Node} (hm : x.leaves.head? = some m) (h2 : x.nodeAt pos = some m)
    (h3 : m.tag.has pos = false) (hn : n ∈ x.leaves) (hp : n.tag.has pos = true) : False := by
  have key : ∀ d : Span, (∀ n ∈ x.leaves, n = ⟨defTag d, .command⟩ ∨ d.start ≤ n.tag.start) → pos < d.start → m = ⟨defTag d, .command⟩ → False := by
    intro d h4 h5 h6
    rcases h4 n hn with e | e
    · rw [e, ← h6, h3] at hp; cases hp
    · unfold Span.has at hp
      simp only [Bool.and_eq_true, decide_eq_true_eq] at hp
      omega
  cases x with
  | expr e =>
    have := (nodeE_sound e h2).2
    rw [h3] at this; cases this
  | ty d =>
    refine key d.name q.head ?_ (Option.some.inj hm).symm
    simp only [LParsed.nodeAt] at h2
    split at h2
    · assumption
    · have h7 : m.tag.has pos = true := by
        rcases or_some h2 with h | h
        · obtain ⟨rfl, h1⟩ := isNode_some h; exact h1
        · exact (body_sound h).2
      rw [h3] at h7; cases h7
  | impl d =>
    refine key d.name q.head ?_ (Option.some.inj hm).symm
    simp only [LParsed.nodeAt] at h2
    split at h2
    · assumption
    · have h7 : m.tag.has pos = true := by
        rcases or_some h2 with h | h
        · obtain ⟨rfl, h1⟩ := isNode_some h; exact h1
        rcases or_some h with h | h
        · obtain ⟨t, ht, h⟩ := Option.bind_eq_some_iff.1 h
          obtain ⟨rfl, h1⟩ := isNode_some h; exact h1
        rcases or_some h with h | h
        · exact (nodeE_sound _ h).2
        · obtain ⟨p, hp, h⟩ := List.exists_of_findSome?_eq_some h
          obtain ⟨rfl, h1⟩ := isNode_some h; exact h1
      rw [h3] at h7; cases h7

/-- **C75**. At every position of a part of the input that part is found. (The code panics on input which has a path.) -/
theorem node_found {w r : Str} {x : LParsed} (h : parse k w = .ok r x) (_hu : x.usesPath = false) {n : Node} (hn : n ∈ x.leaves) {pos : Nat}
    (h1 : n.tag.start ≤ pos) (h2 : pos < n.tag.stop) : x.nodeAt pos = some n := by
  have q := parse_q h
  have hp : n.tag.has pos = true := by unfold Span.has; simp [h1, h2]
  have hs := node_finds q hn hp
  cases hm : x.nodeAt pos with
  | none => rw [hm] at hs; cases hs
  | some m =>
    obtain ⟨h3, h4⟩ := node_sound hm
    cases h5 : m.tag.has pos with
    | true => rw [same_part q.good h3 hn h5 hp]
    | false =>
      rw [h5] at h4
      rcases h4 with h4 | h4
      · cases h4
      · exact absurd (head_only q h4.1 hm h5 hn hp) id

/-- **C75**. What is found is a part of the input, and the position is in it. For a definition the word `def` is also found at the space
after it. -/
theorem found_node {w r : Str} {x : LParsed} (_h : parse k w = .ok r x) (_hu : x.usesPath = false) {n : Node} {pos : Nat}
    (hf : x.nodeAt pos = some n) :
    n ∈ x.leaves ∧ n.tag.start ≤ pos ∧ (pos < n.tag.stop ∨ pos = n.tag.stop ∧ x.leaves.head? = some n) := by
  obtain ⟨h1, h2⟩ := node_sound hf
  refine ⟨h1, ?_⟩
  unfold Span.has at h2
  simp only [Bool.and_eq_true, decide_eq_true_eq] at h2
  rcases h2 with h2 | ⟨h2, h3, h4⟩
  · exact ⟨h2.1, .inl h2.2⟩
  · refine ⟨h3, ?_⟩
    by_cases h5 : pos < n.tag.stop
    · exact .inl h5
    · exact .inr ⟨by omega, h2⟩

/-! The colours. -/

theorem take_ascii : ∀ (p i : Str), (∀ c ∈ p, c.utf8Size = 1) → size p = p.length
  | [], _, _ => rfl
  | c :: p, i, h => by
    have h1 := take_ascii p i fun c hc => h c (List.mem_cons_of_mem _ hc)
    have h2 := h c List.mem_cons_self
    simp [size, h1, h2]; omega

/-- Where all before it is of one byte, the character before a position is found by its number. -/
theorem before_nth {w p i : Str} (e : w = p ++ i) (h : ∀ c ∈ p, c.utf8Size = 1) (hp : p ≠ []) : before w (size p) = w[size p - 1]? := by
  unfold before
  rw [e, takeBytes_append, take_ascii p i h]
  show p.getLast? = _
  rw [List.getLast?_eq_getElem?, List.getElem?_append_left]
  have : 0 < p.length := List.length_pos_iff.2 hp
  omega

/-- The text before each flag has characters of one byte only. -/
def PlainFlags (line : Str) (x : LParsed) : Prop :=
  ∀ n ∈ x.leaves, n.ty = .flag → ∀ p, slice line 0 n.tag.start = some p → ∀ c ∈ p, c.utf8Size = 1

theorem slice_start {p i : Str} : slice (p ++ i) 0 (size p) = some p := by
  unfold slice
  rw [if_neg (by omega)]
  have : dropBytes 0 (p ++ i) = some (p ++ i) := by cases p ++ i <;> rfl
  rw [this]
  exact takeBytes_append p i

theorem shown_outer {w : Str} {x : LParsed} (hf : PlainFlags w x) {lo hi : Nat} {n : Node} (hn : n ∈ x.leaves) (st : Stands w lo hi n) :
    shownTag w n = outer w n := by
  unfold shownTag outer
  cases ht : n.ty <;> try rfl
  dsimp only
  obtain ⟨p, i, e, hp⟩ := st.bd3
  have hc := hf n hn ht p (by rw [← hp, e]; exact slice_start)
  by_cases hne : p = []
  · -- a flag does not stand at the start
    have h0 : n.tag.start = 0 := by rw [← hp, hne]; rfl
    obtain ⟨p2, t, r, e1, h1, h2, h3⟩ := slice_bd st.bd3 st.bd4 st.ne
    obtain ⟨s, hs, h4⟩ := st.text t h3
    have hb : before w 0 = none := by
      unfold before
      have : takeBytes 0 w = some [] := by cases w <;> rfl
      rw [this]; rfl
    have ho : outer w n = n.tag := by
      unfold outer
      rw [ht, h0, hb]
      show (⟨0, n.tag.stop⟩ : Span) = n.tag
      rw [← h0]
    rw [ho] at h4
    have h5 : slice w n.tag.start n.tag.stop = some s := h4
    rw [h3] at h5
    cases h5
    rw [ht] at hs
    simp only [written, List.mem_cons, List.not_mem_nil, or_false] at hs
    rcases hs with h | h | h <;> (have := congrArg List.length h; simp at this; omega)
  · rw [← hp, before_nth e hc hne]

/-- The pieces of a part of the line from a position, with the parts in their order. -/
theorem pieces_chain {w : Str} : ∀ (ns : List Node) (lo hi : Nat) (p i : Str), w = p ++ i → size p = lo → Chain w lo hi ns → hi ≤ size w →
    ∃ ps, pieces w lo (ns.map fun n => ⟨outer w n, n.ty⟩) = some ps ∧ shown ps = i ∧
      (ps.filterMap fun q => q.colour.map fun ty => (ty, q.text)) = ns.filterMap fun n => ((outer w n).str w).map fun s => (n.ty, s)
  | [], lo, hi, p, i, e, hp, _, hh => by
    simp only [List.map_nil, pieces]
    have hs : size w = size p + size i := by rw [e, size_append]
    by_cases h1 : lo < size w
    · rw [if_pos h1]
      have h2 := slice_mid p i []
      rw [List.append_nil, ← e, ← hs, hp] at h2
      rw [h2]
      exact ⟨_, rfl, by simp [shown], rfl⟩
    · rw [if_neg h1]
      have : i = [] := by
        cases i with
        | nil => rfl
        | cons c i => have := size_pos (s := c :: i) (by simp); omega
      exact ⟨_, rfl, by simp [shown, this], rfl⟩
  | n :: ns, lo, hi, p, i, e, hp, h, hh => by
    cases h with
    | cons st hc =>
      rename_i mid
      have b1 := st.low; have b2 := st.start; have b3 := st.ne; have b4 := st.stop; have b5 := st.high
      obtain ⟨a, t, r, e1, h1, h2, h3⟩ := slice_bd ⟨p, i, e, hp⟩ st.bd1 b1
      obtain ⟨a', t', r', e2, h4, h5, h6⟩ := slice_bd st.bd1 st.bd2 (by omega)
      have ea : a = p := by
        obtain ⟨u, e3, e4⟩ := append_split (e.symm.trans e1) (by omega)
        have : size a = size p + size u := by rw [e3, size_append]
        cases u with
        | nil => simpa using e3
        | cons c u => have := size_pos (s := c :: u) (by simp); omega
      subst ea
      have er : a' = a ++ t ∧ r = t' ++ r' := by
        have e5 : (a ++ t) ++ r = a' ++ (t' ++ r') := by rw [← e2, e1]; simp
        have h7 : size (a ++ t) = size a' := by rw [size_append]; omega
        obtain ⟨u, e3, e4⟩ := append_split e5 (by omega)
        have : size a' = size (a ++ t) + size u := by rw [e3, size_append]
        cases u with
        | nil => exact ⟨by simpa using e3, by simpa using e4⟩
        | cons c u => have := size_pos (s := c :: u) (by simp); omega
      obtain ⟨rfl, rfl⟩ := er
      have ei : i = t ++ (t' ++ r') := by
        have := e.symm.trans e1
        exact List.append_cancel_left this
      have hstop : size (a ++ t ++ t') = (outer w n).stop := by rw [size_append]; omega
      obtain ⟨ps, hps, hsh, hcol⟩ := pieces_chain ns (outer w n).stop hi (a ++ t ++ t') r' (by rw [e2]; simp) hstop (hc.mono_lo b5) hh
      simp only [List.map_cons, pieces]
      have hstr : (outer w n).str w = some t' := h6
      rw [hstr, hps]
      by_cases hg : (outer w n).start > lo
      · rw [if_pos hg, h3]
        refine ⟨_, rfl, ?_, ?_⟩
        · rw [ei, ← hsh]; simp [shown]
        · simp only [List.filterMap_append, List.filterMap_cons, hcol, hstr]; simp
      · rw [if_neg hg]
        have ht : t = [] := by
          cases t with
          | nil => rfl
          | cons c u => have := size_pos (s := c :: u) (by simp); omega
        refine ⟨_, rfl, ?_, ?_⟩
        · rw [ei, ← hsh, ht]; simp [shown]
        · simp only [List.nil_append, List.filterMap_cons, hcol, hstr]; simp


theorem same_start {w : Str} {l : List Node} (h : l.Pairwise fun a b => (outer w a).start < (outer w b).start) {a b : Node} (ha : a ∈ l) (hb : b ∈ l)
    (he : (outer w a).start = (outer w b).start) : a = b := by
  induction h with
  | nil => cases ha
  | cons h _ ih =>
    rcases List.mem_cons.1 ha with ea | ha'
    · rcases List.mem_cons.1 hb with eb | hb'
      · rw [ea, eb]
      · have := h b hb'; rw [← ea] at this; omega
    · rcases List.mem_cons.1 hb with eb | hb'
      · have := h a ha'; rw [← eb] at this; omega
      · exact ih ha' hb'

/-- The coloured texts of a shown line. -/
def coloured (ps : List Piece) : List (NodeType × Str) := ps.filterMap fun q => q.colour.map fun ty => (ty, q.text)

theorem chain_texts {w : Str} {lo hi : Nat} {l : List Node} (h : Chain w lo hi l) :
    ∃ m : List (Node × Str × Str), m.map (·.1) = l ∧ (l.filterMap fun n => ((outer w n).str w).map fun s => (n.ty, s)) = m.map (fun p => (p.1.ty, p.2.2)) ∧
      ∀ p ∈ m, p.1.tag.str w = some p.2.1 ∧ p.2.2 ∈ written p.1.ty p.2.1 := by
  induction h with
  | nil h => exact ⟨[], rfl, rfl, fun _ h => (by cases h)⟩
  | cons st _ ih =>
    rename_i n ns _
    obtain ⟨m, h1, h2, h3⟩ := ih
    obtain ⟨p2, t, r, e1, h4, h5, h6⟩ := slice_bd st.bd3 st.bd4 st.ne
    obtain ⟨s, hs, h7⟩ := st.text t h6
    refine ⟨(n, t, s) :: m, by simp [h1], by simp [h7, h2], ?_⟩
    intro p hp
    rcases List.mem_cons.1 hp with rfl | hp
    · exact ⟨h6, hs⟩
    · exact h3 p hp

/-- **C74**, for input without paths and with nothing but characters of one byte before flags: the line is shown as it is, and what is
coloured is every word of it, in order, with the characters which belong to it. -/
theorem highlight_whole_partial {line r : Str} {x : LParsed} (h : parse k line = .ok r x) (hu : x.usesPath = false) (hf : PlainFlags line x) :
    ∃ ps y, syntaxHighlight k line = some ps ∧ shown ps = line ∧ Parse.parse k line = .ok r y ∧
      ∃ m : List (Node × Str × Str), (m.map fun p => (p.1.ty, p.2.1)).Perm (words y) ∧ InOrder (m.map (·.1)) ∧
        coloured ps = m.map (fun p => (p.1.ty, p.2.2)) ∧ ∀ p ∈ m, p.1.tag.str line = some p.2.1 ∧ p.2.2 ∈ written p.1.ty p.2.1 := by
  have q := parse_q h
  obtain ⟨l, hl, hc⟩ := q.good
  have row := chain_row hc
  obtain ⟨ps, h1, h2, h3⟩ := pieces_chain l 0 (size line) [] line rfl rfl hc (Nat.le_refl _)
  obtain ⟨m, m1, m2, m3⟩ := chain_texts hc
  have es : (x.leaves.map fun n => (⟨shownTag line n, n.ty⟩ : Node)).mergeSort (fun a b => a.tag.start ≤ b.tag.start) =
      l.map fun n => ⟨outer line n, n.ty⟩ := by
    have e0 : (x.leaves.map fun n => (⟨shownTag line n, n.ty⟩ : Node)) = x.leaves.map fun n => ⟨outer line n, n.ty⟩ := by
      refine List.map_congr_left fun n hn => ?_
      rw [shown_outer hf hn (q.good.mem hn)]
    rw [e0]
    refine List.Perm.eq_of_pairwise (le := fun a b => a.tag.start ≤ b.tag.start) ?_ ?_ ?_ ?_
    · intro a b ha hb h1 h2
      rw [List.mem_mergeSort, List.mem_map] at ha
      rw [List.mem_map] at hb
      obtain ⟨a', ha, rfl⟩ := ha
      obtain ⟨b', hb, rfl⟩ := hb
      have ha := hl.mem_iff.2 ha
      have e : a' = b' := by
        exact same_start row.2.1 ha hb (by dsimp only at h1 h2; omega)
      rw [e]
    · have := List.pairwise_mergeSort (le := fun a b : Node => decide (a.tag.start ≤ b.tag.start)) (by intro a b c; simp; omega) (by intro a b; simp; omega)
        (x.leaves.map fun n => (⟨outer line n, n.ty⟩ : Node))
      simpa using this
    · rw [List.pairwise_map]
      exact row.2.1.imp fun h => Nat.le_of_lt h
    · exact (List.mergeSort_perm _ _).trans (hl.symm.map _)
  obtain ⟨y, hy, hw⟩ := parts_are_words h hu
  refine ⟨ps, y, ?_, h2, hy, m, ?_, by rw [m1]; exact row.1, h3.trans m2, m3⟩
  rotate_left
  · have e1 : m.map (fun p => (p.1.ty, some p.2.1)) = l.map fun n => (n.ty, n.tag.str line) := by
      rw [← m1, List.map_map]
      refine List.map_congr_left fun p hp => ?_
      show _ = (p.1.ty, p.1.tag.str line)
      rw [(m3 p hp).1]
    have e2 := (hl.map fun n => (n.ty, n.tag.str line)).trans hw
    rw [← e1] at e2
    have e3 := e2.map fun q : NodeType × Option Str => (q.1, q.2.getD [])
    rw [List.map_map, List.map_map] at e3
    have e4 : (words y).map ((fun q : NodeType × Option Str => (q.1, q.2.getD [])) ∘ fun p => (p.1, some p.2)) = words y := by
      rw [show ((fun q : NodeType × Option Str => (q.1, q.2.getD [])) ∘ fun p : NodeType × Str => (p.1, some p.2)) = id from rfl, List.map_id]
    rw [e4] at e3
    exact e3
  unfold syntaxHighlight
  rw [h]
  dsimp only
  rw [hu]
  show highlight line x.leaves = some ps
  unfold highlight
  rw [es]
  exact h1

/-- Input which is not parsed is shown as it is. -/
theorem highlight_unparsed {line : Str} (h : ∀ r x, parse k line ≠ .ok r x) : ∃ ps, syntaxHighlight k line = some ps ∧ shown ps = line := by
  unfold syntaxHighlight
  split
  · rename_i r x e; exact absurd e (h r x)
  · exact ⟨_, rfl, by simp [shown]⟩

/-! Examples. -/

def partsOf : PR LParsed → Option (List Node × Bool)
  | .ok _ x => some (x.leaves, x.usesPath)
  | _ => none

theorem partsOf_some {p : PR LParsed} {ns : List Node} {b : Bool} (h : partsOf p = some (ns, b)) : ∃ r x, p = .ok r x ∧ x.leaves = ns ∧ x.usesPath = b := by
  cases p with
  | ok r x => cases h; exact ⟨r, x, rfl, rfl, rfl⟩
  | err => cases h
  | fail => cases h

/-- A line with most kinds of parts. -/
def sampleLine : Str := "ls 'éé' { get $x.'a b':Num --\"q r\" | + 1 }:Num #t".toList

theorem sample_parts : partsOf (parse Parse.plain sampleLine) = some (
    [⟨⟨0, 2⟩, .command⟩, ⟨⟨4, 8⟩, .ident⟩, ⟨⟨12, 15⟩, .command⟩, ⟨⟨18, 19⟩, .command⟩, ⟨⟨17, 18⟩, .var⟩, ⟨⟨20, 23⟩, .ident⟩, ⟨⟨32, 35⟩, .flag⟩,
      ⟨⟨39, 40⟩, .command⟩, ⟨⟨41, 42⟩, .num⟩, ⟨⟨49, 51⟩, .pound⟩], false) := by decide +kernel

/-- The hypotheses of `tags_nested` and `node_found` are met. -/
example : ∃ r x, parse Parse.plain sampleLine = .ok r x ∧ x.usesPath = false ∧ x.leaves.length = 10 := by
  obtain ⟨r, x, h1, h2, h3⟩ := partsOf_some sample_parts
  exact ⟨r, x, h1, h3, by rw [h2]; rfl⟩

/-- **C74** is false for a flag after other characters: the line `ls 'éé' --f'` makes the shell panic. -/
theorem highlight_panics : syntaxHighlight Parse.plain "ls 'éé' --f'".toList = none := by
  have h : partsOf (parse Parse.plain "ls 'éé' --f'".toList) = some ([⟨⟨0, 2⟩, .command⟩, ⟨⟨4, 8⟩, .ident⟩, ⟨⟨12, 14⟩, .flag⟩], false) := by
    decide +kernel
  obtain ⟨r, x, h1, h2, h3⟩ := partsOf_some h
  unfold syntaxHighlight
  rw [h1]
  dsimp only
  rw [h3, h2]
  show highlight _ _ = none
  unfold highlight
  rw [List.mergeSort_of_pairwise (by decide +kernel)]
  decide +kernel

/-- **C74** is false for a path. -/
theorem highlight_path : syntaxHighlight Parse.plain "a/b".toList = none := by
  have h : partsOf (parse Parse.plain "a/b".toList) = some ([⟨⟨0, 3⟩, .command⟩], true) := by decide +kernel
  obtain ⟨r, x, h1, h2, h3⟩ := partsOf_some h
  unfold syntaxHighlight
  rw [h1]
  dsimp only
  rw [h3]
  rfl

/-- The hypotheses of `highlight_whole_partial` are met by a line with a flag and letters of more bytes after it. -/
example : ∃ r x, parse Parse.plain "get $x --'a b' é".toList = .ok r x ∧ x.usesPath = false ∧
    PlainFlags "get $x --'a b' é".toList x ∧ (⟨⟨10, 13⟩, .flag⟩ : Node) ∈ x.leaves := by
  have h : partsOf (parse Parse.plain "get $x --'a b' é".toList) =
      some ([⟨⟨0, 3⟩, .command⟩, ⟨⟨5, 6⟩, .var⟩, ⟨⟨10, 13⟩, .flag⟩, ⟨⟨15, 17⟩, .ident⟩], false) := by decide +kernel
  obtain ⟨r, x, h1, h2, h3⟩ := partsOf_some h
  refine ⟨r, x, h1, h3, ?_, by rw [h2]; simp⟩
  intro n hn ht p hp
  rw [h2] at hn
  simp only [List.mem_cons, List.not_mem_nil, or_false] at hn
  rcases hn with rfl | rfl | rfl | rfl
  · cases ht
  · cases ht
  · have e : slice "get $x --'a b' é".toList 0 10 = some "get $x --'".toList := by decide +kernel
    rw [e] at hp
    cases hp
    decide +kernel
  · cases ht

/-- What is shown of it. -/
example : (highlight "get $x --'a b'".toList [⟨⟨0, 3⟩, .command⟩, ⟨⟨5, 6⟩, .var⟩, ⟨⟨10, 13⟩, .flag⟩]) =
    some [⟨some .command, "get".toList⟩, ⟨none, " ".toList⟩, ⟨some .var, "$x".toList⟩, ⟨none, " ".toList⟩, ⟨some .flag, "--'a b'".toList⟩] := by
  unfold highlight
  rw [List.mergeSort_of_pairwise (by decide +kernel)]
  decide +kernel

end Verif.Tags
