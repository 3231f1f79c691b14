import Verif.Model.TyErr
/-! C99: messages about conflicting types say which type is where. -/
namespace Verif.TyErr
open Verif.Ty
set_option linter.unusedSectionVars false
variable {T : Type} [DecidableEq T]

/-- Specification. The types that are possible. -/
def possible : Kn T → List T
  | .any => []
  | .known t => [t]
  | .obliged t => [t]
  | .inferred ts => ts

/-- Specification. The words before the types, which say that they are about the input (or about what is returned). -/
def AboutInput (words : String) : Prop := ∃ a b, words = a ++ "input" ++ b
def AboutOutput (words : String) : Prop := ∃ a b, words = a ++ "return" ++ b

/-- Specification. A text names the types, and nothing else but words that do not depend on them. -/
def Names (sh : T → String) (text : String) (ts : List T) (words : String → Prop) : Prop :=
  ∃ a b, text = a ++ " ".intercalate (ts.map sh) ++ b ∧ words (a ++ b)

/-- Specification. A text says what is known of a side of a node. -/
def Says (sh : T → String) (text : String) (sd : Side) (k : Kn T) : Prop :=
  Names sh text (possible k) fun w => match sd with
    | .inp => AboutInput w
    | .out => AboutOutput w

theorem showSet_eq (sh : T → String) (ts : List T) : showSet sh ts = " ".intercalate (ts.map sh) := by
  induction ts with
  | nil => rfl
  | cons t ts ih =>
    cases ts with
    | nil => rfl
    | cons u us =>
      simp only [showSet, ih, List.map_cons]
      rw [String.intercalate_cons_cons]

theorem names_of (sh : T → String) {ts : List T} {text s : String} (a b : String) {words : String → Prop}
    (hs : s = " ".intercalate (ts.map sh)) (ht : text = a ++ s ++ b) (hw : words (a ++ b)) : Names sh text ts words :=
  ⟨a, b, by rw [ht, hs], hw⟩

theorem one (sh : T → String) (t : T) : sh t = " ".intercalate ([t].map sh) := rfl

/-- What a conflict is about, when one knowledge flows into another. -/
theorem canFlow_conflict {a b : Kn T} {c : Conflict T} (h : canFlow a b = .error (.conflict c)) :
    c = .overpoweringInferred ∨
    (∃ t u, c = .conflictingKnown t u ∧ possible a = [t] ∧ possible b = [u]) ∨
    (∃ t u, c = .unmatchedObligation t u ∧ possible a = [t] ∧ possible b = [u]) ∨
    (∃ ts us, c = .unmatchedInferred ts us ∧ possible a = ts ∧ possible b = us) := by
  unfold canFlow at h
  split at h <;> (try split at h) <;> (try split at h) <;> (try cases h) <;> simp [possible]

/-- The words of a message, which speak of the side the type comes from. -/
def Words (sd : Side) : String → Prop := fun w => match sd with
  | .inp => AboutInput w
  | .out => AboutOutput w

theorem resolutionNotes_spec (sh : T → String) (e : Edge) {c : Conflict T} {ts us : List T}
    (hc : (∃ t u, c = .conflictingKnown t u ∧ ts = [t] ∧ us = [u]) ∨ (∃ t u, c = .unmatchedObligation t u ∧ ts = [t] ∧ us = [u]) ∨
      c = .unmatchedInferred ts us) :
    ∃ m₁ m₂, resolutionNotes sh e c = [⟨e.src, m₁⟩, ⟨e.dst, m₂⟩] ∧
      Names sh m₁ ts (Words e.flow.srcSide) ∧ Names sh m₂ us (Words e.flow.srcSide) := by
  obtain ⟨a, b, fl⟩ := e
  rcases hc with ⟨t, u, rfl, rfl, rfl⟩ | ⟨t, u, rfl, rfl, rfl⟩ | rfl
  · cases fl <;> refine ⟨_, _, rfl, ?_, ?_⟩
    · exact names_of sh "the source node returns a `" "`" (one sh t) rfl ⟨"the source node ", "s a ``", by decide +kernel⟩
    · exact names_of sh "but the flow target already returns a `" "`" (one sh u) rfl ⟨"but the flow target already ", "s a ``", by decide +kernel⟩
    · exact names_of sh "the source node has a known input type of `" "`" (one sh t) rfl ⟨"the source node has a known ", " type of ``", by decide +kernel⟩
    · exact names_of sh "but the flow target expects a `" "` input" (one sh u) rfl ⟨"but the flow target expects a `` ", "", by decide +kernel⟩
    · exact names_of sh "the source node returns a `" "`" (one sh t) rfl ⟨"the source node ", "s a ``", by decide +kernel⟩
    · exact names_of sh "but the flow target already returns a `" "`" (one sh u) rfl ⟨"but the flow target already ", "s a ``", by decide +kernel⟩
    · exact names_of sh "the source node has a known input type of `" "`" (one sh t) rfl ⟨"the source node has a known ", " type of ``", by decide +kernel⟩
    · exact names_of sh "but the flow target expects a `" "` input" (one sh u) rfl ⟨"but the flow target expects a `` ", "", by decide +kernel⟩
  · cases fl <;> refine ⟨_, _, rfl, ?_, ?_⟩
    · exact names_of sh "this node returns a `" "`" (one sh t) rfl ⟨"this node ", "s a ``", by decide +kernel⟩
    · exact names_of sh "but this node is obliged to return `" "`" (one sh u) rfl ⟨"but this node is obliged to ", " ``", by decide +kernel⟩
    · exact names_of sh "this node has input type `" "`" (one sh t) rfl ⟨"this node has ", " type ``", by decide +kernel⟩
    · exact names_of sh "but this node is obliged to use input `" "`" (one sh u) rfl ⟨"but this node is obliged to use ", " ``", by decide +kernel⟩
    · exact names_of sh "this node returns a `" "`" (one sh t) rfl ⟨"this node ", "s a ``", by decide +kernel⟩
    · exact names_of sh "but this node is obliged to return `" "`" (one sh u) rfl ⟨"but this node is obliged to ", " ``", by decide +kernel⟩
    · exact names_of sh "this node has input type `" "`" (one sh t) rfl ⟨"this node has ", " type ``", by decide +kernel⟩
    · exact names_of sh "but this node is obliged to use input `" "`" (one sh u) rfl ⟨"but this node is obliged to use ", " ``", by decide +kernel⟩
  · have hin : ∀ (src : List T), Names sh (if src.length = 1 then "this node has input type `" ++ showSet sh src ++ "`"
          else "this node supports input types: " ++ showSet sh src) src (Words .inp) := by
      intro src
      split
      · exact names_of sh "this node has input type `" "`" (showSet_eq sh src) rfl ⟨"this node has ", " type ``", by decide +kernel⟩
      · exact names_of sh "this node supports input types: " "" (showSet_eq sh src) (by simp) ⟨"this node supports ", " types: ", by decide +kernel⟩
    have hin' : ∀ (dst : List T), Names sh (if dst.length = 1 then "but this node is inferred to use input `" ++ showSet sh dst ++ "`"
          else "but this node is inferred to use inputs: " ++ showSet sh dst) dst (Words .inp) := by
      intro dst
      split
      · exact names_of sh "but this node is inferred to use input `" "`" (showSet_eq sh dst) rfl ⟨"but this node is inferred to use ", " ``", by decide +kernel⟩
      · exact names_of sh "but this node is inferred to use inputs: " "" (showSet_eq sh dst) (by simp) ⟨"but this node is inferred to use ", "s: ", by decide +kernel⟩
    have hout : ∀ (src : List T), Names sh ("this node returns a `" ++ showSet sh src ++ "`") src (Words .out) := fun src =>
      names_of sh "this node returns a `" "`" (showSet_eq sh src) rfl ⟨"this node ", "s a ``", by decide +kernel⟩
    have hout' : ∀ (dst : List T), Names sh ("but this node is inferred to return `" ++ showSet sh dst ++ "`") dst (Words .out) := fun dst =>
      names_of sh "but this node is inferred to return `" "`" (showSet_eq sh dst) rfl ⟨"but this node is inferred to ", " ``", by decide +kernel⟩
    cases fl
    · exact ⟨_, _, rfl, hout ts, hout' us⟩
    · exact ⟨_, _, rfl, hin ts, hin' us⟩
    · exact ⟨_, _, rfl, hout ts, hout' us⟩
    · exact ⟨_, _, rfl, hin ts, hin' us⟩

/-- **C99.** Resolving types stops at an edge whose source has a type that its target cannot have. The message then has a
note at the source, which says the type of the source and its side, and a note at the target, which names the types the
target can have.
Partial: the note at the target speaks of the right side only if both sides are the same (`wrong_side_is_told`); if the
type was to flow backwards, the types are swapped (`types_are_told_the_wrong_way_round`). -/
theorem conflict_is_told_partial (sh : T → String) (s : State T) (e : Edge) (c : Conflict T)
    (h : flowEdge s e = .error (.conflict c)) (hf : (s.kn e.src e.flow.srcSide).hasTy = true) (hc : c ≠ .overpoweringInferred) :
    ∃ m₁ m₂, resolutionNotes sh e c = [⟨e.src, m₁⟩, ⟨e.dst, m₂⟩] ∧
      Says sh m₁ e.flow.srcSide (s.kn e.src e.flow.srcSide) ∧
      Names sh m₂ (possible (s.kn e.dst e.flow.dstSide)) (fun _ => True) ∧
      (e.flow.srcSide = e.flow.dstSide → Says sh m₂ e.flow.dstSide (s.kn e.dst e.flow.dstSide)) := by
  unfold flowEdge at h
  dsimp only at h
  rw [if_pos hf] at h
  have hcf : canFlow (s.kn e.src e.flow.srcSide) (s.kn e.dst e.flow.dstSide) = .error (.conflict c) := by
    split at h
    · cases h
    · rename_i x hx; injection h with h; rw [← h]; exact hx
  have key : (∃ t u, c = .conflictingKnown t u ∧ possible (s.kn e.src e.flow.srcSide) = [t] ∧ possible (s.kn e.dst e.flow.dstSide) = [u]) ∨
      (∃ t u, c = .unmatchedObligation t u ∧ possible (s.kn e.src e.flow.srcSide) = [t] ∧ possible (s.kn e.dst e.flow.dstSide) = [u]) ∨
      c = .unmatchedInferred (possible (s.kn e.src e.flow.srcSide)) (possible (s.kn e.dst e.flow.dstSide)) := by
    rcases canFlow_conflict hcf with h | h | h | ⟨ts, us, h, rfl, rfl⟩
    · exact absurd h hc
    · exact .inl h
    · exact .inr (.inl h)
    · exact .inr (.inr h)
  obtain ⟨m₁, m₂, h1, h2, ⟨a, b, h3, h4⟩⟩ := resolutionNotes_spec sh e key
  refine ⟨m₁, m₂, h1, h2, ⟨a, b, h3, trivial⟩, fun hs => ?_⟩
  rw [← hs] at h3 ⊢
  exact ⟨a, b, h3, h4⟩

/-- A graph of one edge, from node 0 to node 1. -/
def pair (fl : Flow) (a b : Kn String) : State String :=
  { kn := fun n sd => if n = 0 ∧ sd = fl.srcSide then a else if n = 1 ∧ sd = fl.dstSide then b else .inferred ["Num", "Str", "Bool"],
    edges := [⟨0, 1, fl⟩], done := [], viaAny := [] }

-- the hypotheses can be met: a block whose input is known to be a number, and a command in it that takes text or a boolean
example : flowEdge (pair .ii (.known "Num") (.inferred ["Str", "Bool"])) ⟨0, 1, .ii⟩ =
      .error (.conflict (.unmatchedInferred ["Num"] ["Str", "Bool"])) ∧
    resolutionNotes id ⟨0, 1, .ii⟩ (.unmatchedInferred ["Num"] ["Str", "Bool"]) =
      [⟨0, "this node has input type `Num`"⟩, ⟨1, "but this node is inferred to use inputs: Str Bool"⟩] := by decide +kernel

theorem no_input {sh : T → String} {m : String} {k : Kn T} (h : 'p' ∉ m.toList) : ¬ Says sh m .inp k := by
  rintro ⟨a, b, rfl, x, y, hw⟩
  have : 'p' ∈ (a ++ b).toList := by rw [hw]; simp
  simp only [String.toList_append, List.mem_append] at this h
  rcases this with h' | h'
  · exact h (.inl (.inl h'))
  · exact h (.inr h')

/-- **The code violates C99**: a boolean is given to a command that is defined for numbers and for text. The note at the
command says what it returns; what it takes is meant. -/
theorem wrong_side_is_told : ∃ c m₁ m₂, flowEdge (pair .oi (.known "Bool") (.inferred ["Num", "Str"])) ⟨0, 1, .oi⟩ = .error (.conflict c) ∧
    resolutionNotes id ⟨0, 1, .oi⟩ c = [⟨0, m₁⟩, ⟨1, m₂⟩] ∧ m₂ = "but this node is inferred to return `Num Str`" ∧
    ¬ Says id m₂ .inp (.inferred ["Num", "Str"]) :=
  ⟨.unmatchedInferred ["Bool"] ["Num", "Str"], "this node returns a `Bool`", _, by decide +kernel, by decide +kernel, rfl,
    no_input (by decide +kernel)⟩

/-- **The code violates C99**: a block whose input is a number or text, around a command that needs a boolean. The note
at the block says that it has a boolean, and the note at the command that it is inferred to be a number or text. -/
theorem types_are_told_the_wrong_way_round : ∃ c m₁ m₂,
    flowEdge (pair .ii (.inferred ["Num", "Str"]) (.known "Bool")) ⟨0, 1, .ii⟩ = .error (.conflict c) ∧
    resolutionNotes id ⟨0, 1, .ii⟩ c = [⟨0, m₁⟩, ⟨1, m₂⟩] ∧
    m₁ = "this node has input type `Bool`" ∧ m₂ = "but this node is inferred to use inputs: Num Str" ∧
    ¬ Says id m₁ .inp (.inferred ["Num", "Str"]) ∧ ¬ Says id m₂ .inp (.known "Bool") := by
  refine ⟨.unmatchedInferred ["Bool"] ["Num", "Str"], _, _, by decide +kernel, by decide +kernel, rfl, rfl, ?_, ?_⟩
  · rintro ⟨a, b, h, -⟩
    have h' : 'N' ∈ ("this node has input type `Bool`" : String).toList := by
      rw [h]; simp [possible]
    revert h'; decide +kernel
  · rintro ⟨a, b, h, -⟩
    have h' : 'B' ∈ ("but this node is inferred to use inputs: Num Str" : String).toList := by
      rw [h]; simp [possible]
    revert h'; decide +kernel

/-- **C99.** If a change cannot be made at a node, both notes are at that node; the first names the types that should be
applied, the second those the node can have. -/
theorem refused_change_is_told (sh : T → String) (s : State T) (n : Nat) (sd : Side) (k : Kn T) (c : Conflict T)
    (h : setKn s n sd k = .error (.conflict c)) (hc : c ≠ .overpoweringInferred) :
    ∃ m₁ m₂, changeNotes sh n c = [⟨n, m₁⟩, ⟨n, m₂⟩] ∧
      Names sh m₁ (possible k) (fun _ => True) ∧ Names sh m₂ (possible (s.kn n sd)) (fun w => ∃ b, w = "but it is " ++ b) := by
  unfold setKn at h
  split at h
  · cases h
  · have hcf : canFlow k (s.kn n sd) = .error (.conflict c) := by
      split at h
      · cases h
      · rename_i x hx; injection h with h; rw [← h]; exact hx
    rcases canFlow_conflict hcf with h | ⟨t, u, rfl, h1, h2⟩ | ⟨t, u, rfl, h1, h2⟩ | ⟨ts, us, rfl, rfl, rfl⟩
    · exact absurd h hc
    · rw [h1, h2]
      exact ⟨_, _, rfl, names_of sh "this node is trying to have a type `" "` applied to it" (one sh t) rfl trivial,
        names_of sh "but it is already known to use type `" "`" (one sh u) rfl ⟨"already known to use type ``", by decide +kernel⟩⟩
    · rw [h1, h2]
      exact ⟨_, _, rfl, names_of sh "this node is trying to have a type `" "` applied to it" (one sh t) rfl trivial,
        names_of sh "but it is already obligated to use type `" "`" (one sh u) rfl ⟨"already obligated to use type ``", by decide +kernel⟩⟩
    · refine ⟨_, _, rfl, ?_, ?_⟩
      · split
        · exact names_of sh "this node has input type `" "`" (showSet_eq sh _) rfl trivial
        · exact names_of sh "this node could have any of these types applied to it: " "" (showSet_eq sh _) (by simp) trivial
      · split
        · exact names_of sh "but it is inferred to use type `" "`" (showSet_eq sh _) rfl ⟨"inferred to use type ``", by decide +kernel⟩
        · exact names_of sh "but it is inferred to use only types: " "" (showSet_eq sh _) (by simp) ⟨"inferred to use only types: ", by decide +kernel⟩

-- the hypotheses can be met: an annotation against what is known
example : (match setKn (pair .ii (.known "Num") .any) 0 .inp (.known "Str") with
      | .error (.conflict c) => changeNotes id 0 c
      | _ => []) =
    [⟨0, "this node is trying to have a type `Str` applied to it"⟩, ⟨0, "but it is already known to use type `Num`"⟩] := by decide +kernel

end Verif.TyErr
