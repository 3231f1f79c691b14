import Verif.Model.DepthMsg
/-! C101: where inference goes too deep, the message begins at the outermost place. -/
namespace Verif.DepthMsg

/-- What there is to do or to know at a place: the input of an expression can be annotated, the output of a command is
being inferred. -/
def fitting : Which → String
  | .input => "annotate the input type for this expression"
  | .output => "trying to infer output for this command"

theorem advice_fits (w : Which) : advice w = fitting w := by cases w <;> rfl

theorem addTrace_chain (ns : List Note) (ps : List Nat) (n m : Nat) (t : String)
    (h : ns = ⟨n, some t⟩ :: ps.map fun k => ⟨k, some "sub-inferencing failed"⟩) (msg : String) :
    addTrace ns m msg = ⟨m, some t⟩ :: (n :: ps).map fun k => ⟨k, some "sub-inferencing failed"⟩ := by
  subst h; rfl

theorem bubble_from (ps : List Place) : ∀ (n : Nat) (t : String) (qs : List Nat),
    ps.foldl (fun ns p => addTrace ns p.node (advice p.which)) (⟨n, some t⟩ :: qs.map fun k => ⟨k, some "sub-inferencing failed"⟩) =
      match (ps.map Place.node).reverse ++ n :: qs with
      | [] => []
      | m :: ms => ⟨m, some t⟩ :: ms.map fun k => ⟨k, some "sub-inferencing failed"⟩ := by
  induction ps with
  | nil => intro n t qs; rfl
  | cons p ps ih =>
    intro n t qs
    rw [List.foldl_cons, addTrace_chain _ qs n p.node t rfl, ih]
    simp

/-- C101. If trying types goes too deep, inside of the places `outer`, …, `inner` (each tried within the one before), the
message has one note for each place, from the outermost inwards. All but the first only say that trying types within
failed.
Partial: the advice at the outermost place is the one for the innermost; it fits if at both places the same is to be
inferred (`advice_does_not_fit`). -/
theorem outermost_place_first_partial (outer : Place) (ps : List Place) :
    ∃ t, bubble (outer :: ps).reverse = ⟨outer.node, some t⟩ :: ps.map (fun p => ⟨p.node, some "sub-inferencing failed"⟩) ∧
      (((outer :: ps).getLast (by simp)).which = outer.which → t = fitting outer.which) := by
  rcases List.eq_nil_or_concat ps with rfl | ⟨qs, inner, rfl⟩
  · exact ⟨advice outer.which, rfl, fun _ => advice_fits _⟩
  · refine ⟨advice inner.which, ?_, ?_⟩
    · have e : (outer :: qs.concat inner).reverse = inner :: (qs.reverse ++ [outer]) := by simp
      rw [e]
      unfold bubble
      rw [List.foldl_cons]
      have := bubble_from (qs.reverse ++ [outer]) inner.node (advice inner.which) []
      simp only [List.map_nil] at this
      rw [show addTrace [] inner.node (advice inner.which) = [⟨inner.node, some (advice inner.which)⟩] from rfl, this]
      simp
    · intro h
      have : (outer :: qs.concat inner).getLast (by simp) = inner := by
        rw [List.getLast_cons (by simp)]; simp
      rw [this] at h
      rw [h, advice_fits]

/-- **The code violates C101**: a command whose output is to be inferred gets the advice to annotate the input of an
expression, as this was tried within. -/
theorem advice_does_not_fit : bubble [⟨7, .input⟩, ⟨3, .output⟩] =
    [⟨3, some "annotate the input type for this expression"⟩, ⟨7, some "sub-inferencing failed"⟩] ∧
    fitting .output ≠ "annotate the input type for this expression" := by decide +kernel

-- the hypotheses can be met
example : bubble [⟨7, .output⟩, ⟨5, .input⟩, ⟨3, .output⟩] =
    [⟨3, some "trying to infer output for this command"⟩, ⟨5, some "sub-inferencing failed"⟩, ⟨7, some "sub-inferencing failed"⟩] := by
  decide +kernel

end Verif.DepthMsg
