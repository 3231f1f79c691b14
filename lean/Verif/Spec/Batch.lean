import Verif.Model.Batch
/-! What the outcome of a batch item is meant to be. -/
namespace Verif.Batch
variable {Item D E : Type}

/-- The definitions in force once all definition items before position `j` have been processed in
file order. -/
def defsAt (c : Cfg Item D E) (d0 : D) (j : Nat) : D :=
  (c.items.take j).foldl (fun d it => if c.kind it = .expr then d else (c.procDef d it).1) d0

/-- The outcome of item `i` when it is processed: a definition is judged against the definitions
before it, an expression against all the definitions of the batch. -/
def trueOutcome (c : Cfg Item D E) (d0 : D) (i : Nat) (it : Item) : Outcome E :=
  if c.kind it = .expr then .ofResult (c.procExpr (defsAt c d0 c.items.length) it)
  else .ofResult (c.procDef (defsAt c d0 i) it).2

/-- Item `i` has been processed (its code has been run to an outcome). -/
def Processed (s : St D E) (i : Nat) : Prop :=
  ∃ o, (s.phase i = .ran o ∨ s.phase i = .done o) ∧ (o = .success ∨ ∃ e, o = .failed e)

/-- The batch has returned. -/
def Finished (s : St D E) : Prop := s.fin.isSome = true

/-- Item `j` comes before item `i` in processing order: definitions before expressions, and file
order within each group. -/
def Before (c : Cfg Item D E) (j i : Nat) : Prop :=
  (c.isDef j = true ∧ c.isDef i = true ∧ j < i) ∨ (c.isDef j = true ∧ c.isExpr i = true) ∨
  (c.isExpr j = true ∧ c.isExpr i = true ∧ j < i)

end Verif.Batch
