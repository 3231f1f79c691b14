/-! What C94 says about rows on the screen. -/
namespace Verif.Wrap
variable {St : Type}

/-- The characters of spans, each with its style. -/
def glyphs (r : List (List Char × St)) : List (Char × St) := r.flatMap fun s => s.1.map fun c => (c, s.2)

/-- The characters of spans. -/
def textOf (r : List (List Char × St)) : List Char := r.flatMap (·.1)

/-- The number of columns that characters take. -/
def columns (wd : Char → Nat) (t : List Char) : Nat := (t.map wd).sum

/-- What is shown of a character: a tab is shown as four spaces. -/
def shownAs {Lk : Type} (look : St → Lk) (g : Char × St) : List (Char × Lk) :=
  if g.1 = '\t' then List.replicate 4 (' ', look g.2) else [(g.1, look g.2)]

/-- No row could have taken the first character of the next row. -/
def Tight (wd : Char → Nat) (width : Nat) : List (List (List Char × St)) → Prop
  | r :: r' :: rs => (∃ c t, textOf r' = c :: t ∧ width < columns wd (textOf r) + wd c) ∧ Tight wd width (r' :: rs)
  | _ => True

end Verif.Wrap
