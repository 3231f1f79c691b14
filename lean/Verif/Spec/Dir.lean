import Verif.Spec.Table
import Verif.Model.Dir
/-! What the table of `ls` is supposed to show. -/
namespace Verif.Dir
open Verif.Tab
variable {N : Type}

/-- The name is the text `s`: every part of it is a character. -/
def IsText (n : Name) (s : String) : Prop := n = s.toList.map some

/-- `x` is the extension of the name: it comes after a dot that is not at the begin, and has no dot itself. -/
def IsExt (n x : Name) : Prop := ∃ stem, stem ≠ [] ∧ n = stem ++ some '.' :: x ∧ some '.' ∉ x

/-- A cell shows the text that is known, or nothing. -/
def ShowsText (known : String → Prop) (e : Entry N) : Prop :=
  (∀ s, known s → e = .obj (.str s)) ∧ ((∀ s, ¬ known s) → e = .nil)

/-- The row of an entry: its name; what it is; its size; its extension; when it was changed. -/
structure ShowsItem (ofNat : Nat → N) (e : Item) (r : List (Entry N)) : Prop where
  width : r.length = 5
  name : ∀ s, IsText e.name s → r[0]? = some (.obj (.str s))
  unnamed : (∀ s, ¬ IsText e.name s) → r[0]? = some (.obj (.str ""))
  unknown : e.info = none → ∀ c : Nat, 1 ≤ c → c < 5 → r[c]? = some .nil
  kind : ∀ m, e.info = some m → r[1]? = some (match m.kind with
    | .dir => .obj (.str "dir") | .file => .obj (.str "file") | .other => .nil)
  size : ∀ m, e.info = some m → r[2]? = some (.num (ofNat m.len))
  ext : ∀ m, e.info = some m → ∃ x, r[3]? = some x ∧ ShowsText (fun s => ∃ x, IsExt e.name x ∧ IsText x s) x
  modified : ∀ m, e.info = some m → ∃ x, r[4]? = some x ∧
    ShowsText (fun s => ∃ t, m.modified = some t ∧ s = String.ofList (stampText t)) x

/-- The name a row shows. -/
def rowName : List (Entry N) → String
  | .obj (.str s) :: _ => s
  | _ => ""

/-- The table of some entries: the header, and then a row for each, in the order of the names. -/
def Lists (ofNat : Nat → N) (es : List Item) (t : Rows N) : Prop :=
  ∃ (d : Rows N) (l : List Item), t = [.obj (.str "name"), .obj (.str "type"), .obj (.str "size"), .obj (.str "ext"), .obj (.str "modified")] :: d ∧
    l.Perm es ∧ d.length = l.length ∧ (∀ (i : Nat) e r, l[i]? = some e → d[i]? = some r → ShowsItem ofNat e r) ∧
    d.Pairwise fun a b => rowName a ≤ rowName b

/-- One point in time is before another. -/
def Stamp.Before (a b : Stamp) : Prop :=
  a.year < b.year ∨ a.year = b.year ∧ (a.month < b.month ∨ a.month = b.month ∧ (a.day < b.day ∨ a.day = b.day ∧
    (a.hour < b.hour ∨ a.hour = b.hour ∧ a.minute < b.minute)))

/-- Points in time of the calendar, from the year 0 to the year 9999. -/
def Stamp.Proper (a : Stamp) : Prop :=
  0 ≤ a.year ∧ a.year ≤ 9999 ∧ a.month ≤ 12 ∧ a.day ≤ 31 ∧ a.hour < 24 ∧ a.minute < 60

/-- The number decimal digits write. -/
def value (s : List Char) : Nat := s.foldl (fun n c => 10 * n + (c.toNat - 48)) 0

/-- The text is the year in four digits, the month, the day, and the hour and minute, in two digits each. -/
def Reads (a : Stamp) (s : List Char) : Prop :=
  ∃ y mo d h mi : List Char, s = y ++ ['.'] ++ mo ++ ['.'] ++ d ++ [' '] ++ h ++ mi ∧
    y.length = 4 ∧ mo.length = 2 ∧ d.length = 2 ∧ h.length = 2 ∧ mi.length = 2 ∧ (∀ c ∈ y ++ mo ++ d ++ h ++ mi, c.isDigit) ∧
    (value y : Int) = a.year ∧ value mo = a.month ∧ value d = a.day ∧ value h = a.hour ∧ value mi = a.minute

end Verif.Dir
