import Verif.Model.Morph
/-! What tables and row expressions are supposed to be. -/
namespace Verif.Tab
variable {N : Type}

/-- A table: no rows at all, or rows of one positive width. The first row is the header. -/
def Rect (t : Rows N) : Prop := t = [] ∨ ∃ w, 0 < w ∧ ∀ r ∈ t, r.length = w

/-- Column `c` is the first one whose header is the string `name`. -/
def Column (t : Rows N) (name : String) (c : Nat) : Prop :=
  ∃ h d, t = h :: d ∧ h[c]? = some (.obj (.str name)) ∧ ∀ j : Nat, j < c → h[j]? ≠ some (.obj (.str name))

/-- Evaluating an expression on row `row`, with no cache. A column that is not there is an error. -/
def evalRow {A : Type} (t : Rows N) (row : Nat) : Prog N A → Res A
  | .ret a => .ok a
  | .fail e => .error (.err e)
  | .get name k =>
    match colIdx t name with
    | .error e => .error (.err e)
    | .ok c => match entryAt t row c with
      | .error e => .error e
      | .ok x => evalRow t row (k x)

/-- A schedule handles every data row exactly once; which worker does, and in which order, is open. -/
def Schedule (n : Nat) (s : Sched) : Prop := (s.map (·.2)).Perm (List.range' 1 (n - 1))

/-- The header and the data rows whose number passes the test, in order. -/
def keepRows (q : Nat → Bool) : Rows N → Rows N
  | [] => []
  | h :: d => h :: ((d.zipIdx 1).filter fun x => q x.2).map (·.1)

/-- Each name is the header of the column beside it. -/
def Columns (t : Rows N) : List String → List Nat → Prop
  | [], [] => True
  | n :: ns, c :: cs => Column t n c ∧ Columns t ns cs
  | _, _ => False

/-- The elements of a list whose position passes the test, in order. -/
def sel {α : Type} (q : Nat → Bool) (r : List α) : List α := (r.zipIdx.filter fun x => q x.2).map (·.1)

/-- The cell in row `i` and column `c`. -/
def cell (t : Rows N) (i c : Nat) : Entry N := (t[i]?.bind (·[c]?)).getD .nil

/-- Row `i` goes before row `j`: compare the cells of the first column; on a tie go on with the next columns;
when all tie the rows stay in the order they were. -/
def Before (cmp : Entry N → Entry N → Ordering) (t : Rows N) : List Nat → Nat → Nat → Prop
  | [], i, j => i < j
  | c :: cs, i, j => cmp (cell t i c) (cell t j c) = .lt ∨ (cmp (cell t i c) (cell t j c) = .eq ∧ Before cmp t cs i j)

/-- `u` is `t` with its data rows rearranged so that row `i` comes before row `j` only if `before i j`. -/
def SortedBy (before : Nat → Nat → Prop) (t u : Rows N) : Prop :=
  ∃ p : List Nat, p.Perm (List.range' 1 (t.length - 1)) ∧ p.Pairwise before ∧
    u = t.take 1 ++ p.map fun i => t[i]?.getD []

/-- The groups of rows with keys `ks`: keys in increasing order, no two the same; each group has the header and
exactly the rows with its key, in order, and its key is the key of the first of them; every row is in a group. -/
structure Grouped {K : Type} (cmp : K → K → Ordering) (h : List (Entry N)) (ks : List (K × List (Entry N)))
    (m : List (K × Rows N)) : Prop where
  sorted : m.Pairwise fun a b => cmp a.1 b.1 = .lt
  rows : ∀ g ∈ m, g.2 = h :: (ks.filter fun x => cmp x.1 g.1 == .eq).map (·.2)
  key : ∀ g ∈ m, (ks.find? fun x => cmp x.1 g.1 == .eq).map (·.1) = some g.1
  cover : ∀ x ∈ ks, ∃ g ∈ m, cmp x.1 g.1 = .eq

/-- Removing adjacent duplicates: the list falls into runs, each headed by the element that is kept and holding
elements that are the same as it; the next run is headed by a different one. -/
def Runs {α : Type} (same : α → α → Bool) : List (α × List α) → Prop
  | [] => True
  | [r] => ∀ x ∈ r.2, same x r.1 = true
  | r :: r' :: rs => (∀ x ∈ r.2, same x r.1 = true) ∧ same r'.1 r.1 = false ∧ Runs same (r' :: rs)

def Deduped {α : Type} (same : α → α → Bool) (l kept : List α) : Prop :=
  ∃ runs, Runs same runs ∧ l = runs.flatMap (fun r => r.1 :: r.2) ∧ kept = runs.map (·.1)

end Verif.Tab
