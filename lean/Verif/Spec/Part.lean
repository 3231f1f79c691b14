import Verif.Model.Part
/-! What the partition graph is supposed to be. -/
namespace Verif.Part

/-- The graphs obtained from the initial one by any sequence of successful extensions. Each extension may
visit its hash map in any order. -/
inductive Reach (g : Glob) : Parts → Prop
  | new : Reach g new
  | extend {ps ps' : Parts} (order : List (Nat × List String) → List (Nat × List String))
      (m : List (List String × List FileDef)) : Reach g ps → (∀ l, (order l).Perm l) →
      extendRoot g order ps m = .ok ps' → Reach g ps'

/-- C10: a forest under three roots. -/
structure Forest (ps : Parts) : Prop where
  /-- The three roots are boundaries without a parent. -/
  roots : ∀ i : Nat, i < 3 → ∃ n : Node, ps[i]? = some n ∧ n.parent = none ∧ n.item.isBoundary = true
  /-- Any other item has a parent boundary, created before it, that lists it exactly once. -/
  parent : ∀ (i : Nat) (n : Node), ps[i]? = some n → 3 ≤ i → ∃ (p : Nat) (q : Node), n.parent = some p ∧ p < i ∧ ps[p]? = some q ∧
    q.item.isBoundary = true ∧ q.item.children.count i = 1
  /-- Child links point back. -/
  child : ∀ (p : Nat) (q : Node) (c : Nat), ps[p]? = some q → c ∈ q.item.children → ∃ n : Node, ps[c]? = some n ∧ n.parent = some p
  /-- One boundary of a name under one parent. -/
  boundary : ∀ (i j : Nat) (n m : Node) (p : Nat), ps[i]? = some n → ps[j]? = some m → n.parent = some p → m.parent = some p →
    n.name = m.name → n.item.isBoundary = true → m.item.isBoundary = true → i = j
  /-- One type of a name under one parent. -/
  type_ : ∀ (i j : Nat) (n m : Node) (p : Nat), ps[i]? = some n → ps[j]? = some m → n.parent = some p → m.parent = some p →
    n.name = m.name → n.item.isType = true → m.item.isType = true → i = j

/-- Items of `ps` are still there in `ps'`: same id, name, parent, kind and imports, with the same children
and exports and maybe more. -/
def Keeps (ps ps' : Parts) : Prop :=
  ∀ (i : Nat) (n : Node), ps[i]? = some n → ∃ n' : Node, ps'[i]? = some n' ∧ n'.name = n.name ∧ n'.parent = n.parent ∧
    n'.item.isBoundary = n.item.isBoundary ∧ n'.item.isType = n.item.isType ∧
    n'.item.imports = n.item.imports ∧ n.item.children <+: n'.item.children ∧
    ∀ x ∈ n.item.exports, x ∈ n'.item.exports

/-- One component of a path: `..` is the parent, a name is an item of that name whose parent is the item
we are at. -/
inductive Step (ps : Parts) : Nat → String → Nat → Prop
  | up {i p : Nat} {n : Node} : ps[i]? = some n → n.parent = some p → Step ps i ".." p
  | down {i c : Nat} {n : Node} {x : String} : x ≠ ".." → ps[c]? = some n → n.parent = some i → n.name = x →
      Step ps i x c

/-- All the components of a path. -/
inductive Walk (ps : Parts) : Nat → List String → Nat → Prop
  | nil {i : Nat} : Walk ps i [] i
  | cons {i j k : Nat} {x : String} {xs : List String} : Step ps i x j → Walk ps j xs k → Walk ps i (x :: xs) k

/-- The items a path denotes in partition `within` with the items `imports` in scope. -/
inductive Denotes (ps : Parts) (within : Nat) (imports : List Nat) : Start × List String → Nat → Prop
  | plugins {cs : List String} {i : Nat} : Walk ps 2 cs i → Denotes ps within imports (.plugins, cs) i
  | root {cs : List String} {i : Nat} : Walk ps 0 cs i → Denotes ps within imports (.root, cs) i
  | rel {cs : List String} {i : Nat} : Walk ps within cs i → Denotes ps within imports (.rel, cs) i
  | imported {c : String} {cs : List String} {i x : Nat} {n : Node} : c ≠ ".." → x ∈ imports → ps[x]? = some n →
      n.name = c → Walk ps x cs i → Denotes ps within imports (.rel, c :: cs) i

/-- The boundary an import path leads to: every named component is a boundary. -/
inductive BPath (ps : Parts) : Nat → List String → Nat → Prop
  | nil {i : Nat} : BPath ps i [] i
  | up {i p k : Nat} {n : Node} {xs : List String} : ps[i]? = some n → n.parent = some p → BPath ps p xs k →
      BPath ps i (".." :: xs) k
  | down {i c k : Nat} {n : Node} {x : String} {xs : List String} : x ≠ ".." → ps[c]? = some n →
      n.parent = some i → n.name = x → n.item.isBoundary = true → BPath ps c xs k → BPath ps i (x :: xs) k

/-- Partition `b` exports item `x`. -/
def Exported (ps : Parts) (b x : Nat) : Prop := ∃ q : Node, ps[b]? = some q ∧ x ∈ q.item.exports

/-- Where an import path starts: at the partition, at `/` or at `//`. -/
def startOf (this : Nat) : Prefix → Nat
  | .none => this
  | .root => 0
  | .plugins => 2

/-- The items an import in partition `this` brings into scope. -/
def Imported (g : Glob) (ps : Parts) (this : Nat) (i : Import) (x : Nat) : Prop :=
  ∃ (b : Nat) (n : Node) (m : String → Bool), BPath ps (startOf this i.pre) i.path b ∧
    ps[x]? = some n ∧ n.parent = some b ∧ g i.glob = some m ∧ m n.name = true ∧ x ≠ this ∧
    (n.item.isBoundary = true ∨ Exported ps b x)

/-- The names and kinds (`true` for a type) of the types and commands in a list of nodes. -/
def itemsOf (l : List Node) : List (String × Bool) :=
  l.filterMap fun n => if n.item.isBoundary then none else some (n.name, n.item.isType)

/-- The items a file defines. -/
def fileItems (f : FileDef) : List (String × Bool) := f.types.map (·, true) ++ f.impls.map (·, false)

/-- The files of an extension with their partitions. -/
def filesOf (m : List (List String × List FileDef)) : List (List String × FileDef) :=
  m.flatMap fun x => x.2.map fun f => (x.1, f)

end Verif.Part
