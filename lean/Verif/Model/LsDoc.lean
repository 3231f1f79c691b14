/-! Model of the language server's versioned document store (`ogma-ls/workspace.rs`). -/
namespace Verif.LsDoc

/-- `ogma-ls/workspace.rs:240-243` `struct Change`. The edit list is an opaque type `C`. -/
structure Change (C : Type) where
  version : Int
  changes : C
deriving Repr, DecidableEq

/-- `ogma-ls/workspace.rs:192-196` `struct File`. The text is an opaque type `T`; versions are
`i32` in the code and unbounded integers here (`self.version + 1` overflow is not modelled). -/
structure Doc (T C : Type) where
  text : T
  version : Int
  pending : List (Change C)
deriving Repr

variable {T C : Type}

/-- `ogma-ls/workspace.rs:199-205` `File::new`. -/
def Doc.new (text : T) (version : Int) : Doc T C := ⟨text, version, []⟩

/-- `ogma-ls/workspace.rs:208-214`: insertion before the first queued change whose version is not
smaller. -/
def insertPending : List (Change C) → Change C → List (Change C)
  | [], c => [c]
  | p :: ps, c => if p.version ≥ c.version then c :: p :: ps else p :: insertPending ps c

/-- `ogma-ls/workspace.rs:219-237` `apply_pending`. `apply` stands for `apply_changes`
(`workspace.rs:245-253`). -/
def applyPending (apply : T → C → T) : T → Int → List (Change C) → Doc T C
  | t, v, [] => ⟨t, v, []⟩
  | t, v, c :: cs =>
    if c.version < v then applyPending apply t v cs
    else if c.version > v + 1 then ⟨t, v, c :: cs⟩
    else applyPending apply (apply t c.changes) c.version cs

/-- `ogma-ls/workspace.rs:207-217` `add_changes`. -/
def Doc.addChanges (apply : T → C → T) (d : Doc T C) (c : Change C) : Doc T C :=
  applyPending apply d.text d.version (insertPending d.pending c)

/-- Receiving a sequence of change notifications (`workspace.rs:46-50` `add_file_changes`). -/
def Doc.receive (apply : T → C → T) (d : Doc T C) (cs : List (Change C)) : Doc T C :=
  cs.foldl (Doc.addChanges apply) d

end Verif.LsDoc
