import Verif.Model.Nom
/-! Model of table values and of the table operations of the `table` crate that the commands use.
The crate is external: these operations follow its use in the source and the command tests
(`ogma/tests/commands/{morphism,arithmetic}.rs`). Numbers are a parameter `N`. -/
namespace Verif.Tab

mutual
/-- `ogma/src/lang/types.rs:131-150` `Value`. A table is its rows (row 0 is the header); a table row is a table
with a row number. User data keeps its type's name, variant and fields. -/
inductive Value (N : Type) : Type
  | nil
  | bool (b : Bool)
  | num (n : N)
  | str (s : String)
  | tab (rows : List (List (Entry N)))
  | row (rows : List (List (Entry N))) (idx : Nat)
  | ogma (ty : String) (variant : Nat) (fields : List (Value N))

/-- `table::Entry<Value>`. -/
inductive Entry (N : Type) : Type
  | nil
  | num (n : N)
  | obj (v : Value N)
end

/-- A table: rows of cells. -/
abbrev Rows (N : Type) := List (List (Entry N))

/-- `types.rs:59-75` `Type`; type definitions are compared by name (`types.rs:527-531`). -/
inductive Ty
  | nil | bool | num | str | tab | tabRow
  | def_ (name : String)
deriving DecidableEq, Repr

/-- `types.rs:154-165` `Value::ty`. -/
def Value.ty {N : Type} : Value N → Ty
  | .nil => .nil
  | .bool _ => .bool
  | .num _ => .num
  | .str _ => .str
  | .tab _ => .tab
  | .row _ _ => .tabRow
  | .ogma t _ _ => .def_ t

/-- `types.rs:177-185`. -/
def Entry.value {N : Type} : Entry N → Value N
  | .nil => .nil
  | .num n => .num n
  | .obj v => v

/-- `types.rs:187-195`. -/
def Value.entry {N : Type} : Value N → Entry N
  | .nil => .nil
  | .num n => .num n
  | v => .obj v

/-- Errors of the table commands. Errors of user expressions carry a number. -/
inductive TErr
  | header (name : String)
  | empty
  | entryTy
  | bounds
  | user (n : Nat)
deriving DecidableEq, Repr

/-- A reported error or a panic. -/
inductive Bad
  | err (e : TErr)
  | panic
deriving DecidableEq, Repr

abbrev Res (α : Type) := Except Bad α

variable {N : Type}

/-! ### The `table` crate -/

/-- `Table::cols_len`. -/
def width : Rows N → Nat
  | [] => 0
  | r :: _ => r.length

/-- Cells past the end of a row are nil. -/
def padTo (w : Nat) (r : List (Entry N)) : List (Entry N) := r ++ List.replicate (w - r.length) .nil

/-- A table without columns has no rows (`tests/commands/arithmetic.rs:268`). -/
def norm (t : Rows N) : Rows N := if width t = 0 then [] else t

/-- `Table::add_row`: the row, or the rest of the table, is padded with nil. -/
def addRow (t : Rows N) (r : List (Entry N)) : Rows N :=
  norm ((t ++ [r]).map (padTo (max (width t) r.length)))

/-- `Table::add_rows`. -/
def addRows (t : Rows N) (rs : Rows N) : Rows N := rs.foldl addRow t

/-- `Table::add_col`: the column, or the rest of the table, is padded with nil. -/
def addCol (t : Rows N) (c : List (Entry N)) : Rows N :=
  (List.range (max t.length c.length)).map fun i => padTo (width t) (t[i]?.getD []) ++ [c[i]?.getD .nil]

/-- `Table::add_cols`. -/
def addCols (t : Rows N) (cs : Rows N) : Rows N := cs.foldl addCol t

/-- `Table::remove_col_par`. -/
def removeCol (t : Rows N) (i : Nat) : Rows N := norm (t.map (·.eraseIdx i))

/-- `Table::remove_row`. -/
def removeRow (t : Rows N) (i : Nat) : Rows N := t.eraseIdx i

/-- `Table::retain_rows`. -/
def retainRows (p : Nat → Bool) (t : Rows N) : Rows N := (t.zipIdx.filter fun x => p x.2).map (·.1)

/-- `Table::reverse_rows`: the header stays. -/
def reverseRows : Rows N → Rows N
  | [] => []
  | h :: d => h :: d.reverse

/-- `Table::reverse_cols_par`. -/
def reverseCols (t : Rows N) : Rows N := t.map List.reverse

/-- The cell of a row in column `c`; nil when outside. -/
def at_ (r : List (Entry N)) (c : Nat) : Entry N := r[c]?.getD .nil

/-- `Table::sort`: a stable sort of the data rows by one column. -/
def sortCol (le : Entry N → Entry N → Bool) (c : Nat) : Rows N → Rows N
  | [] => []
  | h :: d => h :: d.mergeSort fun a b => le (at_ a c) (at_ b c)

/-- `Table::col`. -/
def col (t : Rows N) (c : Nat) : Option (List (Entry N)) := if c < width t then some (t.map (at_ · c)) else none

/-- `Table::col_mut(c)`, each cell replaced by `f row cell`. -/
def modCol (t : Rows N) (c : Nat) (f : Nat → Entry N → Entry N) : Rows N :=
  t.zipIdx.map fun x => x.1.modify c (f x.2)

/-! ### `ogma/src/lang/types.rs`: reading cells -/

def isHeader (name : String) : Entry N → Bool
  | .obj (.str s) => s == name
  | _ => false

/-- `types.rs:726-740` `TableRow::col_idx`. -/
def colIdx (t : Rows N) (name : String) : Except TErr Nat :=
  match t with
  | [] => .error .empty
  | h :: _ => match h.findIdx? (isHeader name) with
    | some i => .ok i
    | none => .error (.header name)

/-- `types.rs:747-752` `entry_at`: panics outside the table. -/
def entryAt (t : Rows N) (row c : Nat) : Res (Entry N) :=
  match t[row]? with
  | none => .error .panic
  | some r => match r[c]? with
    | some e => .ok e
    | none => .error .panic

/-- `types.rs:754-768` `cnv_value`. -/
def cnvValue (e : Entry N) (ty : Ty) : Except TErr (Value N) :=
  if e.value.ty = ty then .ok e.value else .error .entryTy

def liftErr {α : Type} : Except TErr α → Res α
  | .ok a => .ok a
  | .error e => .error (.err e)

/-! ### Row expressions -/

/-- An expression evaluated on a table row, as far as tables go: it reads cells of the row by column name
(`TableRow::entry`) and ends in a value or an error. Errors of a read end the evaluation. -/
inductive Prog (N A : Type) : Type
  | ret (a : A)
  | fail (e : TErr)
  | get (name : String) (k : Entry N → Prog N A)

/-- The cached column indices of a table row (`types.rs:712`). -/
abbrev Cache := String → Option Nat

/-- `types.rs:783-795` `get_col_idx`. -/
def getColIdx (t : Rows N) (c : Cache) (name : String) : Except TErr (Nat × Cache) :=
  match c name with
  | some i => .ok (i, c)
  | none => (colIdx t name).map fun i => (i, fun n => if n = name then some i else c n)

/-- Evaluating a row expression through the cache (`types.rs:778-781` `entry`). -/
def runCached {A : Type} (t : Rows N) (row : Nat) : Prog N A → Cache → Res A × Cache
  | .ret a, c => (.ok a, c)
  | .fail e, c => (.error (.err e), c)
  | .get name k, c =>
    match getColIdx t c name with
    | .error e => (.error (.err e), c)
    | .ok (i, c) => match entryAt t row i with
      | .error e => (.error e, c)
      | .ok x => runCached t row (k x) c

/-! ### Parallel evaluation over rows -/

/-- The state of `par_over_tablerows` during a run: each worker's own state, the buffer, the last error, and
whether some callback panicked. -/
structure Par (W T : Type) where
  workers : Nat → W
  buf : List T
  err : Option TErr
  panicked : Bool

/-- One callback: worker `s.1` handles row `s.2`. -/
def parStep {W T : Type} (f : W → Nat → T → Res T × W) (p : Par W T) (s : Nat × Nat) : Par W T :=
  match p.buf[s.2]? with
  | none => p
  | some x =>
    let r := f (p.workers s.1) s.2 x
    let ws := fun k => if k = s.1 then r.2 else p.workers k
    match r.1 with
    | .ok y => { p with workers := ws, buf := p.buf.set s.2 y }
    | .error (.err e) => { p with workers := ws, err := some e }
    | .error .panic => { p with workers := ws, panicked := true }

/-- `ogma/src/lang/impls/intrinsics/mod.rs:222-244` `par_over_tablerows`. The schedule says which worker handles
which row, in which order; callbacks of different workers only share the buffer, at different rows, and the
error slot. -/
def parOver {W T : Type} (f : W → Nat → T → Res T × W) (init : W) (buf : List T) (sched : List (Nat × Nat)) :
    Res (List T) :=
  let p := sched.foldl (parStep f) ⟨fun _ => init, buf, none, false⟩
  if p.panicked then .error .panic
  else match p.err with
    | some e => .error (.err e)
    | none => .ok p.buf

/-- The callback of most commands: evaluate a row expression with the worker's column cache. -/
def rowTask {A T : Type} (t : Rows N) (e : Rows N → Nat → Prog N A) (k : A → T) (c : Cache) (row : Nat) (_ : T) : Res T × Cache :=
  let r := runCached t row (e t row) c
  (r.1.map k, r.2)

def noCache : Cache := fun _ => none

/-- `intrinsics/mod.rs:315-322` `resolve_trow_expr_par`. -/
def resolveRows {A : Type} (dflt : A) (t : Rows N) (e : Rows N → Nat → Prog N A) (sched : List (Nat × Nat)) : Res (List A) :=
  parOver (rowTask t e id) noCache (List.replicate t.length dflt) sched

end Verif.Tab
