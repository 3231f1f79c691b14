import Verif.Model.Table
/-! Model of the table and string commands: `ogma/src/lang/impls/intrinsics/morphism.rs`, table addition in
`arithmetic.rs` and `range`, `len`, `nth`, `Table` in `pipeline.rs`.

Arguments that a command resolves with a fixed input are given as their results (`Res String`, `Res Nat`).
Expressions evaluated per row are `Rows N → Nat → Prog N A`. A command that runs rows in parallel takes the
schedule. `Owner` tells whether the table is uniquely owned (`Arc::get_mut` gives some) or shared;
`Arc::make_mut` gives the same table either way. -/
namespace Verif.Tab

inductive Owner
  | owned | shared
deriving DecidableEq, Repr

/-- Overflow of `usize` additions panics in a checked build and wraps otherwise. -/
inductive Build
  | checked | wrapping
deriving DecidableEq, Repr

variable {N : Type}

/-- `usize` addition; `umax` is `usize::MAX`. -/
def uadd (b : Build) (umax x y : Nat) : Res Nat :=
  if x + y ≤ umax then .ok (x + y)
  else match b with
    | .checked => .error .panic
    | .wrapping => .ok ((x + y) % (umax + 1))

/-- Schedules of a parallel run over a table: a list of (worker, row). -/
abbrev Sched := List (Nat × Nat)

/-- The error of a result, and its value. -/
def errOf {α : Type} : Res α → Option Bad
  | .error e => some e
  | .ok _ => none
def valOf {α : Type} : Res α → Option α
  | .ok a => some a
  | .error _ => none

/-! ### Column names -/

/-- `intrinsics/mod.rs:269-280` `ColNameArgs::resolve_indices`. -/
def resolveIndices (t : Rows N) : List (Res String) → Res (List Nat)
  | [] => .ok []
  | n :: ns => n.bind fun name => (liftErr (colIdx t name)).bind fun i => (resolveIndices t ns).map (i :: ·)

def okOf {α : Type} : Except TErr α → Option α
  | .ok a => some a
  | .error _ => none

/-- `intrinsics/mod.rs:282-297` `resolve_indices_forgiven`. -/
def resolveForgiven (t : Rows N) : List (Res String) → Res (List (Option Nat × String))
  | [] => .ok []
  | n :: ns => n.bind fun name => (resolveForgiven t ns).map ((okOf (colIdx t name), name) :: ·)

/-! ### append, append-row -/

/-- `morphism.rs:69-79`: the names of the appended columns: the flags in order, then numbered names. -/
def appendNames : List String → Nat → Nat → List String
  | _, 0, _ => []
  | f :: fs, n + 1, auto => f :: appendNames fs n auto
  | [], n + 1, auto => ("_append" ++ toString auto) :: appendNames [] n (auto + 1)

/-- `morphism.rs:86-99`: a fresh column. -/
def seedCol (rows : Nat) (name : String) : List (Entry N) :=
  (List.replicate rows .nil).set 0 (.obj (.str name))

/-- `morphism.rs:101-116`: the new columns, each filled in parallel. The expressions run in parallel too: the
error of the one that fails last is kept. `scheds` gives each expression's schedule and `order` the order in
which they finish. -/
def appendCols (t : Rows N) (withs : List ((Rows N → Nat → Prog N (Value N)) × String)) (scheds : List Sched)
    (order : List Nat) : Res (List (List (Entry N))) :=
  let rs := withs.zipIdx.map fun w =>
    parOver (rowTask t w.1.1 Value.entry) noCache (seedCol t.length w.1.2) (scheds[w.2]?.getD [])
  if rs.any fun r => errOf r == some .panic then .error .panic
  else match (order.filterMap fun i => (rs[i]?).bind errOf).getLast? with
    | some b => .error b
    | none => .ok (rs.filterMap valOf)

/-- `morphism.rs:85-133` `append_table`: both the owned and the shared branch add the columns to the table or
to a copy. -/
def appendTable (o : Owner) (t : Rows N) (withs : List ((Rows N → Nat → Prog N (Value N)) × String))
    (scheds : List Sched) (order : List Nat) : Res (Rows N) :=
  (appendCols t withs scheds order).map fun cs => match o with
    | .owned => addCols t cs
    | .shared => addCols t cs

/-- `morphism.rs:168-176`: nil headers are given numbered names. -/
def nameHeaders : List (Entry N) → Nat → List (Entry N)
  | [], _ => []
  | .nil :: es, i => .obj (.str ("_append" ++ toString i)) :: nameHeaders es (i + 1)
  | e :: es, i => e :: nameHeaders es i

def sequence {α : Type} : List (Res α) → Res (List α)
  | [] => .ok []
  | r :: rs => r.bind fun a => (sequence rs).map (a :: ·)

/-- `morphism.rs:158-180` `append_row_intrinsic`. -/
def appendRow (t : Rows N) (cells : List (Res (Value N))) : Res (Rows N) :=
  (sequence cells).map fun vs => match addRow t (vs.map Value.entry) with
    | [] => []
    | h :: d => nameHeaders h 1 :: d

/-! ### dedup -/

/-- `Vec::dedup_by`: an element is dropped when it is the same as the last one kept. -/
def dedupGo {α : Type} (same : α → α → Bool) (kept : α) : List α → List α
  | [] => []
  | b :: l => if same b kept then dedupGo same kept l else b :: dedupGo same b l
def dedupBy {α : Type} (same : α → α → Bool) : List α → List α
  | [] => []
  | a :: l => a :: dedupGo same a l

/-- `morphism.rs:201-221` `dedup_str_intrinsic`. -/
def dedupStr (s : List Char) : List Char := dedupBy (· == ·) s

/-- `morphism.rs:246-267` `dedup_table_intrinsic`. `eqv` is equality of cells. With no names all columns count. -/
def dedupTable (eqv : Entry N → Entry N → Bool) (t : Rows N) (names : List (Res String)) : Res (Rows N) :=
  (if names.isEmpty then .ok (List.range (width t)) else resolveIndices t names).map fun cols =>
    dedupBy (fun a b => cols.all fun c => eqv (at_ a c) (at_ b c)) t

/-! ### filter -/

/-- `morphism.rs:294-311`: `String::retain`; every character is tested and the last error is kept. -/
def filterStr (p : Char → Res Bool) : List Char → Res (List Char) :=
  fun s => match (s.filterMap fun c => errOf (p c)).getLast? with
    | some e => .error e
    | none => .ok (s.filter fun c => (valOf (p c)).getD true)

/-- `morphism.rs:466-487` `retain_keep_rows`. -/
def retainKeep (o : Owner) (keep : List Bool) (t : Rows N) : Rows N :=
  if keep.all id then t
  else match o with
    | .owned => retainRows (fun i => keep[i]?.getD false) t
    | .shared => ((List.range t.length).filter fun i => keep[i]?.getD false).map fun i => t[i]?.getD []

/-- `morphism.rs:374-388, 430-440`: `filter` with a predicate on rows. -/
def filterTable (o : Owner) (t : Rows N) (p : Rows N → Nat → Prog N Bool) (sched : Sched) : Res (Rows N) :=
  (parOver (rowTask t p id) noCache (List.replicate t.length true) sched).map fun keep => retainKeep o keep t

/-- `morphism.rs:453-460`: test a cell of the named column; a cell of another type fails the test. -/
def cellTest (name : String) (ty : Ty) (p : Value N → Except TErr Bool) : Prog N Bool :=
  .get name fun e => match cnvValue e ty with
    | .ok v => match p v with
      | .ok b => .ret b
      | .error e => .fail e
    | .error _ => .ret false

/-- `morphism.rs:389-463`: `filter` with a column name. -/
def filterCol (o : Owner) (t : Rows N) (name : Res String) (ty : Ty) (p : Value N → Except TErr Bool)
    (sched : Sched) : Res (Rows N) :=
  name.bind fun name => filterTable o t (fun _ _ => cellTest name ty p) sched

/-- `morphism.rs:500-507`: a header that is not a string counts as empty. -/
def headerText : Option (Entry N) → String
  | some (.obj (.str s)) => s
  | _ => ""

/-- `morphism.rs:498-517`, from the last column to the first. -/
def filterColsLoop (p : String → Res Bool) : Nat → Rows N → Res (Rows N)
  | 0, t => .ok t
  | i + 1, t => (p (headerText ((col t i).bind (·.head?)))).bind fun keep =>
    filterColsLoop p i (if keep then t else removeCol t i)

/-- `morphism.rs:490-519` `filter_table_columns`. -/
def filterCols (t : Rows N) (p : String → Res Bool) : Res (Rows N) := filterColsLoop p (width t) t

/-! ### fold -/

/-- `morphism.rs:568-577`: the row variable is set, then the accumulator runs on the last value. All rows share
one column cache. -/
def foldLoop {A : Type} (t : Rows N) (acc : A → Rows N → Nat → Prog N A) : List Nat → A → Cache → Res A
  | [], x, _ => .ok x
  | i :: is, x, c => match runCached t i (acc x t i) c with
    | (.ok y, c) => foldLoop t acc is y c
    | (.error e, _) => .error e

/-- The numbers of the data rows. -/
def dataIdx (t : Rows N) : List Nat := List.range' 1 (t.length - 1)

/-- `morphism.rs:566-580` `fold`. -/
def fold {A : Type} (t : Rows N) (seed : Res A) (acc : A → Rows N → Nat → Prog N A) : Res A :=
  seed.bind fun x => foldLoop t acc (dataIdx t) x noCache

/-- `morphism.rs:627-644`. -/
def foldWhileLoop {A : Type} (t : Rows N) (p : A → Rows N → Nat → Prog N Bool) (acc : A → Rows N → Nat → Prog N A) :
    List Nat → A → Cache → Res A
  | [], x, _ => .ok x
  | i :: is, x, c => match runCached t i (p x t i) c with
    | (.ok true, c) => match runCached t i (acc x t i) c with
      | (.ok y, c) => foldWhileLoop t p acc is y c
      | (.error e, _) => .error e
    | (.ok false, _) => .ok x
    | (.error e, _) => .error e

/-- `morphism.rs:602-647` `fold-while`. -/
def foldWhile {A : Type} (t : Rows N) (seed : Res A) (p : A → Rows N → Nat → Prog N Bool)
    (acc : A → Rows N → Nat → Prog N A) : Res A :=
  seed.bind fun x => foldWhileLoop t p acc (dataIdx t) x noCache

/-! ### grp, grp-by -/

/-- `BTreeMap::entry(k).or_insert(new)` followed by an update: the map is its list of entries in key order and a
key that is already there stays. -/
def bmUpd {K V : Type} (cmp : K → K → Ordering) (k : K) (new : V) (f : V → V) : List (K × V) → List (K × V)
  | [] => [(k, f new)]
  | (k', v) :: m => match cmp k k' with
    | .lt => (k, f new) :: (k', v) :: m
    | .eq => (k', f v) :: m
    | .gt => (k', v) :: bmUpd cmp k new f m

/-- Comparison of strings, by code points. -/
def strCmp (a b : String) : Ordering := if a < b then .lt else if a = b then .eq else .gt

/-- `morphism.rs:691-700`: the key of a row: the printed cells joined by `-`; nothing is put before a cell while
the key is empty. -/
def grpKey (print : Entry N → String) (cols : List Nat) (r : List (Entry N)) : String :=
  cols.foldl (fun k c => (if k = "" then k else k ++ "-") ++ print (at_ r c)) ""

/-- The loop of both grouping commands. -/
def groups {K : Type} (cmp : K → K → Ordering) (h : List (Entry N)) : List (K × List (Entry N)) → List (K × Rows N) → List (K × Rows N)
  | [], m => m
  | (k, r) :: rs, m => groups cmp h rs (bmUpd cmp k (addRow [] h) (addRow · r) m)

/-- `morphism.rs:712-724` `build_table_from_map`. -/
def buildGroups {K : Type} (key : K → Value N) (m : List (K × Rows N)) : Rows N :=
  addRows (addRow [] [.obj (.str "key"), .obj (.str "value")]) (m.map fun x => [(key x.1).entry, .obj (.tab x.2)])

/-- `morphism.rs:671-710` `grp_table_intrinsic`. `print` is `print::fmt_cell`. -/
def grp (print : Entry N → String) (t : Rows N) (names : List (Res String)) : Res (Rows N) :=
  match t with
  | [] => .error (.err .empty)
  | h :: d => (resolveIndices t names).map fun cols =>
    buildGroups .str (groups strCmp h (d.map fun r => (grpKey print cols r, r)) [])

/-- `morphism.rs:805-818`: a comparison that fails counts as equal. -/
def cmpOrEq {V : Type} (cmp : V → V → Res Ordering) (a b : V) : Ordering :=
  match cmp a b with
  | .ok o => o
  | .error _ => .eq

/-- `morphism.rs:751-851` `grp-by`. -/
def grpBy (t : Rows N) (key : Rows N → Nat → Prog N (Value N)) (cmp : Value N → Value N → Res Ordering)
    (sched : Sched) : Res (Rows N) :=
  (resolveRows .nil t key sched).map fun vs => match t with
    | [] => buildGroups id []
    | h :: d => buildGroups id (groups (cmpOrEq cmp) h ((vs.drop 1).zip d) [])

/-! ### map -/

/-- The callback of `map` (`morphism.rs:929-941`). A worker's state is the row that `$row` holds in its
environment and its column cache. -/
def mapTask (t : Rows N) (c : Nat) (force : Bool) (ty : Ty) (tf : Value N → Prog N (Value N)) (w : Nat × Cache) (row : Nat)
    (_ : Value N) : Res (Value N) × (Nat × Cache) :=
  let var := row
  if force then
    let r := runCached t var (tf .nil) w.2
    (r.1, (var, r.2))
  else match entryAt t row c with
    | .error e => (.error e, (var, w.2))
    | .ok e => match cnvValue e ty with
      | .error e => (.error (.err e), (var, w.2))
      | .ok v =>
        let r := runCached t var (tf v) w.2
        (r.1, (var, r.2))

/-- `morphism.rs:916-953` `MapTable::doit`. `row0` is what `$row` holds before the first row. -/
def mapTable (t : Rows N) (name : Res String) (force : Bool) (ty : Ty) (tf : Value N → Prog N (Value N)) (row0 : Nat)
    (sched : Sched) : Res (Rows N) :=
  name.bind fun name => (liftErr (colIdx t name)).bind fun c =>
    (parOver (mapTask t c force ty tf) (row0, noCache) (List.replicate t.length .nil) sched).map fun vs =>
      modCol t c fun i e => if i = 0 then e else match vs[i]? with
        | some v => v.entry
        | none => e

/-! ### pick -/

/-- `morphism.rs:1009-1019`: one cell of the new table. `unwrap` panics outside the table. -/
def pickCell (t : Rows N) (row : Nat) : Option Nat × String → Res (Entry N)
  | (some i, _) => entryAt t row i
  | (none, n) => .ok (if row = 0 then .obj (.str n) else .nil)

/-- `morphism.rs:973-1024` `pick_table_intrinsic`. The rows are built in parallel, each on its own. -/
def pick (t : Rows N) (names : List (Res String)) (add trail : Bool) : Res (Rows N) :=
  (if add then resolveForgiven t names
   else (resolveIndices t names).map fun is => is.map fun i => (some i, "")).bind fun cols =>
    let cols := if trail then
        cols ++ ((List.range (width t)).filter fun i => !(cols.any fun c => c.1 == some i)).map fun i => (some i, "")
      else cols
    sequence ((List.range t.length).map fun row => sequence (cols.map (pickCell t row)))

/-! ### ren, ren-with -/

/-- `morphism.rs:1048-1051` `Ref`. -/
inductive Ref
  | name (n : Res String)
  | idx (i : Res Nat)

/-- `morphism.rs:1079-1092`. -/
def refIdx (t : Rows N) : Ref → Res Nat
  | .name n => n.bind fun n => liftErr (colIdx t n)
  | .idx i => i

/-- Replace the header of column `i`. -/
def setHeader (i : Nat) (name : String) : Rows N → Rows N
  | [] => []
  | h :: d => h.set i (.obj (.str name)) :: d

/-- `morphism.rs:1096-1114`. -/
def renLoop : List (Nat × Res String) → Rows N → Res (Rows N)
  | [], t => .ok t
  | (i, n) :: l, t => if i < width t then n.bind fun n => renLoop l (setHeader i n t) else .error (.err .bounds)

/-- `morphism.rs:1040-1118` `ren_table_intrinsic`: first all columns are found, then the headers are replaced. -/
def ren (t : Rows N) (l : List (Ref × Res String)) : Res (Rows N) :=
  (sequence (l.map fun x => refIdx t x.1)).bind fun is => renLoop (is.zip (l.map (·.2))) t

/-- `morphism.rs:1142-1196` `ren_with_table_intrinsic`. -/
def renWith (t : Rows N) (rowIdx : Res Nat) (ty : Ty) (f : Value N → Res String) : Res (Rows N) :=
  rowIdx.bind fun k => match t with
    | [] => .error (.err .empty)
    | h :: d => match t[k]? with
      | none => .error (.err .bounds)
      | some r => (sequence (r.map fun e => (liftErr (cnvValue e ty)).bind f)).map fun names =>
        (List.zipWith (fun _ n => .obj (.str n)) h names ++ h.drop names.length) :: d

/-! ### rev, skip, take -/

def revStr (s : List Char) : List Char := s.reverse

/-- `morphism.rs:1232-1246`. -/
def rev (t : Rows N) (cols : Bool) : Rows N := if cols then reverseCols t else reverseRows t

/-- `morphism.rs:1267-1283`, `1526-1541`. -/
def skipStr (s : List Char) (count : Nat) : List Char := s.drop count
def takeStr (s : List Char) (count : Nat) : List Char := s.take count

/-- `morphism.rs:1298-1327` `skip_table_intrinsic`. -/
def skip (o : Owner) (b : Build) (umax : Nat) (t : Rows N) (count : Nat) : Res (Rows N) :=
  match o with
  | .owned => .ok (retainRows (fun i => i == 0 || decide (count < i)) t)
  | .shared => (uadd b umax count 1).map fun k => addRows [] (t.take 1 ++ t.drop k)

/-- `morphism.rs:1557-1585` `take_table_intrinsic`. -/
def take (o : Owner) (t : Rows N) (count : Nat) : Rows N :=
  match o with
  | .owned => retainRows (fun i => i == 0 || decide (i ≤ count)) t
  | .shared => addRows [] (t.take 1 ++ (t.drop 1).take count)

/-! ### sort, sort-by -/

/-- `morphism.rs:1400-1410` `entry_discriminant`. -/
def discriminant : Entry N → Nat
  | .obj (.bool _) => 0
  | .num _ | .obj (.num _) => 1
  | .obj (.str _) => 2
  | .obj (.ogma _ _ _) => 3
  | .nil | .obj .nil => 4
  | .obj (.tab _) => 5
  | .obj (.row _ _) => 6

def boolCmp : Bool → Bool → Ordering
  | false, true => .lt
  | true, false => .gt
  | _, _ => .eq

def natCmp (a b : Nat) : Ordering := if a < b then .lt else if a = b then .eq else .gt

/-- `morphism.rs:1370-1398` `cmp_table_entries`; `none` is the `unreachable!`. `ncmp` compares numbers. -/
def cmpEntries? (ncmp : N → N → Ordering) (a b : Entry N) : Option Ordering :=
  if discriminant a ≠ discriminant b then some (natCmp (discriminant a) (discriminant b))
  else match a, b with
    | .nil, _ => some .eq
    | .obj .nil, _ => some .eq
    | .num x, .num y => some (ncmp x y)
    | .obj (.num x), .num y => some (ncmp x y)
    | .num x, .obj (.num y) => some (ncmp x y)
    | .obj (.num x), .obj (.num y) => some (ncmp x y)
    | .obj (.bool x), .obj (.bool y) => some (boolCmp x y)
    | .obj (.str x), .obj (.str y) => some (strCmp x y)
    | .obj (.tab _), _ => some .eq
    | .obj (.row _ _), _ => some .eq
    | .obj (.ogma x _ _), .obj (.ogma y _ _) => some (strCmp x y)
    | _, _ => none

def cmpEntries (ncmp : N → N → Ordering) (a b : Entry N) : Ordering := (cmpEntries? ncmp a b).getD .eq

/-- `a` does not come after `b`. -/
def entryLe (ncmp : N → N → Ordering) (a b : Entry N) : Bool := cmpEntries ncmp a b != .gt

/-- `morphism.rs:1351-1367` `sort_table_intrinsic`: one stable sort per column, in the order given. -/
def sort (ncmp : N → N → Ordering) (t : Rows N) (names : List (Res String)) : Res (Rows N) :=
  (resolveIndices t names).map fun cols => cols.foldl (fun t c => sortCol (entryLe ncmp) c t) t

/-- `morphism.rs:1466-1488` `sort_values`. `probe` lists the comparisons the sort makes; if one of them fails the
command fails. Slicing off the header panics when there is none. -/
def sortValues {V : Type} (cmp : V → V → Res Ordering) (probe : List (Nat × V) → List (V × V)) (vs : List (Nat × V)) :
    Res (List (Nat × V)) :=
  match vs with
  | [] => .error .panic
  | h :: d => match ((probe d).filterMap fun p => errOf (cmp p.1 p.2)).getLast? with
    | some e => .error e
    | none => .ok (h :: d.mergeSort fun a b => cmpOrEq cmp a.2 b.2 != .gt)

/-- `morphism.rs:1490-1505` `reorder_table`: the owned branch takes the rows out of the table. -/
def reorderOwned : List Nat → Rows N → Res (Rows N)
  | [], _ => .ok []
  | i :: is, t => match t[i]? with
    | none => .error .panic
    | some r => (reorderOwned is (t.set i [])).map (r :: ·)
def reorderShared (is : List Nat) (t : Rows N) : Res (Rows N) :=
  sequence (is.map fun i => match t[i]? with | some r => .ok r | none => .error .panic)
def reorder (o : Owner) (is : List Nat) (t : Rows N) : Res (Rows N) :=
  match o with
  | .owned => reorderOwned is t
  | .shared => reorderShared is t

/-- `morphism.rs:1438-1456` `sort-by`. -/
def sortBy (o : Owner) (t : Rows N) (key : Rows N → Nat → Prog N (Value N)) (cmp : Value N → Value N → Res Ordering)
    (probe : List (Nat × Value N) → List (Value N × Value N)) (sched : Sched) : Res (Rows N) :=
  (resolveRows .nil t key sched).bind fun vs =>
    (sortValues cmp probe (vs.zipIdx.map fun x => (x.2, x.1))).bind fun l => reorder o (l.map (·.1)) t

/-! ### Table addition, `arithmetic.rs` -/

/-- `arithmetic.rs:148-160`: name the new columns. `col_mut` gives nothing for a column the table does not have
and `expect` panics then. -/
def nameCols (u : Rows N) : List Nat → Rows N → Res (Rows N)
  | [], t => .ok t
  | c :: cs, t => if c < width t then nameCols u cs (match t with
      | [] => []
      | h :: d => h.set c (((col u c).bind (·.head?)).getD .nil) :: d)
    else .error .panic

/-- `arithmetic.rs:128-166` `add_table_by_row`. -/
def addByRow (t u : Rows N) (intersect : Bool) : Res (Rows N) :=
  let pc := width t
  let nc := width u
  if intersect then
    let t' := addRows t ((u.drop 1).map (·.take (min pc nc)))
    .ok (if nc < pc then (List.range' nc (pc - nc)).reverse.foldl removeCol t' else t')
  else if t.isEmpty then .ok u
  else nameCols u (List.range' pc (nc - pc)) (addRows t (u.drop 1))

/-- `Table::cols`. -/
def colsOf (t : Rows N) : List (List (Entry N)) := (List.range (width t)).map fun c => t.map (at_ · c)

/-- `arithmetic.rs:168-188` `add_table_by_col`. -/
def addByCol (t u : Rows N) (intersect : Bool) : Rows N :=
  let pr := t.length
  let nr := u.length
  if intersect then
    let t' := addCols t ((colsOf u).map (·.take (min pr nr)))
    if nr < pr then (List.range' nr (pr - nr)).reverse.foldl removeRow t' else t'
  else addCols t (colsOf u)

/-! ### range, len, nth, Table; `pipeline.rs` -/

/-- `pipeline.rs:702-724` `range`. -/
def range (ofNat : Nat → N) (from_ to : Nat) : Rows N :=
  [.obj (.str "i")] :: (List.range' from_ (to - from_)).map fun x => [.num (ofNat x)]

/-- `pipeline.rs:332-348` `len`. -/
def len (t : Rows N) (cols : Bool) : Nat := if cols then width t else t.length - 1
def lenStr (s : List Char) : Nat := s.length

/-- `pipeline.rs:473-498` `nth` on strings. -/
def nthStr (s : List Char) (n : Nat) : Res Char :=
  match s[n]? with
  | some c => .ok c
  | none => .error (.err .bounds)

/-- `pipeline.rs:523-552` `nth` on tables. -/
def nth {A : Type} (b : Build) (umax : Nat) (t : Rows N) (n : Nat) (e : Rows N → Nat → Prog N A) : Res A :=
  (uadd b umax n 1).bind fun k =>
    if t.length ≤ k then .error (.err .bounds) else (runCached t k (e t k) noCache).1

/-- `pipeline.rs:121-134` `TableGetType`: a default value with its type, or a type. -/
inductive Get (N : Type) : Type
  | dflt (ty : Ty) (v : Except TErr (Value N))
  | flag (ty : Ty)

/-- `pipeline.rs:136-158` `table_row_get`. -/
def rowGet (name : String) : Get N → Prog N (Value N)
  | .dflt ty v => .get name fun e => if e.value.ty ≠ ty then (match v with
      | .ok v => .ret v
      | .error err => .fail err) else .ret e.value
  | .flag ty => .get name fun e => match cnvValue e ty with
      | .ok v => .ret v
      | .error err => .fail err

/-- `pipeline.rs:743-764` `Table`. -/
def tableCtor (names : List (Res String)) : Res (Rows N) :=
  (sequence names).map fun ns => ns.foldl (fun t n => addCol t [.obj (.str n)]) []

end Verif.Tab
