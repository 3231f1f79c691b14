import Verif.Model.Talk
import Verif.Model.Morph
/-! Model of all built-in commands, compiled and evaluated (`ogma/src/lang/impls/intrinsics/`, and the constructors of defined
types, `ogma/src/lang/impls/mod.rs:323-390`), with the table values of `Model/Table`.

A command is a conversation with the compiler (`Model/Talk`) that ends with the closure evaluated later. A value that is not of
the type the closure converts it to, or has not the field it looks for, ends it in `wrong`. Any other error, and any other panic of
the command itself, ends it in `fail`. Rows that the commands evaluate in parallel are evaluated in
order, and the first error counts. -/
namespace Verif.Lang
open Verif Verif.Comp

/-- Arithmetic of numbers with several arguments. -/
inductive NumOp
  | add | sub | mul | div | max | min
deriving DecidableEq, Repr

/-- The built-in commands; `intrinsics/{arithmetic,cmp,diagnostics,io,logic,morphism,pipeline}.rs` `add_intrinsics`. -/
inductive Cmd
  | num (o : NumOp) | addStr | addTab | ceil | floor | isFinite | root
  | cmpNil | cmpBool | cmpNum | cmpStr | cmpOrd | cmp
  | eqNil | eqBool | eqNum | eqStr | eqOrd | eq
  | benchmark | typify
  | lsTab | ls | open_ | save
  | and_ | or_ | not_ | if_
  | append | appendRow | dedupStr | dedupTab | filterStr | filterTab | fold | foldWhile | grp | grpBy | map | pick | ren | renWith
  | revStr | revTab | skipStr | skipTab | sort | sortBy | takeStr | takeTab
  | getRow | get | dot | input | lenStr | lenTab | let_ | nthStr | nthTab | rand | range | table
  | toStrBool | toStrNum | toStrStr | toStr | tuple
  | ctor (ty : String) (variant : Nat)
deriving DecidableEq, Repr

/-- `types.rs:417-420` `TypeVariant`. -/
inductive Shape
  | sum (variants : List (List Tab.Ty))
  | product (fields : List (String × Tab.Ty))
deriving DecidableEq, Repr

/-- The types of the fields of a variant. -/
def Shape.fields : Shape → Nat → Option (List Tab.Ty)
  | .sum vs, k => vs[k]?
  | .product fs, _ => some (fs.map (·.2))

mutual
/-- All data of defined types in a value has fields as its type says. -/
def okV {N : Type} (sh : String → Shape) : Tab.Value N → Bool
  | .nil => true
  | .bool _ => true
  | .num _ => true
  | .str _ => true
  | .tab rs => okRs sh rs
  | .row rs _ => okRs sh rs
  | .ogma t k vs => okVs sh vs && decide ((sh t).fields k = some (vs.map Tab.Value.ty))
def okVs {N : Type} (sh : String → Shape) : List (Tab.Value N) → Bool
  | [] => true
  | v :: vs => okV sh v && okVs sh vs
def okE {N : Type} (sh : String → Shape) : Tab.Entry N → Bool
  | .nil => true
  | .num _ => true
  | .obj v => okV sh v
def okEs {N : Type} (sh : String → Shape) : List (Tab.Entry N) → Bool
  | [] => true
  | e :: es => okE sh e && okEs sh es
def okRs {N : Type} (sh : String → Shape) : List (List (Tab.Entry N)) → Bool
  | [] => true
  | r :: rs => okEs sh r && okRs sh rs
end

/-- What the commands depend on.
`cmd`: the implementations by their numbers. `flags`: the flags of a block, in order. `text`: the text of an argument of a
block, if it is a string literal (`arg.rs:360-381` `extract_literal`). `typ`: the type a flag names (`mod.rs:196-210`
`type_flag`). `shape`: the definition of a type. `tupleName`: the name of the type of tuples of these types (`types.rs:807-828`).
Numbers: `numOp`, `ceil`, `floor`, `finite`, `root`, `toNat` (`mod.rs:299-311` `cnv_num_to_uint`), `ofNat`, `numCmp`, `numEq`,
`showNum`; `validFmt`, `fmtNum` (`numfmt`); `showCell` (`print::fmt_cell`); `cellEq` (equality of cells).
`orders`, `order`: whether `cmp $rhs` compiles for the type and returns `Ord`, and its result (`mod.rs:329-456` `BinaryOp`);
`tupCmp`, `tupEq`: the code injected for tuples (`cmp.rs:157-200`, `:382-425`), if it compiles.
The outside: `files`, `openTab`, `openStr`, `save`, `random`, `randoms`, `annotated` (`eng::annotate_types`), `duration`.
`owner`: whether a table is held only here; `build`, `umax` (`Model/Morph`); `probe`: the comparisons a sort makes. -/
structure World (N : Type) where
  cmd : Nat → Option Cmd
  flags : Nat → List String
  text : Nat → Nat → Option String
  typ : String → Option Tab.Ty
  shape : String → Shape
  isTuple : String → Bool
  tupleName : List Tab.Ty → String
  numOp : NumOp → N → N → N
  ceil : N → N
  floor : N → N
  finite : N → Bool
  root : N → N → N
  toNat : N → Option Nat
  ofNat : Nat → N
  numCmp : N → N → Ordering
  numEq : N → N → Bool
  showNum : N → String
  validFmt : String → Bool
  fmtNum : String → N → String
  showCell : Tab.Entry N → String
  cellEq : Tab.Entry N → Tab.Entry N → Bool
  orders : Tab.Ty → Bool
  order : Tab.Ty → Tab.Value N → Tab.Value N → Option Ordering
  tupCmp : String → Option (Tab.Value N → Tab.Value N → Option Ordering)
  tupEq : String → Option (Tab.Value N → Tab.Value N → Option Bool)
  files : Option String → Option (Tab.Rows N)
  openTab : String → Option (Tab.Rows N)
  openStr : String → Option String
  save : String → Tab.Value N → Bool
  zero : N
  one : N
  random : N → N → Option N
  randoms : N → N → Nat → Option (List N)
  annotated : Nat → Bool → String
  duration : Nat → Tab.Rows N
  owner : Nat → Tab.Owner
  build : Tab.Build
  umax : Nat
  probe : List (Nat × Tab.Value N) → List (Tab.Value N × Tab.Value N)

variable {N : Type}

/-! ### Flags -/

/-- `blk.rs:85-94` `get_flag` by name: the flag is taken out; the last one, as they are kept in reverse (`comp/mod.rs:622`). -/
def takeFlag (name : String) (fs : List String) : Bool × List String := (fs.contains name, (fs.reverse.erase name).reverse)

/-- `mod.rs:196-210` `type_flag`: the next flag, if any, is taken out; `none` if it does not name a type. -/
def typeFlag (typ : String → Option Tab.Ty) : List String → Option (Option Tab.Ty × List String)
  | [] => some (none, [])
  | f :: fs => (typ f).map fun t => (some t, fs)

/-- `blk.rs:253-299` `eval`, `finalise`: flags that are left over are an error. -/
def fin (fs : List String) (t : Tab.Ty) (f : Tab.Value N → Act (Tab.Value N)) : Talk Tab.Ty (Tab.Value N) :=
  if fs = [] then .done t [] f else .fail false

/-! ### Parts of closures -/

/-- An argument is evaluated; its error is the error of the command. -/
def ask (k : Nat) (x : Tab.Value N) (next : Tab.Value N → Act (Tab.Value N)) : Act (Tab.Value N) :=
  .resolve k [] x fun
    | none => .fail
    | some v => next v

/-- So many arguments, from `k` on, on the same input. -/
def askAll (x : Tab.Value N) : Nat → Nat → (List (Tab.Value N) → Act (Tab.Value N)) → Act (Tab.Value N)
  | 0, _, next => next []
  | n + 1, k, next => ask k x fun v => askAll x n (k + 1) fun vs => next (v :: vs)

/-- One argument on several inputs. -/
def askEach (k : Nat) : List (Tab.Value N) → (List (Tab.Value N) → Act (Tab.Value N)) → Act (Tab.Value N)
  | [], next => next []
  | x :: xs, next => ask k x fun v => askEach k xs fun vs => next (v :: vs)

def opt {α : Type} : Option α → (α → Act (Tab.Value N)) → Act (Tab.Value N)
  | none, _ => .fail
  | some a, next => next a

/-- A conversion of a value that must have the type. -/
def cast {α : Type} : Option α → (α → Act (Tab.Value N)) → Act (Tab.Value N)
  | none, _ => .wrong
  | some a, next => next a

/-- What a computation with values gives: `wrong` if one of them is not of the type it must have. -/
inductive Got (α : Type)
  | ok (a : α)
  | err
  | wrong

def Got.bind {α β : Type} : Got α → (α → Got β) → Got β
  | .ok a, f => f a
  | .err, _ => .err
  | .wrong, _ => .wrong

def Got.map {α β : Type} (f : α → β) (g : Got α) : Got β := g.bind fun a => .ok (f a)

/-- A conversion of a value that must have the type. -/
def must {α : Type} : Option α → Got α
  | none => .wrong
  | some a => .ok a

/-- What may be an error. -/
def may {α : Type} : Option α → Got α
  | none => .err
  | some a => .ok a

def got {α : Type} : Got α → (α → Act (Tab.Value N)) → Act (Tab.Value N)
  | .err, _ => .fail
  | .wrong, _ => .wrong
  | .ok a, next => next a

def res {α : Type} : Tab.Res α → (α → Act (Tab.Value N)) → Act (Tab.Value N)
  | .error _, _ => .fail
  | .ok a, next => next a

/-- `types.rs:199-275`: conversions of values. -/
def asNum : Tab.Value N → Option N
  | .num n => some n
  | _ => none
def asStr : Tab.Value N → Option String
  | .str s => some s
  | _ => none
def asBool : Tab.Value N → Option Bool
  | .bool b => some b
  | _ => none
def asTab : Tab.Value N → Option (Tab.Rows N)
  | .tab t => some t
  | _ => none
def asRow : Tab.Value N → Option (Tab.Rows N × Nat)
  | .row t i => some (t, i)
  | _ => none
def asNat (W : World N) (v : Tab.Value N) : Got Nat := (must (asNum v)).bind fun n => may (W.toNat n)
/-- `variant_idx`. -/
def variantOf : Tab.Value N → Option Nat
  | .ogma _ k _ => some k
  | _ => none
def nums : List (Tab.Value N) → Option (List N)
  | [] => some []
  | v :: vs => (asNum v).bind fun s => (nums vs).map (s :: ·)
def strs : List (Tab.Value N) → Option (List String)
  | [] => some []
  | v :: vs => (asStr v).bind fun s => (strs vs).map (s :: ·)
def bools : List (Tab.Value N) → Option (List Bool)
  | [] => some []
  | v :: vs => (asBool v).bind fun s => (bools vs).map (s :: ·)

def ordTy : Tab.Ty := .def_ "Ord"

/-- `types.rs` `Ordering` as a value. -/
def ordVal : Ordering → Tab.Value N
  | .lt => .ogma "Ord" 0 []
  | .eq => .ogma "Ord" 1 []
  | .gt => .ogma "Ord" 2 []

/-- The rows of a table, without the header. -/
def rowsOf (t : Tab.Rows N) : List (Tab.Value N) := (Tab.dataIdx t).map (.row t)

/-- A value for each row, with something for the header. -/
def withHeader {α : Type} (h : α) (t : Tab.Rows N) (vs : List α) : List α := if t.isEmpty then [] else h :: vs

def names (ns : List String) : List (Tab.Res String) := ns.map .ok

/-! ### Arithmetic, comparison and logic -/

/-- `mod.rs:107-120`: the arguments are combined with the input in turn. -/
def combine (agg : Tab.Value N → Tab.Value N → Got (Tab.Value N)) (x : Tab.Value N) : Nat → Nat → Tab.Value N → Act (Tab.Value N)
  | 0, _, v => .done v
  | n + 1, k, v => ask k x fun w => got (agg v w) (combine agg x n (k + 1))

/-- `mod.rs:72-121` `variadic_intrinsic_in_constrained`. -/
def variadic (t : Tab.Ty) (agg : Tab.Value N → Tab.Value N → Got (Tab.Value N)) (fs : List String) (n : Nat) (input : Tab.Ty) :
    Talk Tab.Ty (Tab.Value N) :=
  if input = t then .tell (.output t) (if n = 0 then .fail true else
    .tell (.oblige t) (.argsAs t t n (fin fs t fun x => combine agg x n 0 x)))
  else .fail false

/-- `arithmetic.rs:25-33` `variadic_intrinsic_num`, `cmp.rs:459-489`. -/
def numAgg (f : N → N → N) (a b : Tab.Value N) : Got (Tab.Value N) := (must (asNum a)).bind fun x => (must (asNum b)).map fun y => .num (f x y)

/-- `arithmetic.rs:74-79`. -/
def strAgg (a b : Tab.Value N) : Got (Tab.Value N) := (must (asStr a)).bind fun x => (must (asStr b)).map fun y => .str (x ++ y)

/-- `arithmetic.rs:120-126` `add_table2`. -/
def tabAgg (byRow intersect : Bool) (a b : Tab.Value N) : Got (Tab.Value N) :=
  (must (asTab a)).bind fun t => (must (asTab b)).bind fun u =>
    if byRow then (may (Tab.valOf (Tab.addByRow t u intersect))).map .tab else .ok (.tab (Tab.addByCol t u intersect))

/-- `arithmetic.rs:110-118`: `--intersect` is looked for only without `--union`. -/
def addTabTalk (fs : List String) (n : Nat) (input : Tab.Ty) : Talk Tab.Ty (Tab.Value N) :=
  let c := takeFlag "cols" fs
  let u := takeFlag "union" c.2
  let i := if u.1 then (false, u.2) else takeFlag "intersect" u.2
  variadic .tab (tabAgg (!c.1) i.1) i.2 n input

/-- `arithmetic.rs:196-205`, `:238-247`, `:269-278`; `logic.rs:124-129`; the string commands without arguments. -/
def unary (input t u : Tab.Ty) (says : Bool) (f : Tab.Value N → Got (Tab.Value N)) (fs : List String) : Talk Tab.Ty (Tab.Value N) :=
  if input = t then
    if says then .tell (.output u) (fin fs u fun x => got (f x) .done) else fin fs u fun x => got (f x) .done
  else .fail false

/-- One argument, evaluated on the input. -/
def binary (input t a u : Tab.Ty) (says : Bool) (f : Tab.Value N → Tab.Value N → Got (Tab.Value N)) (fs : List String) : Talk Tab.Ty (Tab.Value N) :=
  let rest : Talk Tab.Ty (Tab.Value N) := .argAs input a (fin fs u fun x => ask 0 x fun y => got (f x y) .done)
  if input = t then (if says then .tell (.output u) rest else rest) else .fail false

/-- `cmp.rs:34-42`, `:241-251`: the argument is not evaluated. -/
def ignoring (u : Tab.Ty) (v : Tab.Value N) (fs : List String) (input : Tab.Ty) : Talk Tab.Ty (Tab.Value N) :=
  if input = .nil then .tell (.output u) (.argAs .nil .nil (fin fs u fun _ => .done v)) else .fail false

/-- `cmp.rs:157-200`, `:382-425`: tuples, by injected code. -/
def injected (u : Tab.Ty) (W : World N) (code : String → Option (Tab.Value N → Tab.Value N → Option (Tab.Value N))) (fs : List String) :
    Tab.Ty → Talk Tab.Ty (Tab.Value N)
  | .def_ name => .tell (.output u) (if W.isTuple name then .argAs (.def_ name) (.def_ name) (match code name with
      | none => .fail false
      | some f => fin fs u fun x => ask 0 x fun y => opt (f x y) .done) else .fail false)
  | _ => .tell (.output u) (.fail false)

/-- `mod.rs:156-171`: `and` and `or`; the value that ends the evaluation is `stop`. -/
def decide_ (stop : Bool) (x : Tab.Value N) : Nat → Nat → Bool → Act (Tab.Value N)
  | 0, _, b => .done (.bool b)
  | n + 1, k, b => ask k x fun w => cast (asBool w) fun c =>
    let b' := if stop then b || c else b && c
    if b' = stop then .done (.bool b') else decide_ stop x n (k + 1) b'

/-- `mod.rs:126-172` `variadic_intrinsic_in_agnostic`. -/
def logic (stop : Bool) (fs : List String) (n : Nat) (input : Tab.Ty) : Talk Tab.Ty (Tab.Value N) :=
  .tell (.output .bool) (match n with
    | 0 => .fail true
    | n + 1 => .argsAs input .bool (n + 1) (fin fs .bool fun x => ask 0 x fun v => cast (asBool v) (decide_ stop x n 1)))

/-- `logic.rs:101-109`. -/
def ifAct (x : Tab.Value N) : Nat → Nat → Act (Tab.Value N)
  | 0, k => ask k x .done
  | n + 1, k => ask k x fun v => cast (asBool v) fun b => if b then ask (k + 1) x .done else ifAct x n (k + 2)

/-- `logic.rs:74-100`: so many conditions; the types of the branches so far. -/
def ifTalk (fs : List String) (input : Tab.Ty) (total : Nat) : Nat → List Tab.Ty → Talk Tab.Ty (Tab.Value N)
  | 0, us => .arg input fun u => if us.all (· = u) then fin fs u (ifAct · total 0) else .fail true
  | n + 1, us => .argAs input .bool (.arg input fun u => ifTalk fs input total n (u :: us))

/-! ### Tables -/

/-- `mod.rs:250-266` `ColNameArgs::build`. -/
def colNames (n : Nat) (k : Talk Tab.Ty (Tab.Value N)) : Talk Tab.Ty (Tab.Value N) :=
  if n = 0 then .fail true else .argsAs .nil .str n k

/-- `mod.rs:270-279`: the names, evaluated on nil, and then something with the table. -/
def withNames (n : Nat) (f : Tab.Rows N → List String → Tab.Res (Tab.Rows N)) (x : Tab.Value N) : Act (Tab.Value N) :=
  cast (asTab x) fun t => askAll .nil n 0 fun vs => cast (strs vs) fun ns => res (f t ns) fun t' => .done (.tab t')

/-- From a table to a table. -/
def tabTalk (input : Tab.Ty) (k : Talk Tab.Ty (Tab.Value N)) : Talk Tab.Ty (Tab.Value N) :=
  if input = .tab then .tell (.output .tab) k else .fail false

/-- `morphism.rs:60-84` `append`: each argument takes a flag as the name of its column. -/
def appendTalk (fs : List String) (n : Nat) (input : Tab.Ty) : Talk Tab.Ty (Tab.Value N) :=
  tabTalk input (if n = 0 then .fail true else .tell (.oblige .tabRow) (.args .tabRow n fun _ => fin (fs.drop n) .tab fun x =>
    cast (asTab x) fun t => appendCols t (Tab.appendNames fs n 1) n 0 []))
where
  /-- `morphism.rs:86-133`: the columns, one after the other. -/
  appendCols (t : Tab.Rows N) (ns : List String) : Nat → Nat → List (List (Tab.Entry N)) → Act (Tab.Value N)
    | 0, _, cs => .done (.tab (Tab.addCols t cs.reverse))
    | n + 1, k, cs => askEach k (rowsOf t) fun vs =>
      appendCols t ns n (k + 1) (withHeader (.obj (.str (ns[k]?.getD ""))) t (vs.map Tab.Value.entry) :: cs)

/-- `morphism.rs:148-181`. -/
def appendRowTalk (fs : List String) (n : Nat) (input : Tab.Ty) : Talk Tab.Ty (Tab.Value N) :=
  tabTalk input (.tell (.oblige .tab) (.args .tab n fun _ => fin fs .tab fun x =>
    askAll x n 0 fun vs => cast (asTab x) fun t => res (Tab.appendRow t (vs.map .ok)) fun t' => .done (.tab t')))

/-- `morphism.rs:241-265`. -/
def dedupTalk (W : World N) (fs : List String) (n : Nat) (input : Tab.Ty) : Talk Tab.Ty (Tab.Value N) :=
  let rest := fin fs .tab (withNames n fun t ns => Tab.dedupTable W.cellEq t (names ns))
  tabTalk input (if n = 0 then rest else colNames n rest)

/-- `morphism.rs:280-311`. -/
def filterStrAct (x : Tab.Value N) : Act (Tab.Value N) :=
  cast (asStr x) fun s => askEach 0 (s.toList.map fun c => .str (String.singleton c)) fun vs => cast (bools vs) fun bs =>
    .done (.str (String.ofList ((s.toList.zip bs).filterMap fun p => if p.2 then some p.1 else none)))

/-- `morphism.rs:453-459`: the cells of a column that have the type, for each row; `none` for the others. -/
def cellsOf (ty : Tab.Ty) (t : Tab.Rows N) (c : Nat) : List Nat → Tab.Res (List (Option (Tab.Value N)))
  | [] => .ok []
  | i :: is => (Tab.entryAt t i c).bind fun e => (cellsOf ty t c is).map (Tab.okOf (Tab.cnvValue e ty) :: ·)

/-- An argument on the values that are there, `false` for the others. -/
def askSome (k : Nat) : List (Option (Tab.Value N)) → (List Bool → Act (Tab.Value N)) → Act (Tab.Value N)
  | [], next => next []
  | none :: xs, next => askSome k xs fun bs => next (false :: bs)
  | some x :: xs, next => ask k x fun v => cast (asBool v) fun b => askSome k xs fun bs => next (b :: bs)

/-- `morphism.rs:490-520`: from the last column to the first. -/
def filterColsAct : Nat → Tab.Rows N → Act (Tab.Value N)
  | 0, t => .done (.tab t)
  | i + 1, t => ask 0 (.str (Tab.headerText ((Tab.col t i).bind (·.head?)))) fun v => cast (asBool v) fun keep =>
    filterColsAct i (if keep then t else Tab.removeCol t i)

/-- `morphism.rs:355-488` `filter` on tables. The column is looked for when there is a row (`types.rs:776-779`). -/
def filterTalk (W : World N) (op : Nat) (n : Nat) (input : Tab.Ty) : Talk Tab.Ty (Tab.Value N) :=
  let c := takeFlag "cols" (W.flags op)
  tabTalk input (
    if c.1 then .argAs .str .bool (fin c.2 .tab fun x => cast (asTab x) fun t => filterColsAct (Tab.width t) t)
    else if n = 1 then .argAs .tabRow .bool (fin c.2 .tab fun x => cast (asTab x) fun t => askEach 0 (rowsOf t) fun vs => cast (bools vs) fun bs =>
      .done (.tab (Tab.retainKeep (W.owner op) (withHeader true t bs) t)))
    else .argAs .nil .str (match typeFlag W.typ c.2 with
      | none => .fail false
      | some (ty, fs) => .read false ty (fun _ => some .bool) fun i _ => fin fs .tab fun x => cast (asTab x) fun t =>
        ask 0 .nil fun v => cast (asStr v) fun name =>
          if t.length ≤ 1 then .done (.tab t) else
          res (Tab.liftErr (Tab.colIdx t name)) fun col => res (cellsOf i t col (Tab.dataIdx t)) fun cs => askSome 1 cs fun bs =>
            .done (.tab (Tab.retainKeep (W.owner op) (withHeader true t bs) t))))

/-- `morphism.rs:571-575`. -/
def foldAct (t : Tab.Rows N) : List Nat → Tab.Value N → Act (Tab.Value N)
  | [], v => .done v
  | i :: is, v => .set 0 (.row t i) (ask 1 v (foldAct t is))

/-- `morphism.rs:547-579` `fold`. -/
def foldTalk (fs : List String) (input : Tab.Ty) : Talk Tab.Ty (Tab.Value N) :=
  .tell (.addsVars true) (if input = .tab then .read true (some .nil) (fun _ => none) fun _ o => .tell (.output o) (.inject "row" .tabRow
    (.tell .varsAdded (.argAs o o (fin fs o fun x => cast (asTab x) fun t => ask 0 .nil (foldAct t (Tab.dataIdx t))))))
  else .fail false)

/-- `morphism.rs:628-642`. -/
def foldWhileAct (t : Tab.Rows N) : List Nat → Tab.Value N → Act (Tab.Value N)
  | [], v => .done v
  | i :: is, v => .set 0 (.row t i) (ask 1 v fun met => cast (asBool met) fun b =>
    if b then .set 1 (.row t i) (ask 2 v (foldWhileAct t is)) else .done v)

/-- `morphism.rs:602-646` `fold-while`. -/
def foldWhileTalk (fs : List String) (input : Tab.Ty) : Talk Tab.Ty (Tab.Value N) :=
  if input = .tab then .arg .nil fun o => .tell (.output o) (.inject "row" .tabRow (.argAs o .bool (.inject "row" .tabRow
    (.argAs o o (fin fs o fun x => cast (asTab x) fun t => ask 0 .nil (foldWhileAct t (Tab.dataIdx t)))))))
  else .fail false

/-- `morphism.rs:671-710`. -/
def grpTalk (W : World N) (fs : List String) (n : Nat) (input : Tab.Ty) : Talk Tab.Ty (Tab.Value N) :=
  tabTalk input (colNames n (fin fs .tab fun x => cast (asTab x) fun t => if t.isEmpty then .fail else
    withNames n (fun t ns => Tab.grp W.showCell t (names ns)) x))

def orderRes (o : Option Ordering) : Tab.Res Ordering := match o with
  | some x => .ok x
  | none => .error .panic

/-- `morphism.rs:751-769`, `:806-830` `grp-by`. -/
def grpByTalk (W : World N) (fs : List String) (input : Tab.Ty) : Talk Tab.Ty (Tab.Value N) :=
  tabTalk input (.arg .tabRow fun u => if W.orders u then fin fs .tab fun x => cast (asTab x) fun t => askEach 0 (rowsOf t) fun vs =>
    .done (.tab (match t with
      | [] => Tab.buildGroups id []
      | h :: d => Tab.buildGroups id (Tab.groups (Tab.cmpOrEq fun a b => orderRes (W.order u a b)) h (vs.zip d) [])))
  else .fail false)

/-- `morphism.rs:1438-1505` `sort-by`. -/
def sortByTalk (W : World N) (op : Nat) (fs : List String) (input : Tab.Ty) : Talk Tab.Ty (Tab.Value N) :=
  tabTalk input (.arg .tabRow fun u => if W.orders u then fin fs .tab fun x => cast (asTab x) fun t => askEach 0 (rowsOf t) fun vs =>
    res (Tab.sortValues (fun a b => orderRes (W.order u a b)) W.probe ((withHeader .nil t vs).zipIdx.map fun x => (x.2, x.1))) fun l =>
      res (Tab.reorder (W.owner op) (l.map (·.1)) t) fun t' => .done (.tab t')
  else .fail false)

/-- `morphism.rs:926-939`: the transformation for each row, with `$row` set. -/
def mapRows (t : Tab.Rows N) (c : Nat) (force : Bool) (ty : Tab.Ty) : List Nat → (List (Tab.Value N) → Act (Tab.Value N)) → Act (Tab.Value N)
  | [], next => next []
  | i :: is, next => res (if force then .ok .nil else (Tab.entryAt t i c).bind fun e => Tab.liftErr (Tab.cnvValue e ty)) fun x =>
    .resolve 1 [(0, .row t i)] x fun
      | none => .fail
      | some v => mapRows t c force ty is fun vs => next (v :: vs)

/-- `morphism.rs:861-951` `map`. -/
def mapTalk (W : World N) (op : Nat) (input : Tab.Ty) : Talk Tab.Ty (Tab.Value N) :=
  tabTalk input (.tell (.addsVars true) (.read true (some .nil) (fun _ => some .str) fun _ _ =>
    let c := takeFlag "force" (W.flags op)
    match (if c.1 then some (none, c.2) else typeFlag W.typ c.2) with
    | none => .fail false
    | some (ty, fs) => .inject "row" .tabRow (.tell .varsAdded (.read false (if c.1 then some .nil else ty) (fun _ => none) fun i _ =>
      fin fs .tab fun x => cast (asTab x) fun t => ask 0 .nil fun v => cast (asStr v) fun name => res (Tab.liftErr (Tab.colIdx t name)) fun col =>
        mapRows t col c.1 i (Tab.dataIdx t) fun vs => .done (.tab (Tab.modCol t col fun r e => if r = 0 then e else
          match vs[r - 1]? with
          | some v => v.entry
          | none => e))))))

/-- `morphism.rs:973-1012` `pick`. -/
def pickTalk (fs : List String) (n : Nat) : Talk Tab.Ty (Tab.Value N) :=
  let a := takeFlag "add" fs
  let b := takeFlag "trail" a.2
  colNames n (fin b.2 .tab (withNames n fun t ns => Tab.pick t (names ns) a.1 b.1))

/-- `morphism.rs:1072-1084`: the columns; those given by number are marked. -/
def renRefs (W : World N) (t : Tab.Rows N) : List Bool → Nat → (List Nat → Act (Tab.Value N)) → Act (Tab.Value N)
  | [], _, next => next []
  | num :: ms, k, next => ask k .nil fun v =>
    got (if num then asNat W v else (must (asStr v)).bind fun s => may (Tab.okOf (Tab.colIdx t s))) fun i => renRefs W t ms (k + 2) fun is => next (i :: is)

/-- `morphism.rs:1088-1106`: a column outside the table is an error before its name is evaluated. -/
def renNames : List Nat → Nat → Tab.Rows N → Act (Tab.Value N)
  | [], _, t => .done (.tab t)
  | i :: is, k, t => if i < Tab.width t then ask k .nil fun v => cast (asStr v) fun s => renNames is (k + 2) (Tab.setHeader i s t) else .fail

/-- `morphism.rs:1040-1110` `ren`: so many pairs. The type a column is referred to by may be known to be a number. -/
def renTalk (W : World N) (fs : List String) : Nat → List Bool → Talk Tab.Ty (Tab.Value N)
  | 0, ms => fin fs .tab fun x => cast (asTab x) fun t => renRefs W t ms.reverse 0 fun is => renNames is 1 t
  | n + 1, ms => .read false (some .nil) (fun o => some (if o = some .num then .num else .str)) fun _ o =>
    .argAs .nil .str (renTalk W fs n (decide (o = .num) :: ms))

/-- `morphism.rs:1142-1195` `ren-with`. -/
def renWithTalk (W : World N) (op : Nat) (input : Tab.Ty) : Talk Tab.Ty (Tab.Value N) :=
  tabTalk input (.argAs .nil .num (match typeFlag W.typ (W.flags op) with
    | none => .fail false
    | some (ty, fs) => .read false ty (fun _ => some .str) fun i _ => fin fs .tab fun x =>
      ask 0 .nil fun v => got (asNat W v) fun k => cast (asTab x) fun t => match t with
        | [] => .fail
        | h :: d => opt (h :: d)[k]? fun r => res (Tab.sequence (r.map fun e => Tab.liftErr (Tab.cnvValue e i))) fun xs => askEach 1 xs fun vs =>
          cast (strs vs) fun ns => .done (.tab ((List.zipWith (fun _ n => .obj (.str n)) h ns ++ h.drop ns.length) :: d))))

/-- `morphism.rs:1267-1326`, `:1526-1585`: `skip` and `take`. -/
def countTalk (W : World N) (t : Tab.Ty) (f : Tab.Value N → Nat → Got (Tab.Value N)) (fs : List String) (input : Tab.Ty) :
    Talk Tab.Ty (Tab.Value N) :=
  binary input t .num t true (fun x y => (asNat W y).bind (f x)) fs

/-! ### Pipelines -/

/-- `pipeline.rs:136-158` `table_row_get` with a type. -/
def rowGet (t : Tab.Rows N) (i : Nat) (name : String) (u : Tab.Ty) : Tab.Res (Tab.Value N) :=
  (Tab.liftErr (Tab.colIdx t name)).bind fun c => (Tab.entryAt t i c).bind fun e => Tab.liftErr (Tab.cnvValue e u)

/-- `pipeline.rs:68-99` `get` on rows. -/
def getRowTalk (W : World N) (op n : Nat) (input : Tab.Ty) : Talk Tab.Ty (Tab.Value N) :=
  if input = .tabRow then .argAs .nil .str (
    if n = 2 then .arg .nil fun u => fin (W.flags op) u fun x => cast (asRow x) fun r => ask 0 .nil fun v => cast (asStr v) fun name =>
      res ((Tab.liftErr (Tab.colIdx r.1 name)).bind fun c => Tab.entryAt r.1 r.2 c) fun e =>
        if e.value.ty = u then .done e.value else ask 1 .nil .done
    else match typeFlag W.typ (W.flags op) with
      | none => .fail false
      | some (some u, fs) => fin fs u (act u)
      | some (none, _) => .given act)
  else .fail false
where
  act (u : Tab.Ty) (x : Tab.Value N) : Act (Tab.Value N) := cast (asRow x) fun r => ask 0 .nil fun v => cast (asStr v) fun name =>
    res (rowGet r.1 r.2 name u) .done

/-- `pipeline.rs:165-194` `FieldAccessor::construct`: the field of a product type. -/
def accessor (W : World N) (field : Option String) : Tab.Ty → Option (Nat × Tab.Ty)
  | .def_ name => match W.shape name with
    | .sum _ => none
    | .product fs => field.bind fun f => (fs.findIdx? fun p => p.1 == f).bind fun i => fs[i]?.map fun p => (i, p.2)
  | _ => none

/-- `pipeline.rs:196-203`. -/
def fieldOf (i : Nat) : Tab.Value N → Option (Tab.Value N)
  | .ogma _ _ vs => vs[i]?
  | _ => none

/-- `pipeline.rs:114-120` `get` on defined types. -/
def getTalk (W : World N) (op : Nat) (input : Tab.Ty) : Talk Tab.Ty (Tab.Value N) :=
  .arg input fun _ => match accessor W (W.text op 0) input with
    | none => .fail false
    | some (i, u) => fin (W.flags op) u fun x => cast (fieldOf i x) .done

/-- `pipeline.rs:232-258` the `.` of `$x.field`. -/
def dotTalk (W : World N) (op : Nat) (input : Tab.Ty) : Talk Tab.Ty (Tab.Value N) :=
  .arg input fun t =>
    if t = .tabRow then .argAs .nil .str (if W.flags op = [] then .given fun u x => ask 0 x fun r => cast (asRow r) fun r =>
      ask 1 .nil fun v => cast (asStr v) fun name => res (rowGet r.1 r.2 name u) .done else .fail false)
    else .arg .nil fun _ => match accessor W (W.text op 1) t with
      | none => .fail false
      | some (i, u) => fin (W.flags op) u fun x => ask 0 x fun r => cast (fieldOf i r) .done

/-- `pipeline.rs:280-286` `\`. -/
def inputTalk (fs : List String) (input : Tab.Ty) : Talk Tab.Ty (Tab.Value N) :=
  .arg input fun u => .tell (.output u) (fin fs u fun x => ask 0 x .done)

/-- `pipeline.rs:443-457`: so many bindings, from this one on; then the input may be bound. -/
def letAct (x : Tab.Value N) (trailing : Bool) : Nat → Nat → Act (Tab.Value N)
  | 0, k => if trailing then .set k x (.done x) else .done x
  | n + 1, k => ask k x fun v => .set k v (letAct x trailing n (k + 1))

/-- `pipeline.rs:406-441`: so many bindings. -/
def letTalk (fs : List String) (input : Tab.Ty) (total : Nat) (trailing : Bool) : Nat → Talk Tab.Ty (Tab.Value N)
  | 0 =>
    let rest := Talk.tell .varsAdded (fin fs input fun x => letAct x trailing total 0)
    if trailing then .bind input rest else rest
  | n + 1 => .arg input fun u => .bind u (letTalk fs input total trailing n)

/-- `pipeline.rs:523-552` `nth` on tables. -/
def nthTalk (W : World N) (fs : List String) (input : Tab.Ty) : Talk Tab.Ty (Tab.Value N) :=
  if input = .tab then .argAs .tab .num (.arg .tabRow fun u => fin fs u fun x => ask 0 x fun v => got (asNat W v) fun n => cast (asTab x) fun t =>
    res (Tab.uadd W.build W.umax n 1) fun k => if t.length ≤ k then .fail else ask 1 (.row t k) .done)
  else .fail false

/-- `pipeline.rs:583-640` `rand`. -/
def randTalk (W : World N) (fs : List String) (input : Tab.Ty) : Nat → Talk Tab.Ty (Tab.Value N)
  | 1 => .tell (.output .num) (.argsAs input .num 1 (fin fs .num fun x => askAll x 1 0 fun vs => cast (nums vs) fun ns => number W (W.zero :: ns)))
  | 2 => .tell (.output .num) (.argsAs input .num 2 (fin fs .num fun x => askAll x 2 0 fun vs => cast (nums vs) (number W)))
  | 3 => .tell (.output .tab) (.argsAs input .num 3 (fin fs .tab fun x => askAll x 3 0 fun vs => cast (nums vs) (numbers W)))
  | _ => .tell (.output .num) (fin fs .num fun _ => number W [W.zero, W.one])
where
  number (W : World N) : List N → Act (Tab.Value N)
    | [f, t] => opt (W.random f t) fun n => .done (.num n)
    | _ => .wrong
  numbers (W : World N) : List N → Act (Tab.Value N)
    | [f, t, l] => opt (W.toNat l) fun l => opt (W.randoms f t l) fun ns =>
      .done (.tab (Tab.addCol [] (.obj (.str "rand") :: ns.map .num)))
    | _ => .wrong

/-- `pipeline.rs:680-723` `range`. -/
def rangeTalk (W : World N) (fs : List String) (n : Nat) (input : Tab.Ty) : Talk Tab.Ty (Tab.Value N) :=
  .tell (.output .tab) (.argAs input .num (
    if n = 1 ∧ input = .num then fin fs .tab fun x => ask 0 x fun v => got (asNat W v) fun a => got (asNat W x) fun b =>
      .done (.tab (Tab.range W.ofNat a b))
    else .argAs input .num (fin fs .tab fun x => ask 0 x fun v => got (asNat W v) fun a => ask 1 x fun w => got (asNat W w) fun b =>
      .done (.tab (Tab.range W.ofNat a b)))))

/-- `pipeline.rs:743-764` `Table`. -/
def tableTalk (fs : List String) (n : Nat) (input : Tab.Ty) : Talk Tab.Ty (Tab.Value N) :=
  .tell (.output .tab) (.argsAs input .str n (fin fs .tab fun x => askAll x n 0 fun vs => cast (strs vs) fun ns =>
    res (Tab.tableCtor (names ns)) fun t => .done (.tab t)))

/-- `pipeline.rs:793-826` `to-str` of numbers: the format must be a literal, and a format. -/
def toStrNumTalk (W : World N) (op n : Nat) (input : Tab.Ty) : Talk Tab.Ty (Tab.Value N) :=
  if input = .num then .tell (.output .str) (
    if n = 0 then fin (W.flags op) .str fun x => cast (asNum x) fun v => .done (.str (W.showNum v))
    else .argAs .num .str (match W.text op 0 with
      | none => .fail false
      | some f => if W.validFmt f then fin (W.flags op) .str fun x => cast (asNum x) fun v => .done (.str (W.fmtNum f v)) else .fail true))
  else .fail false

/-- `pipeline.rs:889-914` `Tuple`. -/
def tupleTalk (W : World N) (fs : List String) (n : Nat) (input : Tab.Ty) : Talk Tab.Ty (Tab.Value N) :=
  if n < 2 then .fail true else .args input n fun us => .tell (.output (.def_ (W.tupleName us)))
    (if fs = [] then .done (.def_ (W.tupleName us)) [.def_ (W.tupleName us)] fun x => askAll x n 0 fun vs => .done (.ogma (W.tupleName us) 0 vs)
    else .fail false)

/-- `impls/mod.rs:366-390` `typedef_init`. -/
def ctorTalk (W : World N) (fs : List String) (ty : String) (variant : Nat) (input : Tab.Ty) : Talk Tab.Ty (Tab.Value N) :=
  match (W.shape ty).fields variant with
  | none => .fail true
  | some us => .argsOf input us (fin fs (.def_ ty) fun x => askAll x us.length 0 fun vs => .done (.ogma ty variant vs))

/-! ### Input and output -/

/-- `io.rs:49-66` `ls` of a table: its header as a column. -/
def lsHeader : Tab.Value N → Got (Tab.Value N)
  | .tab (h :: _) => .ok (.tab ((.obj (.str "header") :: h).map fun e => [e]))
  | .tab [] => .err
  | _ => .wrong

/-- `io.rs:86-110` `ls`. Arguments after the first are left over. -/
def lsTalk (W : World N) (fs : List String) (n : Nat) : Talk Tab.Ty (Tab.Value N) :=
  .tell (.output .tab) (if n = 0 then fin fs .tab fun _ => opt (W.files none) fun t => .done (.tab t)
    else .argAs .nil .str (fin fs .tab fun _ => ask 0 .nil fun v => cast (asStr v) fun p => opt (W.files (some p)) fun t => .done (.tab t)))

/-- `io.rs:203-257` `open`. -/
def openTalk (W : World N) (op : Nat) (input : Tab.Ty) : Talk Tab.Ty (Tab.Value N) :=
  .argAs input .str (match typeFlag W.typ (W.flags op) with
    | some (some .str, fs) => fin fs .str fun x => ask 0 x fun v => cast (asStr v) fun p => opt (W.openStr p) fun s => .done (.str s)
    | some (none, fs) => fin fs .tab tabAct
    | some (some .tab, fs) => fin fs .tab tabAct
    | _ => .fail false)
where
  tabAct (x : Tab.Value N) : Act (Tab.Value N) := ask 0 x fun v => cast (asStr v) fun p => opt (W.openTab p) fun t => .done (.tab t)

/-- `io.rs:289-332` `save`. -/
def saveTalk (W : World N) (fs : List String) (input : Tab.Ty) : Talk Tab.Ty (Tab.Value N) :=
  .tell (.output input) (if input = .tabRow then .fail false else .argAs input .str (fin fs input fun x => ask 0 x fun v => cast (asStr v) fun p =>
    if W.save p x then .done x else .fail))

/-- `diagnostics.rs:30-37`. -/
def benchmarkTalk (W : World N) (op : Nat) (fs : List String) (input : Tab.Ty) : Talk Tab.Ty (Tab.Value N) :=
  .arg input fun _ => fin fs .tab fun x => ask 0 x fun _ => .done (.tab (W.duration op))

/-- `diagnostics.rs:75-87`. -/
def typifyTalk (W : World N) (op : Nat) (input : Tab.Ty) : Talk Tab.Ty (Tab.Value N) :=
  .arg input fun _ => fin (takeFlag "verbose" (W.flags op)).2 .str fun _ => .done (.str (W.annotated op (takeFlag "verbose" (W.flags op)).1))

/-! ### All of them -/

/-- What a command does. -/
def talk (W : World N) (op n : Nat) (input : Tab.Ty) : Cmd → Talk Tab.Ty (Tab.Value N)
  | .num o => variadic .num (numAgg (W.numOp o)) (W.flags op) n input
  | .addStr => variadic .str strAgg (W.flags op) n input
  | .addTab => addTabTalk (W.flags op) n input
  | .ceil => unary input .num .num false (fun v => (must (asNum v)).map (.num ∘ W.ceil)) (W.flags op)
  | .floor => unary input .num .num false (fun v => (must (asNum v)).map (.num ∘ W.floor)) (W.flags op)
  | .isFinite => unary input .num .bool false (fun v => (must (asNum v)).map (.bool ∘ W.finite)) (W.flags op)
  | .root => binary input .num .num .num false (fun x y => (must (asNum x)).bind fun a => (must (asNum y)).map fun b => .num (W.root a b)) (W.flags op)
  | .cmpNil => ignoring ordTy (ordVal .eq) (W.flags op) input
  | .cmpBool => binary input .bool .bool ordTy true (fun x y => (must (asBool x)).bind fun a => (must (asBool y)).map fun b => ordVal (Tab.boolCmp a b)) (W.flags op)
  | .cmpNum => binary input .num .num ordTy true (fun x y => (must (asNum x)).bind fun a => (must (asNum y)).map fun b => ordVal (W.numCmp a b)) (W.flags op)
  | .cmpStr => binary input .str .str ordTy true (fun x y => (must (asStr x)).bind fun a => (must (asStr y)).map fun b => ordVal (Tab.strCmp a b)) (W.flags op)
  | .cmpOrd => binary input ordTy ordTy ordTy true (fun x y => (must (variantOf x)).bind fun a => (must (variantOf y)).map fun b => ordVal (Tab.natCmp a b)) (W.flags op)
  | .cmp => injected ordTy W (fun t => (W.tupCmp t).map fun f x y => (f x y).map ordVal) (W.flags op) input
  | .eqNil => ignoring .bool (.bool true) (W.flags op) input
  | .eqBool => binary input .bool .bool .bool true (fun x y => (must (asBool x)).bind fun a => (must (asBool y)).map fun b => .bool (a == b)) (W.flags op)
  | .eqNum => binary input .num .num .bool true (fun x y => (must (asNum x)).bind fun a => (must (asNum y)).map fun b => .bool (W.numEq a b)) (W.flags op)
  | .eqStr => binary input .str .str .bool true (fun x y => (must (asStr x)).bind fun a => (must (asStr y)).map fun b => .bool (a == b)) (W.flags op)
  | .eqOrd => binary input ordTy ordTy .bool true (fun x y => (must (variantOf x)).bind fun a => (must (variantOf y)).map fun b => .bool (a == b)) (W.flags op)
  | .eq => injected .bool W (fun t => (W.tupEq t).map fun f x y => (f x y).map .bool) (W.flags op) input
  | .benchmark => benchmarkTalk W op (W.flags op) input
  | .typify => typifyTalk W op input
  | .lsTab => unary input .tab .tab true lsHeader (W.flags op)
  | .ls => lsTalk W (W.flags op) n
  | .open_ => openTalk W op input
  | .save => saveTalk W (W.flags op) input
  | .and_ => logic false (W.flags op) n input
  | .or_ => logic true (W.flags op) n input
  | .not_ => unary input .bool .bool true (fun v => (must (asBool v)).map fun b => .bool (!b)) (W.flags op)
  | .if_ => if n % 2 = 0 then .fail true else ifTalk (W.flags op) input (n / 2) (n / 2) []
  | .append => appendTalk (W.flags op) n input
  | .appendRow => appendRowTalk (W.flags op) n input
  | .dedupStr => unary input .str .str true (fun v => (must (asStr v)).map fun s => .str (String.ofList (Tab.dedupStr s.toList))) (W.flags op)
  | .dedupTab => dedupTalk W (W.flags op) n input
  | .filterStr => if input = .str then .tell (.output .str) (.argAs .str .bool (fin (W.flags op) .str filterStrAct)) else .fail false
  | .filterTab => filterTalk W op n input
  | .fold => foldTalk (W.flags op) input
  | .foldWhile => foldWhileTalk (W.flags op) input
  | .grp => grpTalk W (W.flags op) n input
  | .grpBy => grpByTalk W (W.flags op) input
  | .map => mapTalk W op input
  | .pick => pickTalk (W.flags op) n
  | .ren => tabTalk input (renTalk W (W.flags op) (n / 2) [])
  | .renWith => renWithTalk W op input
  | .revStr => unary input .str .str true (fun v => (must (asStr v)).map fun s => .str (String.ofList (Tab.revStr s.toList))) (W.flags op)
  | .revTab => unary input .tab .tab true (fun v => (must (asTab v)).map fun t => .tab (Tab.rev t (takeFlag "cols" (W.flags op)).1)) (takeFlag "cols" (W.flags op)).2
  | .skipStr => countTalk W .str (fun x n => (must (asStr x)).map fun s => .str (String.ofList (Tab.skipStr s.toList n))) (W.flags op) input
  | .skipTab => countTalk W .tab (fun x n => (must (asTab x)).bind fun t => (may (Tab.valOf (Tab.skip (W.owner op) W.build W.umax t n))).map .tab) (W.flags op) input
  | .sort => tabTalk input (colNames n (fin (W.flags op) .tab (withNames n fun t ns => Tab.sort W.numCmp t (names ns))))
  | .sortBy => sortByTalk W op (W.flags op) input
  | .takeStr => countTalk W .str (fun x n => (must (asStr x)).map fun s => .str (String.ofList (Tab.takeStr s.toList n))) (W.flags op) input
  | .takeTab => countTalk W .tab (fun x n => (must (asTab x)).map fun t => .tab (Tab.take (W.owner op) t n)) (W.flags op) input
  | .getRow => getRowTalk W op n input
  | .get => getTalk W op input
  | .dot => dotTalk W op input
  | .input => inputTalk (W.flags op) input
  | .lenStr => unary input .str .num true (fun v => (must (asStr v)).map fun s => .num (W.ofNat (Tab.lenStr s.toList))) (W.flags op)
  | .lenTab => unary input .tab .num true (fun v => (must (asTab v)).map fun t => .num (W.ofNat (Tab.len t (takeFlag "cols" (W.flags op)).1))) (takeFlag "cols" (W.flags op)).2
  | .let_ => .tell (.addsVars false) (.tell (.output input) (.tell (.oblige input) (letTalk (W.flags op) input (n / 2) (n % 2 == 1) (n / 2))))
  | .nthStr => binary input .str .num .str true (fun x y => (asNat W y).bind fun n => (must (asStr x)).bind fun s =>
      (may (Tab.valOf (Tab.nthStr s.toList n))).map fun c => .str (String.singleton c)) (W.flags op)
  | .nthTab => nthTalk W (W.flags op) input
  | .rand => randTalk W (W.flags op) input n
  | .range => rangeTalk W (W.flags op) n input
  | .table => tableTalk (W.flags op) n input
  | .toStrBool => unary input .bool .str true (fun v => (must (asBool v)).map fun b => .str (if b then "true" else "false")) (W.flags op)
  | .toStrNum => toStrNumTalk W op n input
  | .toStrStr => unary input .str .str true .ok (W.flags op)
  | .toStr => .tell (.output .str) (fin (W.flags op) .str fun x => .done (.str (W.showCell x.entry)))
  | .tuple => tupleTalk W (W.flags op) n input
  | .ctor ty k => ctorTalk W (W.flags op) ty k input

/-- The commands by their numbers. -/
def talks (W : World N) : Talks Tab.Ty (Tab.Value N) := fun i op n input => match W.cmd i with
  | some c => talk W op n input c
  | none => .fail true

/-- How the commands are evaluated. -/
def exec (W : World N) (A : Ast Tab.Ty) (lit : Nat → Tab.Value N) : Exec Tab.Ty (Tab.Value N) where
  ty := Tab.Value.ty
  lit := lit
  act := fun i op t u args _ x => (talks W i op (A.args op).length t).closure u args x

end Verif.Lang
