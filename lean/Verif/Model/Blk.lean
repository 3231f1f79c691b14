/-! Model of how a command gets at its arguments and flags. -/
namespace Verif.Blk

/-! ### Terms of a block -/

/-- `ogma/src/lang/syntax/ast.rs`: a term is a flag or an argument. -/
inductive Term (A : Type) : Type
  | flag (name : String)
  | arg (a : A)

def flagsOf {A : Type} : List (Term A) → List String
  | [] => []
  | .flag f :: ts => f :: flagsOf ts
  | .arg _ :: ts => flagsOf ts

def argsOf {A : Type} : List (Term A) → List A
  | [] => []
  | .flag _ :: ts => argsOf ts
  | .arg a :: ts => a :: argsOf ts

variable {A B R Ty : Type}

/-- `ogma/src/eng/graphs/astgraph.rs:362-389`: edges from the flags (or the arguments) of a block to the command, in the
order they are added. The position is `i as u8`. -/
def termEdges (xs : List B) : List (Nat × B) := xs.zipIdx.map fun p => (p.2 % 256, p.1)

/-- `astgraph.rs:566-570`: put a term into its position, making room for it. -/
def place (v : List (Option B)) (i : Nat) (x : B) : List (Option B) :=
  (if v.length ≤ i then v ++ List.replicate (i + 1 - v.length) none else v).set i (some x)

/-- `astgraph.rs:573-574`: `none` is the panic "all positions should be populated". -/
def populated : List (Option B) → Option (List B)
  | [] => some []
  | none :: _ => none
  | some x :: v => (populated v).map (x :: ·)

/-- `astgraph.rs:552-575` `get_terms`. `petgraph` yields edges in the reverse order of addition. -/
def getTerms (edges : List (Nat × B)) : Option (List B) :=
  populated (edges.reverse.foldl (fun v e => place v e.1 e.2) [])

/-! ### Blocks -/

/-- `ogma/src/eng/mod.rs` `Block`: vectors used as stacks, the top is the end. -/
structure Block (A : Type) where
  flags : List String
  args : List A
  count : Nat

/-- `ogma/src/eng/comp/mod.rs:616-637` `Block::construct`. -/
def construct (ts : List (Term A)) : Option (Block A) :=
  (getTerms (termEdges (flagsOf ts))).bind fun fs =>
    (getTerms (termEdges (argsOf ts))).map fun as => ⟨fs.reverse, as.reverse, 0⟩

/-- `ogma/src/eng/blk.rs:85-94` `get_flag`. -/
def getFlag (name : Option String) (b : Block A) : Option String × Block A :=
  match name with
  | some n => match b.flags.findIdx? (· == n) with
    | some i => (b.flags[i]?, { b with flags := b.flags.eraseIdx i })
    | none => (none, b)
  | none => (b.flags.getLast?, { b with flags := b.flags.dropLast })

inductive Err
  | insufficient (count : Nat)
  | unusedFlags
  | unusedArgs
  | command
  /-- `*args_count += 1` on a `u8` in a build with overflow checks -/
  | overflow
  deriving DecidableEq

/-- `ogma/src/eng/arg.rs:474-494` `next_arg` and `:339-342` `pop`. -/
def nextArg (checked : Bool) (b : Block A) : Except Err (A × Block A) :=
  match b.args.getLast? with
  | none => .error (.insufficient b.count)
  | some a =>
    if checked && b.count == 255 then .error .overflow
    else .ok (a, { b with args := b.args.dropLast, count := (b.count + 1) % 256 })

/-- `blk.rs:280-299` `finalise`. -/
def finalise (b : Block A) : Except Err Unit :=
  if b.flags ≠ [] then .error .unusedFlags
  else if b.args ≠ [] then .error .unusedArgs
  else .ok ()

/-- The implementation of a built-in command: what it asks of the block may depend on everything it got so far.
`eval` ends it (`blk.rs:253-263`); `fail` is an error of its own. -/
inductive Prog (A R : Type) : Type
  | eval (r : R)
  | fail
  | flag (name : Option String) (k : Option String → Prog A R)
  | arg (k : A → Prog A R)
  /-- `args_len`, `blk.rs:27-29` -/
  | len (k : Nat → Prog A R)
  /-- `peek_next_arg_node`, `blk.rs:97-99` -/
  | peekNext (k : Option A → Prog A R)
  /-- `peek_last_arg_node`, `blk.rs:102-104` -/
  | peekLast (k : Option A → Prog A R)

/-- Running a command on a block: the flags and arguments it was given, in order, and the outcome. -/
def run (checked : Bool) : Prog A R → Block A → List String × List A × Except Err R
  | .eval r, b => ([], [], (finalise b).map fun _ => r)
  | .fail, _ => ([], [], .error .command)
  | .flag n k, b =>
    let g := getFlag n b
    let t := run checked (k g.1) g.2
    (g.1.toList ++ t.1, t.2.1, t.2.2)
  | .arg k, b => match nextArg checked b with
    | .error e => ([], [], .error e)
    | .ok (a, b') =>
      let t := run checked (k a) b'
      (t.1, a :: t.2.1, t.2.2)
  | .len k, b => run checked (k b.args.length) b
  | .peekNext k, b => run checked (k b.args.getLast?) b
  | .peekLast k, b => run checked (k b.args.head?) b

/-- Compiling a built-in command applied to the written terms. `none`: the panic of `get_terms`. -/
def command (checked : Bool) (p : Prog A R) (ts : List (Term A)) : Option (List String × List A × Except Err R) :=
  (construct ts).map (run checked p)

/-! ### User commands -/

/-- `astgraph.rs` `Parameter`: evaluated late, of any type, or of the given type. -/
inductive PTy (Ty : Type) : Type
  | expr
  | any
  | ty (t : Ty)

/-- What the compiler knows of an argument: its output type, if it is settled, and whether it is a variable
(`arg.rs:289-298` `assert_var_exists`). -/
inductive VarState
  | notVar | found | missing | unsealed

structure ArgInfo (Ty : Type) where
  ret : Option Ty
  var : VarState

inductive DErr
  | unusedFlags | insufficient | unusedArgs | varNotFound
  deriving DecidableEq

/-- `comp/params.rs:67-71` `LocalInjection`; a parameter is bound to the position of its argument. -/
inductive Inject
  | success (params : List (String × Nat))
  | lgChange
  | unknownReturn
  deriving DecidableEq

/-- `params.rs:176-233` `map_callsite_param`; `ready`: the locals graph already has the variable. -/
def callsite [DecidableEq Ty] (ready : Bool) (name : String) (p : PTy Ty) (idx : Nat) (a : ArgInfo Ty) :
    Except DErr (Except Inject (Option (String × Nat))) :=
  if (match p with | .ty t => decide (a.ret = some t) | _ => true) = false then .ok (.error .unknownReturn)
  else match a.var with
    | .missing => .error .varNotFound
    | .unsealed => .ok (.error .lgChange)
    | _ => if a.ret.isNone then .ok (.error .unknownReturn)
      else .ok (.ok (if ready then some (name, idx % 256) else none))

/-- `params.rs:104-145`: the loop over the parameters. `acc`, `chg`: the parameters bound so far, and whether the locals
graph needs a change. The arguments are the rest of the stack, top first. -/
def paramLoop [DecidableEq Ty] (ready : String → Bool) : List (String × PTy Ty) → Nat → List (ArgInfo Ty) →
    List (String × Nat) → Bool → Except DErr (Except Inject (List (String × Nat) × Bool × List (ArgInfo Ty)))
  | [], _, as, acc, chg => .ok (.ok (acc, chg, as))
  | (_, _) :: _, _, [], _, _ => .error .insufficient
  | (n, .expr) :: ps, i, _ :: as, acc, chg => paramLoop ready ps (i + 1) as acc (chg || !ready n)
  | (n, p) :: ps, i, a :: as, acc, chg => match callsite (ready n) n p i a with
    | .error e => .error e
    | .ok (.error l) => .ok (.error l)
    | .ok (.ok (some c)) => paramLoop ready ps (i + 1) as (acc ++ [c]) chg
    | .ok (.ok none) => paramLoop ready ps (i + 1) as acc true

/-- `params.rs:80-154` `map_def_params_into_variables`. -/
def mapParams [DecidableEq Ty] (ready : String → Bool) (params : List (String × PTy Ty)) (flags : List String)
    (args : List (ArgInfo Ty)) : Except DErr Inject :=
  if flags ≠ [] then .error .unusedFlags
  else match paramLoop ready params 0 args [] false with
    | .error e => .error e
    | .ok (.error l) => .ok l
    | .ok (.ok (acc, chg, rest)) =>
      if rest ≠ [] then .error .unusedArgs
      else if chg then .ok .lgChange
      else .ok (.success acc)

/-- `comp/mod.rs:464-496, 521-557`: a user command whose body has compiled becomes a step that sets the bound
parameters; without bound parameters the step sets none. The body compiles without its parameters when it does not
mention them (`uses = false`), given that it is fine otherwise. `params.rs:37-60`: a failed mapping is an error at once,
the other outcomes are passed over. The result is the list of variables set, with the argument for each. -/
def defStep [DecidableEq Ty] (ready : String → Bool) (params : List (String × PTy Ty)) (uses : Bool) (flags : List String)
    (args : List (ArgInfo Ty)) : Except DErr (Option (List (String × Option (ArgInfo Ty)))) :=
  match mapParams ready params flags args with
  | .error e => .error e
  | .ok (.success ps) => .ok (some (ps.map fun p => (p.1, args[p.2]?)))
  | .ok _ => .ok (if uses then none else some [])

end Verif.Blk
