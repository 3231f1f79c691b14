import Verif.Model.TyGraph
import Verif.Model.Locals
import Verif.Model.Infer
import Verif.Model.Blk
/-! Model of the compiler's main loop (`ogma/src/eng/comp/`), of what a command can ask of the compiler
(`ogma/src/eng/{arg,blk}.rs`), and of what becomes of it. Tags and messages are left out. Of the compiled closures there is
what they hold: compiled arguments and variables (`codes`, `binds`). -/
namespace Verif.Comp
open Verif

/-- `ogma/src/eng/graphs/mod.rs` `CmdNode`: the implementation of a command, built in or a definition. -/
inductive Cmd
  | intrinsic (i : Nat)
  | defn (d : Nat)
  deriving DecidableEq

/-- What the compiler reads of the syntax graph (`eng/graphs/astgraph.rs`). Nodes are numbered. `places` is where the
nodes are for the graph of local variables, `blocks` the blocks of an expression in the order written, `args` the
arguments of a block, `opOf` the block of an argument, `owner` the block of a definition, `lits` the arguments that are
literals or variables, other than `#i`, `under` whether there is a path. -/
structure Ast (T : Type) where
  places : List Loc.Node
  exprs : List Nat
  ops : List Nat
  blocks : Nat → List Nat
  parent : Nat → Nat
  args : Nat → List Nat
  opOf : Nat → Nat
  cmds : Nat → List (Option T × Cmd)
  owner : Nat → Nat
  body : Nat → Nat
  params : Nat → List (String × Blk.PTy T)
  flagged : Nat → Bool
  lits : List Nat
  var : Nat → Option String
  under : Nat → Nat → Bool
  path : Nat → List Nat

variable {T : Type} [DecidableEq T]

def Ast.count (A : Ast T) : Nat := A.places.length

def Ast.place (A : Ast T) (n : Nat) : Loc.Node := A.places[n]?.getD []

/-- The node at a place. -/
def Ast.index (A : Ast T) (p : Loc.Node) : Option Nat := A.places.findIdx? (· = p)

/-- `astgraph.rs:911-920` `next`. -/
def Ast.next (A : Ast T) (op : Nat) : Option Nat := ((A.blocks (A.parent op)).dropWhile (· ≠ op))[1]?

/-- `astgraph.rs:506-526` `get_impl`. At most one edge has a given key. -/
def Ast.getImpl (A : Ast T) (op : Nat) (t : T) : Option Cmd :=
  match (A.cmds op).find? fun c => c.1 = some t with
  | some c => some c.2
  | none => ((A.cmds op).find? fun c => c.1 = none).map (·.2)

def Cmd.def? : Cmd → Option Nat
  | .defn d => some d
  | .intrinsic _ => none

/-- The errors the loop tells apart: `hard` ones end it, and so does reaching the inference depth. Two are panics: `expect`
the one in `compile_blocks` (`comp/mod.rs:438`), `crash` all others. -/
inductive Err
  | soft
  | hard
  | depth
  | crash
  | expect
  deriving DecidableEq

/-- `arg.rs:332-337` `Hold`: a literal, by its node, what `#i` stands for, a variable, or a compiled expression, by its node. -/
inductive Hold (T : Type)
  | lit (n : Nat)
  | input
  | var (slot : Nat) (ty : T)
  | expr (e : Nat)

/-- `arg.rs:322-330` `Argument`, with the node it is for. -/
structure Argument (T : Type) where
  node : Nat
  inp : T
  out : T
  hold : Hold T

/-- `var.rs:14-20` `Variable`: the node where it is defined, and its place in the environment; `none` for one that is not
used (`:117-123` `noop`). `want` is the type it was asked for with; `ty` the type it has. -/
structure Variable (T : Type) where
  site : Option (Nat × Nat)
  ty : T
  want : T

/-- What the closure of a compiled block holds: that of a built-in command its arguments and variables, in the order in which
it got them; that of a definition its parameters (`step.rs:8-22` `def`). -/
inductive Code (T : Type)
  | builtin (i : Nat) (args : List (Argument T)) (vars : List (Variable T))
  | call (d : Nat) (params : List ((Nat × T) × Argument T))

/-- `eng/mod.rs:30-48` `Compiler`. `slots`: the types of the variables; `steps`: the compiled blocks, each with the types it
was compiled for; `callsite`: for each definition the type of each parameter and the position of its argument; `binds`: for
each definition the variables of these parameters; `codes`: for each compiled block its types and what its closure holds. -/
structure S (T : Type) where
  tg : Ty.State T
  lg : Loc.State
  slots : List T
  steps : List (Nat × T × T)
  exprs : List Nat
  callsite : List (Nat × List (Option T × Nat))
  outs : List Nat
  depth : Nat
  binds : List (Nat × List (Nat × T)) := []
  codes : List (Nat × T × T × Code T) := []

def S.ops (s : S T) : List Nat := s.steps.map (·.1)

/-! ### Changes -/

/-- `eng/graphs/mod.rs:51-54` `Chg`. Changes of locals name nodes by their number. -/
inductive Chg (T : Type)
  | ty (c : Ty.Chg T)
  | var (name : String) (t : T) (n : Nat)
  | lzy (name : String) (to n : Nat)
  | sealOp (n : Nat)
  | breakEdge (op arg : Nat)

/-- `eng/graphs/mod.rs:69-72` `is_lg_chg`. -/
def Chg.isLg : Chg T → Bool
  | .ty _ => false
  | _ => true

/-- `tygraph.rs:550-624` `apply_chg`, the result: whether the graph was altered. -/
def tyAlters (count : Nat) (s : Ty.State T) : Ty.Chg T → Bool
  | .known n sd t => decide (s.kn n sd ≠ .known t)
  | .oblige n sd t => decide (s.kn n sd ≠ .obliged t)
  | .remove n sd t => match s.kn n sd with
    | .inferred ts => decide (t ∈ ts)
    | _ => false
  | .anyInput n => (s.kn n .inp).ty.isNone && decide (s.kn n .inp ≠ .any)
  | .addEdge e => decide (e ∉ s.edges)
  | .anonTy t => (List.range count).any fun n => decide (Ty.addTy t (s.kn n .inp) ≠ s.kn n .inp) ||
      decide (Ty.addTy t (s.kn n .out) ≠ s.kn n .out)

/-- `resolve_tg.rs:129-166`: a conflict is a hard error, `todo!` a panic. -/
def stopErr : Ty.Stop T → Err
  | .conflict _ => .hard
  | .crash => .crash

/-- `resolve_tg.rs:104-127` `apply_graph_chgs`, one change (`tygraph.rs:550-624`, `locals_graph.rs:279-316`). -/
def apply1 (A : Ast T) (s : S T) : Chg T → Except Err (S T × Bool)
  | .ty c => match Ty.applyChg s.tg c with
    | .ok g => .ok ({ s with tg := g }, tyAlters A.count s.tg c)
    | .error x => .error (stopErr x)
  | .var name t n => .ok ({ s with lg := Loc.apply A.places s.lg (.newVar name (A.place n)), slots := s.slots ++ [t] }, true)
  | .lzy name to n => .ok ({ s with lg := Loc.apply A.places s.lg (.newLazy name (A.place to) (A.place n)) }, true)
  | .sealOp n => .ok ({ s with lg := Loc.apply A.places s.lg (.seal (A.place n)) }, !s.lg.isSealed (A.place n))
  | .breakEdge op arg => .ok ({ s with lg := Loc.apply A.places s.lg (.breakEdge (A.place op) (A.place arg)) },
      decide (A.place op ∈ s.lg.seals (A.place arg)))

/-- `resolve_tg.rs:104-127` `apply_graph_chgs`: ends with the first error. -/
def applyAll (A : Ast T) : S T → Bool → List (Chg T) → Except Err (S T × Bool)
  | s, b, [] => .ok (s, b)
  | s, b, c :: cs => match apply1 A s c with
    | .ok (s', b') => applyAll A s' (b || b') cs
    | .error e => .error e

/-! ### What a command can ask for -/

/-- `arg.rs:308-327` `Kn`: obliged and known are one, and so are sets of one type. -/
def view : Ty.Kn T → Ty.Kn T
  | .any => .any
  | .known t => .known t
  | .obliged t => .known t
  | .inferred [t] => .known t
  | .inferred ts => .inferred ts

/-- `arg.rs:41-58` `follow_local_arg_ptr`. Every pointer leads further out, the first argument bounds the way. -/
def follow (A : Ast T) (s : S T) : Nat → Nat → Nat
  | 0, n => n
  | f + 1, n =>
    match (A.var n).bind fun v => (Loc.get s.lg (A.place n) v).join with
    | some (.ptr to) => match A.index to with
      | some m => follow A s f m
      | none => n
    | _ => n

/-- `arg.rs:9-16` `ArgBuilder`. -/
structure Arg (T : Type) where
  node : Nat
  inp : Ty.Kn T
  out : Ty.Kn T

/-- `arg.rs:19-39` `new`. The types are those of the node before pointers are followed. -/
def newArg (A : Ast T) (s : S T) (n : Nat) : Arg T :=
  ⟨follow A s (A.place n).length n, view (s.tg.kn n .inp), view (s.tg.kn n .out)⟩

/-- What a built-in command calls of its block and of the argument at hand (`blk.rs`, `arg.rs`, `infer.rs:429-462`). -/
inductive Req (T : Type)
  /-- `assert_output` -/
  | output (t : T)
  /-- `output_ty` -/
  | infer
  /-- `oblige_args_supplied_tys` -/
  | obligeArgs (t : T)
  /-- `assert_adds_vars` -/
  | addsVars (retain : Bool)
  /-- `assert_vars_added` -/
  | varsAdded
  /-- `next_arg` -/
  | next
  /-- `supplied` -/
  | supplied (t : T)
  /-- `returns` -/
  | returns (t : T)
  /-- `concrete` -/
  | concrete
  /-- `decouple_op_seal` -/
  | decouple
  /-- `create_var_ref` -/
  | createVar (t : T)
  /-- `inject_manual_var_next_arg` -/
  | inject (name : String) (t : T)

/-- How a built-in command ends: with a step for this output type, having asked for these anonymous types
(`insert_anon_type_into_compiler`), or with an error. Only `Tuple` asks for one; that it can still fail afterwards, if it
has a flag, is left out. -/
inductive Fin (T : Type)
  | ok (t : T) (anon : List T)
  | fail (hard : Bool)

/-- While a command runs: the arguments left, the argument at hand, and `eng/mod.rs:103-115` `Chgs`. -/
structure Run (T : Type) where
  args : List Nat
  cur : Option (Arg T)
  chgs : List (Chg T)
  infers : Bool
  adds : Bool

def Run.push (r : Run T) (cs : List (Chg T)) : Run T := { r with chgs := r.chgs ++ cs }

/-- `arg.rs:88-127` `supplied`. -/
def supplied (t : T) (a : Arg T) : Except (List (Chg T)) (Arg T) :=
  match a.inp with
  | .any => .ok { a with inp := .known t }
  | .known t' => if t' = t then .ok a else .error []
  | .obliged t' => if t' = t then .ok a else .error []
  | .inferred ts => .error (if t ∈ ts then [.ty (.known a.node .inp t)] else [])

/-- `arg.rs:130-163` `returns`; an output is never `Any`. -/
def returns (t : T) (a : Arg T) : Except (List (Chg T)) (Arg T) :=
  match a.out with
  | .any => .error []
  | .known t' => if t' = t then .ok a else .error []
  | .obliged t' => if t' = t then .ok a else .error []
  | .inferred ts => .error (if t ∈ ts then [.ty (.oblige a.node .out t)] else [])

/-- `arg.rs:185-201`: both types are known, and what the argument evaluates to has the type given last. -/
def fits (a : Arg T) (t : Option T) : Option Err :=
  if a.inp.ty.isSome && a.out.ty.isSome && decide (t = a.out.ty) then none else some .soft

/-- `arg.rs:172-208`, `:210-278` `concrete`: `none` if the argument can be evaluated. The type of a literal or of a compiled
expression is that of its node. -/
def concrete (A : Ast T) (s : S T) (a : Arg T) : Option Err :=
  match A.var a.node with
  | some v => match Loc.get s.lg (A.place a.node) v with
    | some none => some .hard
    | none => some .soft
    | some (some (.ptr _)) => if a.inp.ty.isSome && a.out.ty.isSome then some .crash else some .soft
    | some (some (.var slot)) => fits a s.slots[slot]?
  | none =>
    if a.node ∈ A.exprs ∧ a.node ∉ s.exprs then some .soft else fits a (s.tg.kn a.node .out).ty

/-- `locals_graph.rs:221-243` `new_var`: there already, a panic, or a change. -/
def newVar (A : Ast T) (s : S T) (name : String) (t : T) (n : Nat) : Except Err (Option (Chg T)) :=
  match Loc.newVar s.lg (A.place n) name with
  | none => .ok (some (.var name t n))
  | some (some (.var _)) => .ok none
  | some _ => .error .crash

/-- `locals_graph.rs:254-277` `new_lazy`. -/
def newLazy (A : Ast T) (s : S T) (name : String) (to n : Nat) : Except Err (Option (Chg T)) :=
  match Loc.newVar s.lg (A.place n) name with
  | none => .ok (some (.lzy name to n))
  | some (some (.ptr _)) => .ok none
  | some _ => .error .crash

/-- `infer.rs:433-456`, the type looked up by `output_ty`. -/
def outputTy (A : Ast T) (s : S T) (op : Nat) : Option T :=
  match (s.tg.kn op .out).ty with
  | some t => some t
  | none => match A.next op with
    | some n => (s.tg.kn n .inp).ty
    | none => (s.tg.kn (A.parent op) .out).ty

/-- What a call that may need a new variable leads to. -/
def Run.need (r : Run T) : Except Err (Option (Chg T)) → Run T × Option Err
  | .error e => (r, some e)
  | .ok none => (r, none)
  | .ok (some c) => (r.push [c], some .soft)

/-- What a call on the argument at hand leads to. -/
def Run.put (r : Run T) : Except (List (Chg T)) (Arg T) → Run T × Option Err
  | .error cs => (r.push cs, some .soft)
  | .ok a => ({ r with cur := some a }, none)

/-- One call. An error ends the command. A call on an argument with none at hand cannot be written. -/
def request (A : Ast T) (s : S T) (op : Nat) (r : Run T) : Req T → Run T × Option Err
  | .output t => (r.push [.ty (.known op .out t)], none)
  | .infer => ({ r with infers := r.infers || (outputTy A s op).isNone }, none)
  | .obligeArgs t => (r.push (r.args.map fun a => .ty (.oblige a .inp t)), none)
  | .addsVars retain =>
    (({ r with adds := true } : Run T).push (if retain then [] else r.args.map fun a => .breakEdge op a), none)
  | .varsAdded => (r.push [.sealOp op], none)
  | .next => match r.args with
    | [] => (r, some .hard)
    | a :: as => ({ r with args := as, cur := some (newArg A s a) }, none)
  | .supplied t => match r.cur with
    | none => (r, some .hard)
    | some a => r.put (supplied t a)
  | .returns t => match r.cur with
    | none => (r, some .hard)
    | some a => r.put (returns t a)
  | .concrete => match r.cur with
    | none => (r, some .hard)
    | some a => (r, concrete A s a)
  | .decouple => match r.cur with
    | none => (r, some .hard)
    | some a => (r.push [.breakEdge (A.opOf a.node) a.node], none)
  | .createVar t => match r.cur with
    | none => (r, some .hard)
    | some a => match A.var a.node with
      | none => (r, some .hard)
      | some v => match A.next (A.opOf a.node) with
        | none => (r, none)
        | some n => r.need (newVar A s v t n)
  | .inject name t => match r.args with
    | [] => (r, some .hard)
    | a :: _ => r.need (newVar A s name t a)

/-- The calls in turn. -/
def requests (A : Ast T) (s : S T) (op : Nat) : Run T → List (Req T) → Run T × Option Err
  | r, [] => (r, none)
  | r, q :: qs => match request A s op r q with
    | (r, none) => requests A s op r qs
    | (r, some e) => (r, some e)

/-- What the built-in commands do: their calls and their end, given the compiler, the implementation, the block and its
input type. The calls may depend on anything the command can find out. -/
abbrev Builtins (T : Type) := S T → Nat → Nat → T → List (Req T) × Fin T

/-- What compiling a block comes to. -/
structure Out (T : Type) where
  res : Except Err T
  chgs : List (Chg T)
  infers : Bool
  adds : Bool

def finish (r : Run T) : Fin T → Out T
  | .fail h => ⟨.error (if h then .hard else .soft), r.chgs, r.infers, r.adds⟩
  | .ok t anon =>
    if r.args ≠ [] then ⟨.error .soft, r.chgs, r.infers, r.adds⟩
    else ⟨.ok t, r.chgs ++ anon.map fun t => .ty (.anonTy t), r.infers, r.adds⟩

/-- `comp/mod.rs:616-637`, `blk.rs`: a built-in command on its block. -/
def runBuiltin (A : Ast T) (I : Builtins T) (s : S T) (i op : Nat) (t : T) : Out T :=
  let p := I s i op t
  match requests A s op ⟨A.args op, none, [], false, false⟩ p.1 with
  | (r, some e) => ⟨.error e, r.chgs, r.infers, r.adds⟩
  | (r, none) => finish r p.2

/-- `comp/mod.rs:521-557` `map_callsite_params_for_def_step`, one parameter: the changes and the error, if any. -/
def callsiteArg (A : Ast T) (s : S T) (t : T) (args : List Nat) (p : Option T × Nat) : List (Chg T) × Option Err :=
  match args[p.2]? with
  | none => ([], some .crash)
  | some n => match supplied t (newArg A s n) with
    | .error cs => (cs, some .soft)
    | .ok a => match p.1 with
      | none => ([], concrete A s a)
      | some u => match returns u a with
        | .error cs => (cs, some .soft)
        | .ok a => ([], concrete A s a)

/-- `map_callsite_params_for_def_step`: up to the first error. -/
def callsiteArgs (A : Ast T) (s : S T) (t : T) (args : List Nat) : List (Option T × Nat) → List (Chg T) × Option Err
  | [] => ([], none)
  | p :: ps => match callsiteArg A s t args p with
    | (cs, some e) => (cs, some e)
    | (cs, none) => (cs ++ (callsiteArgs A s t args ps).1, (callsiteArgs A s t args ps).2)

def S.callsiteOf (s : S T) (d : Nat) : List (Option T × Nat) :=
  match s.callsite.find? fun x => x.1 = d with
  | some x => x.2
  | none => []

/-- `comp/mod.rs:465-497`: a call of a definition. -/
def runDef (A : Ast T) (s : S T) (d : Nat) (t : T) : Out T :=
  if A.body d ∈ s.exprs then
    match callsiteArgs A s t (A.args (A.owner d)) (s.callsiteOf d) with
    | (cs, some e) => ⟨.error e, cs, false, false⟩
    | (cs, none) => match (s.tg.kn (A.body d) .out).ty with
      | none => ⟨.error .crash, cs, false, false⟩
      | some u => ⟨.ok u, cs, false, false⟩
  else ⟨.error .soft, [.ty (.known (A.body d) .inp t)], false, false⟩

/-- `comp/mod.rs:448-504` `compile_block`. -/
def compileBlock (A : Ast T) (I : Builtins T) (s : S T) (op : Nat) (t : T) : Out T :=
  match A.getImpl op t with
  | none => ⟨.error .hard, [], false, false⟩
  | some (.intrinsic i) => runBuiltin A I s i op t
  | some (.defn d) => runDef A s d t

/-! ### The stages of a round -/

/-- `resolve_tg.rs:6-21` `resolve_tg`. -/
def resolveTg (s : S T) : Except Err (S T) :=
  match Ty.step s.tg .resolve with
  | .ok g => .ok { s with tg := g }
  | .error .crash => .error .crash
  | .error (.conflict _) => .error .soft

/-- `comp/mod.rs:224-251` `populate_compiled_expressions`, `:640-665` `Stack::build`: the expressions that are complete now. -/
def complete (A : Ast T) (s : S T) : List Nat :=
  A.exprs.filter fun e => decide (e ∉ s.exprs) && (s.tg.kn e .inp).ty.isSome && (s.tg.kn e .out).ty.isSome &&
    (A.blocks e).all fun op => decide (op ∈ s.ops)

/-- `comp/mod.rs:266-310`, one node. -/
def variableChgs (A : Ast T) (s : S T) (n : Nat) : List (Chg T) :=
  match A.var n with
  | none => []
  | some v =>
    if (s.tg.kn n .out).isMultiple then
      match Loc.get s.lg (A.place n) v with
      | some (some (.var slot)) => match s.slots[slot]? with
        | some t => [.ty (.known n .out t), .ty (.anyInput n)]
        | none => []
      | some (some (.ptr to)) => match A.index to with
        | some m => [.ty (.addEdge ⟨m, n, .ii⟩), .ty (.addEdge ⟨m, n, .oo⟩)]
        | none => []
      | _ => []
    else []

/-- `comp/mod.rs:262-313` `assign_variable_types`. -/
def assignVariables (A : Ast T) (s : S T) : Except Err (S T × Bool) :=
  applyAll A s false ((List.range A.count).flatMap (variableChgs A s))

/-- `comp/mod.rs:198-215` `predict_path`. -/
def predict (A : Ast T) (s : S T) (op : Nat) : Option Nat :=
  match (s.tg.kn op .inp).ty with
  | some t => (A.getImpl op t).bind Cmd.def?
  | none => match A.cmds op with
    | [c] => c.2.def?
    | _ => none

/-- `comp/mod.rs:193-197` `def_nodes_with_known_path`. -/
def knownPaths (A : Ast T) (s : S T) : List Nat := A.ops.filterMap (predict A s)

/-- How mapping the parameters of a definition ends (`params.rs:67-71` `LocalInjection`). -/
inductive Mapped (T : Type)
  | success (ps : List (Option T × Nat))
  | later
  | fail (e : Err)

/-- `params.rs:188-196`: the argument, with the declared type if there is one. -/
def declared (t : Option T) (a : Arg T) : Except (List (Chg T)) (Arg T) :=
  match t with
  | none => .ok a
  | some u => returns u a

/-- `params.rs:176-233` `map_callsite_param`: the changes, and an error, or `none` for giving up for now, or whether the
variable is there. -/
def callsiteParam (A : Ast T) (s : S T) (d : Nat) (name : String) (t : Option T) (n : Nat) :
    List (Chg T) × Except Err (Option Bool) :=
  match declared t (newArg A s n) with
  | .error cs => (cs, .ok none)
  | .ok a => match (A.var a.node).map fun v => Loc.get s.lg (A.place a.node) v with
    | some (some none) => ([], .error .hard)
    | some none => ([], .ok none)
    | _ => match a.out.ty with
      | none => ([], .ok none)
      | some u => match newVar A s name u (A.body d) with
        | .error e => ([], .error e)
        | .ok none => ([], .ok (some true))
        | .ok (some c) => ([c], .ok (some false))

def ptyOf : Blk.PTy T → Option T
  | .ty t => some t
  | _ => none

/-- `params.rs:104-145`, the loop over the parameters: `i` the position, `acc` the parameters so far, `chg` whether the
graph of locals needs a change. -/
def mapLoop (A : Ast T) (s : S T) (d : Nat) : Nat → List (String × Blk.PTy T) → List Nat → List (Option T × Nat) → Bool →
    List (Chg T) × Mapped T
  | _, [], [], acc, chg => ([], if chg then .later else .success acc)
  | _, [], _ :: _, _, _ => ([], .fail .soft)
  | _, _ :: _, [], _, _ => ([], .fail .hard)
  | i, (name, .expr) :: ps, a :: as, acc, chg =>
    match newLazy A s name a (A.body d) with
    | .error e => ([], .fail e)
    | .ok none => mapLoop A s d (i + 1) ps as acc chg
    | .ok (some c) => (c :: (mapLoop A s d (i + 1) ps as acc true).1, (mapLoop A s d (i + 1) ps as acc true).2)
  | i, (name, p) :: ps, a :: as, acc, chg =>
    match callsiteParam A s d name (ptyOf p) a with
    | (cs, .error e) => (cs, .fail e)
    | (cs, .ok none) => (cs, .later)
    | (cs, .ok (some true)) =>
      (cs ++ (mapLoop A s d (i + 1) ps as (acc ++ [(ptyOf p, i % 256)]) chg).1,
        (mapLoop A s d (i + 1) ps as (acc ++ [(ptyOf p, i % 256)]) chg).2)
    | (cs, .ok (some false)) =>
      (cs ++ (mapLoop A s d (i + 1) ps as acc true).1, (mapLoop A s d (i + 1) ps as acc true).2)

/-- `params.rs:80-154` `map_def_params_into_variables`. -/
def mapDef (A : Ast T) (s : S T) (d : Nat) : List (Chg T) × Mapped T :=
  if A.flagged (A.owner d) then ([], .fail .hard)
  else mapLoop A s d 0 (A.params d) (A.args (A.owner d)) [] false

/-- `tygraph.rs:308-346` `link_def_arg_terms_with_ii`: whether a parameter is evaluated at the call. -/
def atCall : Blk.PTy T → Bool
  | .expr => false
  | _ => true

/-- `locals_graph.rs:221-243` `new_var`, the variable that is there already. -/
def variableAt (A : Ast T) (s : S T) (name : String) (n : Nat) : Option (Nat × T) :=
  match Loc.newVar s.lg (A.place n) name with
  | some (some (.var slot)) => s.slots[slot]?.map fun t => (slot, t)
  | _ => none

/-- `params.rs:137-141`: the variables of the parameters that are not expressions. -/
def boundTo (A : Ast T) (s : S T) (d : Nat) : List (Nat × T) :=
  (A.params d).filterMap fun p => if atCall p.2 then variableAt A s p.1 (A.body d) else none

/-- `params.rs:37-60`, the loop over the definitions. -/
def defsLoop (A : Ast T) : List Nat → S T → List (Chg T) → Bool → Except Err (S T × List (Chg T) × Bool)
  | [], s, cs, b => .ok (s, cs, b)
  | d :: ds, s, cs, b => match mapDef A s d with
    | (_, .fail e) => .error e
    | (cs', .later) => defsLoop A ds s (cs ++ cs') b
    | (cs', .success ps) =>
      defsLoop A ds { s with
          callsite := s.callsite ++ [(d, ps)]
          binds := s.binds ++ [(d, boundTo A s d)]
          lg := Loc.apply A.places s.lg (.sealExpr (A.place (A.body d))) }
        (cs ++ cs') true

/-- `params.rs:24-64` `insert_available_def_locals`. -/
def defLocals (A : Ast T) (s : S T) : Except Err (S T × Bool) :=
  match defsLoop A ((knownPaths A s).filter fun d => d ∉ s.callsite.map (·.1)) s [] false with
  | .error e => .error e
  | .ok (s, cs, b) => applyAll A s b cs

/-- The arguments of a definition to be linked. -/
def linkable (A : Ast T) (d : Nat) : List Nat :=
  (((A.params d).zip (A.args (A.owner d))).filter fun x => atCall x.1.2).map (·.2)

/-- `tygraph.rs:337-340`: an edge is added unless there is one already. -/
def link1 (op : Nat) (g : Ty.State T) (a : Nat) : Ty.State T :=
  if g.edges.any fun e => decide (e.src = op ∧ e.dst = a) then g else { g with edges := g.edges ++ [⟨op, a, .ii⟩] }

def linkDef (A : Ast T) (g : Ty.State T) (d : Nat) : Ty.State T := (linkable A d).foldl (link1 (A.owner d)) g

/-- `comp/mod.rs:317-342` `link_known_def_path_args`. -/
def linkArgs (A : Ast T) (s : S T) : S T × Bool :=
  let g := ((knownPaths A s).filter fun d => A.owner d ∉ s.ops).foldl (linkDef A) s.tg
  ({ s with tg := g }, decide (s.tg.edges.length < g.edges.length))

/-- `comp/mod.rs:416-424`: hard errors take precedence, then later ones. A panic ends everything. -/
def worse : Option Err → Err → Err
  | some .crash, _ => .crash
  | _, .crash => .crash
  | _, .hard => .hard
  | some .hard, _ => .hard
  | _, e => e

/-- `comp/mod.rs:360-432`, the variables of the loop. -/
structure Tried (T : Type) where
  steps : List (Nat × T × T)
  outs : List Nat
  chgs : List (Chg T)
  err : Option Err

/-- `comp/mod.rs:372-432`, the body of the loop. -/
def tryBlock (A : Ast T) (I : Builtins T) (s : S T) (r : Tried T) (x : Nat × T) : Tried T :=
  let o := compileBlock A I s x.1 x.2
  let sealing : List (Chg T) := if o.adds then [] else [.sealOp x.1]
  match o.res with
  | .ok u => { r with steps := r.steps ++ [(x.1, x.2, u)], chgs := r.chgs ++ o.chgs ++ [.ty (.known x.1 .out u)] ++ sealing }
  | .error e => { r with
      outs := if o.infers then r.outs ++ [x.1] else r.outs
      chgs := r.chgs ++ o.chgs ++ sealing
      err := some (worse r.err e) }

/-- `comp/mod.rs:349-358`: the blocks to compile, with their input types. -/
def candidates (A : Ast T) (s : S T) : List (Nat × T) :=
  (A.ops.filter fun op => op ∉ s.ops).filterMap fun op => (s.tg.kn op .inp).ty.map fun t => (op, t)

def tryAll (A : Ast T) (I : Builtins T) (s : S T) : Tried T :=
  (candidates A s).foldl (tryBlock A I s) ⟨[], [], [], none⟩

/-! What a compiled block holds -/

/-- `arg.rs:210-278` `map_astnode_into_hold`. -/
def holdOf (A : Ast T) (s : S T) (n : Nat) : Option (Hold T) :=
  match A.var n with
  | some v => match Loc.get s.lg (A.place n) v with
    | some (some (.var slot)) => s.slots[slot]?.map (.var slot)
    | _ => none
  | none => some (if n ∈ A.exprs then .expr n else if n ∈ A.lits then .lit n else .input)

/-- `arg.rs:172-208` `concrete`, the argument. -/
def argument (A : Ast T) (s : S T) (a : Arg T) : Option (Argument T) :=
  match a.inp.ty, a.out.ty, holdOf A s a.node with
  | some i, some o, some h => some ⟨a.node, i, o, h⟩
  | _, _, _ => none

/-- The argument a call leads to, if any. -/
def madeArg (A : Ast T) (s : S T) (r : Run T) : Req T → List (Argument T)
  | .concrete => (r.cur.bind (argument A s)).toList
  | _ => []

/-- A variable that is there already, for a command. -/
def varThere (A : Ast T) (s : S T) (name : String) (t : T) (n : Nat) : List (Variable T) :=
  ((variableAt A s name n).map fun x => ⟨some (n, x.1), x.2, t⟩).toList

/-- The variable a call leads to, if any: `blk.rs:149-180` `create_var_ref`, `:212-220` `inject_manual_var_next_arg`. -/
def madeVar (A : Ast T) (s : S T) (r : Run T) : Req T → List (Variable T)
  | .createVar t => match r.cur with
    | none => []
    | some a => match A.var a.node with
      | none => []
      | some v => match A.next (A.opOf a.node) with
        | none => [⟨none, t, t⟩]
        | some n => varThere A s v t n
  | .inject name t => match r.args with
    | [] => []
    | a :: _ => varThere A s name t a
  | _ => []

/-- The arguments a command gets. -/
def madeArgs (A : Ast T) (s : S T) (op : Nat) : Run T → List (Req T) → List (Argument T)
  | _, [] => []
  | r, q :: qs => madeArg A s r q ++ madeArgs A s op (request A s op r q).1 qs

/-- The variables a command gets. -/
def madeVars (A : Ast T) (s : S T) (op : Nat) : Run T → List (Req T) → List (Variable T)
  | _, [] => []
  | r, q :: qs => madeVar A s r q ++ madeVars A s op (request A s op r q).1 qs

def Run.start (args : List Nat) : Run T := ⟨args, none, [], false, false⟩

/-- `comp/mod.rs:521-557`, one parameter: the argument. -/
def callArgument (A : Ast T) (s : S T) (t : T) (args : List Nat) (p : Option T × Nat) : Option (Argument T) :=
  match args[p.2]? with
  | none => none
  | some n => match supplied t (newArg A s n) with
    | .error _ => none
    | .ok a => match declared p.1 a with
      | .error _ => none
      | .ok a => argument A s a

def S.bindsOf (s : S T) (d : Nat) : List (Nat × T) :=
  match s.binds.find? fun x => x.1 = d with
  | some x => x.2
  | none => []

/-- `comp/mod.rs:448-504` `compile_block`, the closure. -/
def codeOf (A : Ast T) (I : Builtins T) (s : S T) (op : Nat) (t : T) : Code T :=
  match A.getImpl op t with
  | some (.intrinsic i) =>
    .builtin i (madeArgs A s op (.start (A.args op)) (I s i op t).1) (madeVars A s op (.start (A.args op)) (I s i op t).1)
  | some (.defn d) =>
    .call d ((s.bindsOf d).zip ((s.callsiteOf d).filterMap (callArgument A s t (A.args (A.owner d)))))
  | none => .builtin 0 [] []

/-- How compiling the blocks ends. -/
inductive Blocks (T : Type)
  | again (s : S T)
  | failed (s : S T) (e : Err)
  | stop (e : Err)

/-- `comp/mod.rs:434-438`: without an error to report, `expect` panics. -/
def reported : Option Err → Err
  | some e => e
  | none => .expect

/-- `comp/mod.rs:345-439` `compile_blocks`. -/
def compileBlocks (A : Ast T) (I : Builtins T) (s : S T) : Blocks T :=
  let r := tryAll A I s
  if r.err = some .crash then .stop .crash
  else match applyAll A { s with
      steps := s.steps ++ r.steps
      outs := s.outs ++ r.outs
      codes := s.codes ++ r.steps.map fun x => (x.1, x.2.1, x.2.2, codeOf A I s x.1 x.2.1) } false r.chgs with
    | .error e => .stop e
    | .ok (s', b) =>
      if b || !r.steps.isEmpty then .again s'
      else if reported r.err = .soft then .failed s' .soft
      else .stop (reported r.err)

/-- `astgraph.rs:467-499` `sinks`, on nodes in descending order. -/
def sinks (under : Nat → Nat → Bool) : Nat → List Nat → List Nat
  | 0, _ => []
  | _ + 1, [] => []
  | f + 1, x :: xs => x :: sinks under f (xs.filter fun y => !under y x)

/-- `astgraph.rs:625-632` `detect_var`. -/
def detectVar (A : Ast T) (op : Nat) : Bool :=
  (List.range A.count).any fun n => (A.var n).isSome && A.under op n

def types : Ty.Kn T → List T
  | .inferred ts => ts
  | _ => []

def insert (n : Nat) : List Nat → List Nat
  | [] => [n]
  | m :: ms => if m ≤ n then n :: m :: ms else m :: insert n ms

/-- In descending order. -/
def descending : List Nat → List Nat
  | [] => []
  | n :: ns => insert n (descending ns)

/-- `infer.rs:21-40`: the blocks whose input is to be narrowed. -/
def narrowable (A : Ast T) (s : S T) : List Nat :=
  let ns := descending (A.ops.filter fun n => decide (n ∉ s.ops) && (s.tg.kn n .inp).isMultiple &&
    (Loc.isSealedAt s.lg (A.place n) || !detectVar A n))
  sinks A.under ns.length ns

/-- `infer.rs:197-239` `trial_inferred_types`, one type. -/
def attempt (A : Ast T) (I : Builtins T) (s : S T) (op : Nat) (t : T) : Infer.Attempt :=
  let o := compileBlock A I s op t
  ⟨match o.res with | .ok _ => true | .error _ => false, o.infers, o.chgs.any Chg.isLg⟩

/-- The types found to fail. -/
def failing (A : Ast T) (I : Builtins T) (s : S T) : List (Chg T) :=
  (narrowable A s).flatMap fun op =>
    (Infer.blockFailures (attempt A I s op) (types (s.tg.kn op .inp))).map fun t => .ty (.remove op .inp t)

def panics : Except Err T → Bool
  | .error .crash => true
  | _ => false

/-- Whether one of the attempts panics. -/
def attemptPanics (A : Ast T) (I : Builtins T) (s : S T) : Bool :=
  (narrowable A s).any fun op => (types (s.tg.kn op .inp)).any fun t => panics (compileBlock A I s op t).res

/-- `infer.rs:7-12, 19-48` `infer_inputs_block`. -/
def narrow (A : Ast T) (I : Builtins T) (s : S T) : Except Err (S T × Bool) :=
  if attemptPanics A I s then .error .crash else applyAll A s false (failing A I s)

/-- How compiling goes from a given state, up to the given expression; `none` if that has not ended. -/
abbrev Inner (T : Type) := Nat → S T → Option (Except Err (S T))

/-- `infer.rs:274-290`: the copy of the compiler in which a type is tried. -/
def trialState (A : Ast T) (s : S T) (n : Nat) (sd : Ty.Side) (t : T) : Except Err (S T × Bool) :=
  applyAll A { s with depth := s.depth + 1 } false [.ty (.oblige n sd t)]

/-- `infer.rs:288-316`: how a trial ended. A panic ends everything, as the depth limit does. -/
def judge : Except Err (S T) → Infer.Trial (S T) Err
  | .ok c => .compiled c
  | .error .depth => .depth .depth
  | .error .crash => .depth .crash
  | .error .expect => .depth .expect
  | .error _ => .failed

/-- `infer.rs:274-316`, one type. -/
def trial (A : Ast T) (inner : Inner T) (s : S T) (brk n : Nat) (sd : Ty.Side) (t : T) : Option (Infer.Trial (S T) Err) :=
  match trialState A s n sd t with
  | .error .crash => some (.depth .crash)
  | .error _ => some .rejected
  | .ok (s', _) => (inner brk s').map judge

/-- `infer.rs:256-323` `test_compile_types`. The trials are independent of each other. -/
def test (A : Ast T) (inner : Inner T) (s : S T) (brk : Nat → Nat) (sd : Ty.Side) (n : Nat) :
    Option (Except (Infer.Err T Err) (S T)) :=
  if (types (s.tg.kn n sd)).all fun t => (trial A inner s (brk n) n sd t).isSome then
    some (Infer.testTypes (fun t => (trial A inner s (brk n) n sd t).getD .rejected) (types (s.tg.kn n sd)))
  else none

/-- How the loop over the nodes to infer ends (`infer.rs:106-119`, `:168-181`). -/
def conclude (A : Ast T) (s : S T) (sd : Ty.Side) : Infer.Outcome T (S T) Err Nat → Except Err (S T × Bool)
  | .next c => .ok (c, true)
  | .remove cs => applyAll A s false (cs.map fun c => .ty (.remove c.1 sd c.2))
  | .fail _ (.depthLimit e) => .error e
  | .fail _ _ => .error .soft
  | .nothing => .ok (s, false)

/-- `infer.rs:48-119` `infer_inputs_tgt_shallow_expr` and `:122-182` `infer_outputs`, given the nodes. -/
def inferNodes (A : Ast T) (inner : Inner T) (s : S T) (brk : Nat → Nat) (sd : Ty.Side) (ns : List Nat) :
    Option (Except Err (S T × Bool)) :=
  if s.depth < 5 then
    if ns.all fun n => (test A inner s brk sd n).isSome then
      some (conclude A s sd (Infer.nodesLoop (fun n => (test A inner s brk sd n).getD (.error .noTypes)) ns [] none))
    else none
  else some (.error .depth)

/-- `infer.rs:125-137`: the nodes flagged for output inference, without repetitions, deepest first. -/
def flagged (s : S T) : List Nat :=
  (descending s.outs).eraseDups.filter fun n => (s.tg.kn n .out).isMultiple

/-- `infer.rs:50-73`: the outermost expressions whose input is not known. -/
def shallow (A : Ast T) (s : S T) : List Nat :=
  let set := A.exprs.filter fun e => decide (e ∉ s.exprs) && (s.tg.kn e .inp).isMultiple
  set.filter fun e => decide (((A.path e).filter fun n => n ∈ set).length = 1)

/-- `comp/mod.rs:173-187`: inferring the inputs of expressions. The code visits them in the order of a hash set; `ord` is
that order. -/
def inferExprs (A : Ast T) (ord : List Nat → List Nat) (inner : Inner T) (s : S T) : Option (Except Err (S T)) :=
  match inferNodes A inner s id .inp (ord (shallow A s)) with
  | none => none
  | some (.ok (s, true)) => some (.ok s)
  | some (.ok (_, false)) => some (.error .soft)
  | some (.error e) => some (.error e)

/-- `comp/mod.rs:164-172`: inferring outputs; the flagged nodes are forgotten. -/
def inferOutputs (A : Ast T) (ord : List Nat → List Nat) (inner : Inner T) (s : S T) : Option (Except Err (S T)) :=
  match inferNodes A inner { s with outs := if s.depth < 5 then [] else s.outs } A.parent .out (flagged s) with
  | none => none
  | some (.ok (s, true)) => some (.ok s)
  | some (.ok (s, false)) => inferExprs A ord inner s
  | some (.error .soft) => inferExprs A ord inner { s with outs := [] }
  | some (.error e) => some (.error e)

/-- `comp/mod.rs:150-187`: from compiling the blocks on. -/
def blocksStage (A : Ast T) (I : Builtins T) (ord : List Nat → List Nat) (inner : Inner T) (s : S T) :
    Option (Except Err (S T)) :=
  match compileBlocks A I s with
  | .stop e => some (.error e)
  | .again s => some (.ok s)
  | .failed s _ => match narrow A I s with
    | .ok (s, true) => some (.ok s)
    | .ok (s, false) => inferOutputs A ord inner s
    | .error e => some (.error e)

/-- `comp/mod.rs:131-187`: one round of the loop: go on with a compiler, or return an error. -/
def round (A : Ast T) (I : Builtins T) (ord : List Nat → List Nat) (inner : Inner T) (s : S T) : Option (Except Err (S T)) :=
  match resolveTg s with
  | .error e => some (.error e)
  | .ok s =>
    if (complete A s).isEmpty then
      match assignVariables A s with
      | .error e => some (.error e)
      | .ok (s, true) => some (.ok s)
      | .ok (s, false) => match defLocals A s with
        | .error e => some (.error e)
        | .ok (s, true) => some (.ok s)
        | .ok (s, false) => match linkArgs A s with
          | (s, true) => some (.ok s)
          | (s, false) => blocksStage A I ord inner s
    else some (.ok { s with exprs := s.exprs ++ complete A s })

/-- `comp/mod.rs:125-187` `compile`, up to the expression `brk`. The first argument bounds the number of rounds; `none` if
that is not enough. -/
def compile (A : Ast T) (I : Builtins T) (ord : List Nat → List Nat) : Nat → Inner T
  | 0, _, _ => none
  | f + 1, brk, s =>
    if brk ∈ s.exprs then some (.ok s)
    else match round A I ord (compile A I ord f) s with
      | none => none
      | some (.error e) => some (.error e)
      | some (.ok s') => compile A I ord f brk s'

end Verif.Comp
