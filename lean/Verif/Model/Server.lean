import Verif.Model.LsDoc
/-! Model of the language server's handling of messages: `ogma-ls/server/mod.rs`, `initialize.rs`, `file_mgmt.rs`. -/
namespace Verif.Server
open Verif.LsDoc

/-- `lsp_server::Message`: what the editor sends. `V` stands for JSON values. -/
inductive Msg (V : Type) where
  | request (id : Nat) (method : String) (params : V)
  | notification (method : String) (params : V)
  | response
deriving Repr, DecidableEq

/-- `ogma-ls/server/mod.rs:205-209` `struct Error`. The message is left out. -/
structure RpcError (V : Type) where
  code : Int
  data : Option V
deriving Repr, DecidableEq

/-- `lsp_server::Response`, as it is built at `ogma-ls/server/mod.rs:118-129`. -/
structure Response (V : Type) where
  id : Nat
  result : Option V
  error : Option (RpcError V)
deriving Repr, DecidableEq

/-- `ogma-ls/workspace.rs:28-32` `struct Workspace`. `D` stands for `Definitions`. -/
structure Wsp (T C D : Type) where
  files : String → Option (Doc T C)
  defs : D

/-- What is taken from elsewhere: reading the parameters (`from_value`), applying edits, loading
definitions, and what completion and hovering give. None of these panics here. -/
structure Env (V T C D : Type) where
  isUnit : V → Bool
  isInit : V → Bool
  isCompletion : V → Bool
  isHover : V → Bool
  isSave : V → Bool
  asOpen : V → Option (String × T × Int)
  asChange : V → Option (String × Change C)
  apply : T → C → T
  load : (String → Option (Doc T C)) → D
  null : V
  capabilities : V
  noRetry : V
  complete : Wsp T C D → V → V
  hover : Wsp T C D → V → V

variable {V T C D : Type}

/-- `ogma-ls/server/mod.rs:221-241` `InvalidParams`. -/
def invalidParams : Int := -32602

/-- `ogma-ls/server/mod.rs:265-296` `RpcRequest::call`: `good` says whether `from_value` succeeds, `result` is what
the method gives (none of the registered ones gives an error), `data` is `invalid_params`. -/
def rpc (good : Bool) (result : V) (data : Option V) : Except (RpcError V) V :=
  if good then .ok result else .error ⟨invalidParams, data⟩

/-- The request handlers: `ogma-ls/server/mod.rs:72` and `:164-171` (`shutdown`), `initialize.rs:9-39`,
`completion.rs:9-18` and `:58-60`, `hover.rs:8-19` and `:50-52`. -/
def request (env : Env V T C D) (w : Wsp T C D) (p : V) : String → Option (Except (RpcError V) V)
  | "shutdown" => some (rpc (env.isUnit p) env.null none)
  | "initialize" => some (rpc (env.isInit p) env.capabilities (some env.noRetry))
  | "textDocument/completion" => some (rpc (env.isCompletion p) (env.complete w p) none)
  | "textDocument/hover" => some (rpc (env.isHover p) (env.hover w p) none)
  | _ => none

/-- The keys of `request_handlers`. -/
def requestHandlers : List String := ["shutdown", "initialize", "textDocument/completion", "textDocument/hover"]

/-- The keys of `notifications_handlers`: `ogma-ls/server/mod.rs:73`, `file_mgmt.rs:35-39`. -/
def notificationHandlers : List String :=
  ["exit", "textDocument/didOpen", "textDocument/didChange", "textDocument/didSave"]

/-- What the server says it can be asked for, `ogma-ls/server/initialize.rs:19-28`. -/
def announced : List String :=
  ["textDocument/completion", "textDocument/hover", "textDocument/definition"]

/-- The server: messages not yet received, closures given to `rayon::spawn` and not yet carried out, answers sent,
the workspace, and whether the process has ended. -/
structure Server (V T C D : Type) where
  inbox : List (Msg V)
  tasks : List (Msg V)
  sent : List (Response V)
  wsp : Wsp T C D
  exited : Bool

/-- `ogma-ls/server/mod.rs:103-111` `run`, `:113-135` `handle_req`, `:137-144` `handle_notification`: what a message
spawns. -/
def spawned : Msg V → List (Msg V)
  | .request id m p => if m ∈ requestHandlers then [.request id m p] else []
  | .notification m p => if m ∈ notificationHandlers then [.notification m p] else []
  | .response => []

/-- `ogma-ls/workspace.rs:43-45` `add_file`. -/
def addFile (w : Wsp T C D) (url : String) (d : Doc T C) : Wsp T C D :=
  { w with files := fun u => if u = url then some d else w.files u }

/-- `ogma-ls/workspace.rs:47-51` `add_file_changes`. -/
def addFileChanges (env : Env V T C D) (w : Wsp T C D) (url : String) (c : Change C) : Wsp T C D :=
  match w.files url with
  | some d => addFile w url (d.addChanges env.apply c)
  | none => w

/-- `ogma-ls/workspace.rs:130-140` `def_load`. -/
def defLoad (env : Env V T C D) (w : Wsp T C D) : Wsp T C D := { w with defs := env.load w.files }

/-- The notification handlers: `ogma-ls/server/file_mgmt.rs:7-33`; parameters that cannot be read are ignored,
`mod.rs:303-305`. `exit` is treated in `carryOut`. -/
def notify (env : Env V T C D) (w : Wsp T C D) (p : V) : String → Wsp T C D
  | "textDocument/didOpen" =>
    match env.asOpen p with
    | some (url, text, version) => defLoad env (addFile w url (Doc.new text version))
    | none => w
  | "textDocument/didChange" =>
    match env.asChange p with
    | some (url, c) => addFileChanges env w url c
    | none => w
  | "textDocument/didSave" => if env.isSave p then defLoad env w else w
  | _ => w

/-- A spawned closure is carried out: `ogma-ls/server/mod.rs:117-131` and `:140`. Simplified: in one step, although
the locks of the workspace are taken several times; the channel is open. -/
def carryOut (env : Env V T C D) (s : Server V T C D) : Msg V → Server V T C D
  | .request id m p =>
    match request env s.wsp p m with
    | some (.ok v) => { s with sent := s.sent ++ [⟨id, some v, none⟩] }
    | some (.error e) => { s with sent := s.sent ++ [⟨id, none, some e⟩] }
    | none => s
  | .notification m p =>
    if m = "exit" then { s with exited := s.exited || env.isUnit p }
    else { s with wsp := notify env s.wsp p m }
  | .response => s

/-- What happens next: the loop receives a message, or the pool carries out one of the closures. -/
inductive Choice where
  | receive
  | carry (i : Nat)
deriving Repr, DecidableEq

/-- One step. The pool has several threads and takes the closures in any order. -/
def step (env : Env V T C D) (s : Server V T C D) (c : Choice) : Server V T C D :=
  if s.exited then s else
  match c with
  | .receive =>
    match s.inbox with
    | [] => s
    | m :: ms => { s with inbox := ms, tasks := s.tasks ++ spawned m }
  | .carry i =>
    match s.tasks[i]? with
    | none => s
    | some t => carryOut env { s with tasks := s.tasks.eraseIdx i } t

/-- The server as it starts, with what the editor is going to send. -/
def start (w : Wsp T C D) (msgs : List (Msg V)) : Server V T C D := ⟨msgs, [], [], w, false⟩

/-- The server after some steps. -/
def after (env : Env V T C D) (s : Server V T C D) (sched : List Choice) : Server V T C D :=
  sched.foldl (step env) s

end Verif.Server
