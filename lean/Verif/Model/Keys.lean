/-! Model of the queue of keys of the shell: `ogma-shell/interface/events.rs:15-51`, `ogma-shell/interface/mod.rs:254-259`, `:279-283`,
`:669-739`. One thread puts keys into the queue, the thread of the interface takes them out, and a line is evaluated meanwhile. -/
namespace Verif.Keys

/-- What handling a key asks for (`mod.rs:82-89`), as far as it matters here. -/
inductive Eff
  | other
  | eval
  | quit
deriving DecidableEq, Repr

/-- The greatest of both (`mod.rs:258`, the order of `:84-88`). -/
def Eff.max : Eff → Eff → Eff
  | .quit, _ => .quit
  | _, .quit => .quit
  | .eval, _ => .eval
  | _, .eval => .eval
  | _, _ => .other

/-- What became of a key: it was handled, it aborted a line, or it was thrown away. -/
inductive Fate
  | handled
  | aborted
  | dropped
deriving DecidableEq, Repr

/-- What happened, in order: a key was taken, a line began to be evaluated, it ended (and had been aborted or not). -/
inductive Item (K : Type)
  | key (k : K) (f : Fate)
  | began
  | ended (aborted : Bool)
deriving DecidableEq, Repr

/-- What the thread of the interface does: it takes keys (and the greatest result so far); it waits for the line (and whether it
was aborted); it looks for Ctrl+x; or it has left. -/
inductive Phase
  | drain (r : Eff)
  | wait (cancel : Bool)
  | look (cancel : Bool)
  | left
deriving DecidableEq, Repr

structure State (K : Type) where
  queue : List K
  phase : Phase
  log : List (Item K)
deriving DecidableEq, Repr

/-- `mod.rs:236`. -/
def State.init (K : Type) : State K := ⟨[], .drain .other, []⟩

/-- A key is pressed (`events.rs:21-25`), or the thread of the interface goes on: while it waits for the line, since this is
done, or since a second has passed. -/
inductive Act (K : Type)
  | press (k : K)
  | go (done : Bool)
deriving DecidableEq, Repr

variable {K : Type}

/-- One step. `eff` is what handling a key asks for (`mod.rs:296-481`), which depends on all that happened before; `stop`: Ctrl+x. -/
def step (eff : List (Item K) → K → Eff) (stop : K → Bool) (s : State K) : Act K → State K
  | .press k => { s with queue := s.queue ++ [k] }
  | .go done =>
    match s.phase, s.queue with
    -- `mod.rs:255-259`: keys are taken until there is none (`events.rs:35-37`)
    | .drain r, k :: q => ⟨q, .drain (r.max (eff s.log k)), s.log ++ [.key k .handled]⟩
    -- `mod.rs:279-291`
    | .drain .quit, [] => { s with phase := .left }
    | .drain .eval, [] => { s with phase := .wait false, log := s.log ++ [.began] }
    | .drain .other, [] => { s with phase := .drain .other }
    -- `mod.rs:711-712`
    | .wait c, _ => if done then { s with phase := .drain .other, log := s.log ++ [.ended c] } else { s with phase := .look c }
    -- `mod.rs:713-716`
    | .look c, k :: q =>
      if stop k then ⟨q, .wait true, s.log ++ [.key k .aborted]⟩ else ⟨q, .look c, s.log ++ [.key k .dropped]⟩
    | .look c, [] => { s with phase := .wait c }
    | .left, _ => s

/-- Any order of steps. -/
def run (eff : List (Item K) → K → Eff) (stop : K → Bool) (as : List (Act K)) : State K :=
  as.foldl (step eff stop) (State.init K)

end Verif.Keys
