import Verif.Model.Step
/-! Specification of evaluation without slots: names are looked up in the lexical environment. An argument expression or a
command evaluates to a value only; nothing it binds is seen by anyone else. -/
namespace Verif.Lexical
open Verif.Step

/-- What a name stands for: a value, or an unevaluated argument of the enclosing call, which is evaluated with the input
of the place that uses it and in the environment of the call. -/
inductive Den (V W E : Type)
  | val (v : V)
  | thunk (f : V → W → Out E V × W)

abbrev LEnv (V W E : Type) := String → Option (Den V W E)

/-- A variable that a command declares: for one of its arguments, or for the blocks after it. -/
abbrev Key := Option Nat × String

def keysOf (lets injs : List (Nat × String)) : List Key :=
  lets.map (fun t => (none, t.2)) ++ injs.map fun t => (some t.1, t.2)

/-- The environment of an argument (`some i`) or of the next block (`none`), given the variables set so far. -/
def bindKeys {V W E : Type} (keys : List Key) (σ : Key → Option V) (at_ : Option Nat) (ρ : LEnv V W E) : LEnv V W E :=
  fun x => if (at_, x) ∈ keys then (σ (at_, x)).map .val else ρ x

/-- A built-in command. The arguments get the variables set so far. -/
def runProg {V W E : Type} (args : List ((Key → Option V) → V → W → Out E V × W)) (keys : List Key) :
    Prog V W E → (Key → Option V) → W → Out E (V × (Key → Option V)) × W
  | .ret v, σ, w => (.ok (v, σ), w)
  | .fail e, _, w => (.err e, w)
  | .act f k, σ, w =>
    match f w with
    | (w, .ok v) => runProg args keys (k v) σ w
    | (w, .error e) => (.err e, w)
  | .resolve i x k, σ, w =>
    match args[i]? with
    | none => (.panic, w)
    | some f =>
      match f σ x w with
      | (.ok v, w) => runProg args keys (k (.ok v)) σ w
      | (.err e, w) => runProg args keys (k (.error e)) σ w
      | (.panic, w) => (.panic, w)
  | .setv j v k, σ, w =>
    match keys[j]? with
    | none => (.panic, w)
    | some key => runProg args keys k (fun key' => if key' = key then some v else σ key') w

/-- The environment of the body of a definition: its parameters and nothing else. -/
def bindParams {V W E : Type} : List (String × Bool) → List (V → W → Out E V × W) → V → LEnv V W E → W → Out E (LEnv V W E) × W
  | [], [], _, ρ, w => (.ok ρ, w)
  | (x, true) :: ps, f :: fs, i, ρ, w => bindParams ps fs i (fun y => if y = x then some (.thunk f) else ρ y) w
  | (x, false) :: ps, f :: fs, i, ρ, w =>
    match f i w with
    | (.ok v, w) => bindParams ps fs i (fun y => if y = x then some (.val v) else ρ y) w
    | (.err e, w) => (.err e, w)
    | (.panic, w) => (.panic, w)
  | _, _, _, _, w => (.panic, w)

mutual
def arg {V W E : Type} (ρ : LEnv V W E) : SArg V W E → V → W → Out E V × W
  | .lit v, _, w => (.ok v, w)
  | .var x, i, w =>
    match ρ x with
    | some (.val v) => (.ok v, w)
    | some (.thunk f) => f i w
    | none => (.panic, w)
  | .expr body, i, w => blks ρ body i w

/-- The arguments of a call. -/
def args {V W E : Type} (ρ : LEnv V W E) : List (SArg V W E) → List (V → W → Out E V × W)
  | [] => []
  | a :: as => arg ρ a :: args ρ as

/-- The arguments of a built-in command, each with the variables provided to it. -/
def kargs {V W E : Type} (ρ : LEnv V W E) (keys : List Key) (n : Nat) : List (SArg V W E) → List ((Key → Option V) → V → W → Out E V × W)
  | [] => []
  | a :: as => (fun σ => arg (bindKeys keys σ (some n) ρ) a) :: kargs ρ keys (n + 1) as

/-- A block gives a value and the environment of the next block. -/
def blk {V W E : Type} (ρ : LEnv V W E) : SBlk V W E → V → W → Out E (V × LEnv V W E) × W
  | .prim as lets injs prog _, i, w =>
    match runProg (kargs ρ (keysOf lets injs) 0 as) (keysOf lets injs) (prog i) (fun _ => none) w with
    | (.ok (v, σ), w) => (.ok (v, bindKeys (keysOf lets injs) σ none ρ), w)
    | (.err e, w) => (.err e, w)
    | (.panic, w) => (.panic, w)
  | .call _ as params body, i, w =>
    match bindParams params (args ρ as) i (fun _ => none) w with
    | (.ok ρ', w) =>
      match blks ρ' body i w with
      | (.ok v, w) => (.ok (v, ρ), w)
      | (.err e, w) => (.err e, w)
      | (.panic, w) => (.panic, w)
    | (.err e, w) => (.err e, w)
    | (.panic, w) => (.panic, w)

def blks {V W E : Type} (ρ : LEnv V W E) : List (SBlk V W E) → V → W → Out E V × W
  | [], i, w => (.ok i, w)
  | b :: bs, i, w =>
    match blk ρ b i w with
    | (.ok (v, ρ'), w) => blks ρ' bs v w
    | (.err e, w) => (.err e, w)
    | (.panic, w) => (.panic, w)
end

end Verif.Lexical
