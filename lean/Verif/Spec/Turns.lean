import Verif.Model.Turns
/-! What C86 says: the shell as if it did one line after the other. -/
namespace Verif.Turns
variable {D L O : Type}

/-- The line is evaluated; `none`: it was aborted, and nothing is shown. -/
inductive Gives (P : Prog D L O) (l : L) (d : D) : Option O → Prop
  | shown {o} : P.eval l d = some o → Gives P l d (some o)
  | aborted : Gives P l d none

/-- One line, with the definitions before, what is shown, and the definitions after. -/
inductive Does (P : Prog D L O) : D → L → Option O → D → Prop
  | other {d l} : P.kind l = .other → Does P d l (some (P.answer l d)) d
  | define {d l d' o} : P.kind l = .define → P.define l d = some (d', o) → P.follows l d = false → Does P d l (some o) d'
  | defineOn {d l d' o r} : P.kind l = .define → P.define l d = some (d', o) → P.follows l d = true → Gives P l d' r → Does P d l r d'
  | expr {d l r} : P.kind l = .expr ∨ P.kind l = .batch → Gives P l d r → Does P d l r d

/-- One line after the other. -/
inductive Lines (P : Prog D L O) (d0 : D) : List (L × Option O) → D → Prop
  | nil : Lines P d0 [] d0
  | snoc {log d l r d'} : Lines P d0 log d → Does P d l r d' → Lines P d0 (log ++ [(l, r)]) d'

/-- The lines entered. -/
def entries : List (Act L) → List L
  | [] => []
  | .enter l :: as => l :: entries as
  | _ :: as => entries as

/-- The shell waits for a line. -/
def State.busy (s : State D L O) : Prop := ∃ l x, s.ui = .busy l x

/-- What the shell can wait for in vain. -/
inductive Hangs (P : Prog D L O) (s : State D L O) : Prop
  /-- the compute thread has panicked -/
  | panicked : s.comp = .dead → Hangs P s
  /-- the evaluation has panicked, and was not aborted -/
  | failed {i : Nat} : s.comp = .poll i → s.cancel = false → s.jobs[i]? = some .dead → Hangs P s
  /-- it does not end, and was not aborted -/
  | endless {i : Nat} {l : L} : s.comp = .poll i → s.cancel = false → s.jobs[i]? = some (.read l) → P.ends l s.defs = false → Hangs P s
  | endlessBatch {i : Nat} {l : L} {d : D} : s.comp = .poll i → s.cancel = false → s.jobs[i]? = some (.own l d) → P.ends l d = false → Hangs P s
  /-- a definition waits for an evaluation that was aborted before and does not end -/
  | blocked {l : L} {i : Nat} {m : L} : s.comp = .claimed l → s.jobs[i]? = some (.read m) → P.ends m s.defs = false → Hangs P s
  /-- a definition waits for an evaluation that was aborted before, which waits for the definition -/
  | deadlock {l : L} {i : Nat} {m : L} {o : O} : s.comp = .claimed l → s.jobs[i]? = some (.wait m o) → Hangs P s

/-- The steps of the threads that do something for the line. -/
inductive Works : Act L → Prop
  | take : Works .take
  | compute : Works .compute
  | job {i} : Works (.job i)

/-- What happens from now on, without an end, until the prompt is there. Who can always do something does it some time. -/
structure Fair (P : Prog D L O) (f : Nat → State D L O) (a : Nat → Act L) : Prop where
  steps : ∀ n, (f n).busy → Step P (a n) (f n) (f (n + 1))
  fair : ∀ x, Works x → ∀ n, (∀ m, n ≤ m → ∃ t, Step P x (f m) t) → ∃ m, n ≤ m ∧ a m = x

/-- Lines are taken and evaluated without a panic, evaluation ends, and none gives help with examples. -/
structure Tame (P : Prog D L O) : Prop where
  define : ∀ l d, P.define l d ≠ none
  eval : ∀ l d, P.eval l d ≠ none
  ends : ∀ l d, P.ends l d = true
  again : ∀ l d, P.again l d = false

end Verif.Turns
