import Verif.Model.LangProg
/-! C81: the built-in commands are for the inputs they are listed for. -/
set_option linter.unusedSimpArgs false
namespace Verif.Lang
open Verif Verif.Comp Verif.Prog
variable {N : Type}

/-- The type of input a command is listed for. -/
def listedFor : String → Tab.Ty
  | "Nil" => .nil
  | "Bool" => .bool
  | "Num" => .num
  | "Str" => .str
  | "Table" => .tab
  | "TableRow" => .tabRow
  | s => .def_ s

/-- The command rejects its use before it looks at an argument. -/
def rejects : Talk Tab.Ty (Tab.Value N) → Prop
  | .fail _ => True
  | .tell _ k => rejects k
  | _ => False

/-- `ren` never rejects its table at once. -/
theorem ren_accepts (W : World N) (n : Nat) (ms : List Bool) : ¬ rejects (renTalk W [] n ms) := by
  cases n with
  | zero => simp [renTalk, fin, rejects]
  | succ n => simp [renTalk, rejects]

/-- A command listed for a type of input takes such an input: with an argument and without flags, it is not rejected at once. -/
theorem listed_accepted (W : World N) (op n : Nat) (hn : 0 < n) (hf : W.flags op = []) :
    ∀ x ∈ installed, ∀ s, x.2.1 = some s → ¬ rejects (talk W op n (listedFor s) x.2.2) := by
  obtain ⟨n, rfl⟩ : ∃ m, n = m + 1 := ⟨n - 1, by omega⟩
  simp only [installed, List.forall_mem_cons]
  and_intros
  all_goals first
    | (intro x hx; cases hx; done)
    | (intro s hs
       first
       | (cases hs; done)
       | (injection hs with hs
          subst hs
          simp [talk, listedFor, rejects, variadic, unary, binary, addTabTalk, ignoring, ordTy, tabTalk, hf, fin, takeFlag, countTalk, appendTalk,
            appendRowTalk, dedupTalk, filterTalk, foldTalk, foldWhileTalk, grpTalk, grpByTalk, mapTalk, pickTalk, renWithTalk, sortByTalk, getRowTalk,
            nthTalk, toStrNumTalk, Talk.argAs, Talk.arg, Talk.args, Talk.argsAs, colNames, typeFlag, ren_accepts]
          done)
       | (injection hs with hs
          subst hs
          simp [talk, listedFor, tabTalk, hf, filterTalk, takeFlag, typeFlag]
          split <;> simp [rejects, Talk.argAs, Talk.arg]
          done))

/-- The commands that do not look at the type of their input. -/
def careless : Cmd → Prop
  | .pick => True
  | .cmpNil => True
  | .eqNil => True
  | _ => False

/-- Given another type of input, a command listed for one is rejected, unless it does not look at it. -/
theorem listed_only (W : World N) (op n : Nat) :
    ∀ x ∈ installed, ∀ s, x.2.1 = some s → ¬ careless x.2.2 → ∀ t, t ≠ listedFor s → rejects (talk W op n t x.2.2) := by
  simp only [installed, List.forall_mem_cons]
  and_intros
  all_goals first
    | (intro x hx; cases hx; done)
    | (intro s hs hc t ht
       first
       | (cases hs; done)
       | (exact absurd trivial hc)
       | (injection hs with hs
          subst hs
          simp [listedFor] at ht
          simp [talk, rejects, variadic, unary, binary, addTabTalk, ignoring, ordTy, tabTalk, fin, takeFlag, countTalk, appendTalk,
            appendRowTalk, dedupTalk, filterTalk, foldTalk, foldWhileTalk, grpTalk, grpByTalk, mapTalk, pickTalk, renWithTalk, sortByTalk, getRowTalk,
            nthTalk, toStrNumTalk, Talk.argAs, Talk.arg, Talk.args, Talk.argsAs, colNames, typeFlag, ht]
          done))

/-- Both happen: `len` for strings, which is not the `len` for tables. -/
example (W : World N) (hf : W.flags 0 = []) :
    ¬ rejects (talk W 0 1 .str .lenStr) ∧ rejects (talk W 0 1 .tab .lenStr) :=
  ⟨listed_accepted W 0 1 Nat.one_pos hf ("len", some "Str", .lenStr) (by simp [installed]) "Str" rfl,
   listed_only W 0 1 ("len", some "Str", .lenStr) (by simp [installed]) "Str" rfl (fun h => h) .tab (by simp [listedFor])⟩

end Verif.Lang
