import Verif.Model.NotFound
import Verif.Lemmas.Defs
import Verif.Lemmas.Map
/-! C103: the message about a missing command says what there is. -/
namespace Verif.NotFound
open Verif.Defs

theorem mem_keysOf {d : Defs} (hw : d.Wf) (op : String) (k : Option Ty) : k ∈ keysOf d op ↔ (d.entry op k).isSome = true := by
  unfold keysOf Defs.entry
  cases hg : AMap.get d.impls op with
  | none => cases k <;> simp
  | some ks =>
    obtain ⟨hk, _⟩ := hw.keys op ks hg
    obtain ⟨tys, ag⟩ := ks
    dsimp only at hk ⊢
    cases k with
    | none => cases ag <;> simp
    | some t =>
      have : (AMap.get tys t).isSome = true ↔ t ∈ tys.map (·.1) := by
        cases h : AMap.get tys t with
        | none => simpa using AMap.get_none.1 h
        | some i => simpa using ⟨i, AMap.mem_of_get h⟩
      simp only [Option.bind_some, this]
      cases ag <;> simp

theorem nodup_keysOf {d : Defs} (hw : d.Wf) (op : String) : (keysOf d op).Nodup := by
  unfold keysOf
  cases hg : AMap.get d.impls op with
  | none => simp
  | some ks =>
    obtain ⟨hk, _⟩ := hw.keys op ks hg
    obtain ⟨tys, ag⟩ := ks
    dsimp only at hk ⊢
    have h1 : (tys.map fun x => some x.1).Nodup := by
      have : (tys.map fun x => some x.1) = (tys.map (·.1)).map some := by simp
      rw [this]
      exact List.Pairwise.map _ (fun a b h => by simpa using h) hk
    cases ag with
    | none => simpa using h1
    | some i =>
      dsimp only
      rw [List.nodup_append]
      refine ⟨h1, by simp, ?_⟩
      intro a ha b hb
      simp only [List.mem_singleton] at hb
      subst hb
      rintro rfl
      simp at ha

theorem fold_text (ts : List (Option Ty)) : ∀ s : String, ts.foldl (fun s t => s ++ " " ++ tyStr t) s =
    s ++ String.join (ts.map fun t => " " ++ tyStr t) := by
  induction ts with
  | nil => intro s; simp
  | cons t ts ih => intro s; rw [List.foldl_cons, ih]; simp [String.append_assoc]

/-- How a type is written in a program. -/
def written : Ty → String
  | .nil => "Nil"
  | .bool => "Bool"
  | .num => "Num"
  | .str => "Str"
  | .tab => "Table"
  | .tabRow => "TableRow"
  | .def_ n => n

/-- How a type is listed: as it is written, but for two of them. -/
def listed (t : Ty) : String := if t = .num then "Number" else if t = .str then "String" else written t

theorem tyText_eq (t : Ty) : tyText t = listed t := by cases t <;> simp [tyText, listed, written]

/-- C103. In every session: if a command gets an input it has no implementation for, the message says so. If the command
is defined for other inputs, all types it can take are listed, each once and nothing else; if it is not defined at all,
the user is told how to get a list.
Partial: numbers and texts are not listed by their names (`number_is_no_name`). -/
theorem types_are_listed_partial (checked : Bool) (os : List Op) (d : Defs) (hrun : run checked base os = some d)
    (op : String) (t : Ty) (keys : List (Option Ty)) (hk : keys.Perm (keysOf d op)) :
    (d.getImpl op t ≠ none → compileMsg d op t keys = none) ∧
    (d.getImpl op t = none → ∃ help, compileMsg d op t keys =
        some ("`" ++ op ++ "` not defined for input `" ++ listed t ++ "`", help) ∧
      ((∃ u, d.getImpl op u ≠ none) →
        ∃ ts : List Ty, help = "`" ++ op ++ "` is implemented for the following input types:" ++
            String.join (ts.map fun u => " " ++ listed u) ∧ ts.Nodup ∧ ∀ u, u ∈ ts ↔ d.getImpl op u ≠ none) ∧
      ((∀ u, d.getImpl op u = none) → help = "view a list of definitions using `def --list`")) := by
  have hw := reach_wf base_wf (run_reach (fun _ => True) (fun _ => True) checked base os base d .refl
    (fun _ _ _ _ => trivial) (fun _ _ _ _ => trivial) hrun)
  refine ⟨?_, ?_⟩
  · intro h
    unfold compileMsg
    cases hg : d.getImpl op t with
    | none => exact absurd hg h
    | some i => rfl
  · intro h
    refine ⟨helpText op false keys, ?_, ?_⟩
    · unfold compileMsg
      rw [h]
      simp [noteText, tyStr, tyText_eq]
    · -- no implementation is for every type
      have hany : d.entry op none = none := by
        rw [getImpl_entry] at h
        split at h
        · cases h
        · exact h
      have himp : ∀ u, d.getImpl op u ≠ none ↔ some u ∈ keysOf d op := by
        intro u
        rw [mem_keysOf hw, getImpl_entry]
        cases d.entry op (some u) <;> simp [hany]
      have hnone : none ∉ keys := by
        intro hm
        have := (mem_keysOf hw op none).1 (hk.mem_iff.1 hm)
        rw [hany] at this
        cases this
      have hts : ∃ ts : List Ty, keys = ts.map some := by
        clear hk himp
        induction keys with
        | nil => exact ⟨[], rfl⟩
        | cons a as ih =>
          obtain ⟨ts, rfl⟩ := ih (fun hm => hnone (by simp [hm]))
          cases a with
          | none => simp at hnone
          | some a => exact ⟨a :: ts, rfl⟩
      obtain ⟨ts, rfl⟩ := hts
      have hmem : ∀ u, u ∈ ts ↔ d.getImpl op u ≠ none := by
        intro u
        rw [himp, ← hk.mem_iff]
        simp
      refine ⟨?_, ?_⟩
      · rintro ⟨u, hu⟩
        refine ⟨ts, ?_, ?_, hmem⟩
        · unfold helpText
          have : ts ≠ [] := by rintro rfl; exact absurd ((hmem u).2 hu) (by simp)
          rw [if_neg (by simp), if_neg (by simpa using this), fold_text]
          simp [List.map_map, Function.comp_def, tyStr, tyText_eq]
        · have := (hk.nodup_iff).2 (nodup_keysOf hw op)
          exact List.Pairwise.of_map some (fun a b h => by simpa using h) this
      · intro hex
        have : ts = [] := by
          cases ts with
          | nil => rfl
          | cons u us => exact absurd (hex u) ((hmem u).1 (by simp))
        subst this
        rfl

/-- C103. If a definition is refused as one of its commands is not there, the first such command is named, in the order
they are looked at. The user is told that recursion is not supported if and only if it is the command being defined. -/
theorem first_missing_is_named (d : Defs) (order : String → List (Option Ty)) (ho : ∀ op, (order op).Perm (keysOf d op)) (name : String) (ops : List String) :
    ((∀ op ∈ ops, d.containsOp op = true) ∧ defMsg d order name ops = none) ∨
    ∃ before op after help, ops = before ++ op :: after ∧ (∀ o ∈ before, d.containsOp o = true) ∧ d.containsOp op = false ∧
      defMsg d order name ops = some ("`" ++ op ++ "` not defined for input `<any>`", help) ∧
      (("recursion is not supported.".toList <+: help.toList) ↔ op = name) ∧
      (op ≠ name → help = "view a list of definitions using `def --list`") := by
  induction ops with
  | nil => exact Or.inl ⟨by simp, rfl⟩
  | cons o ops ih =>
    by_cases h : d.containsOp o = true
    · rcases ih with ⟨h1, h2⟩ | ⟨b, op, a, help, rfl, h2, h3, h4, h5⟩
      · exact Or.inl ⟨by simpa [h] using h1, by simp [defMsg, h, h2]⟩
      · exact Or.inr ⟨o :: b, op, a, help, rfl, by simpa [h] using h2, h3, by simp [defMsg, h, h4], h5⟩
    · have h' : d.containsOp o = false := by simpa using h
      have hk : order o = [] := by
        have : keysOf d o = [] := by
          unfold keysOf
          unfold Defs.containsOp AMap.has at h'
          cases hg : AMap.get d.impls o with
          | none => rfl
          | some k => rw [hg] at h'; cases h'
        have := ho o
        simp_all
      refine Or.inr ⟨[], o, ops, helpText o (decide (o = name)) (order o), rfl, by simp, h', ?_, ?_, ?_⟩
      · have e : "`" ++ o ++ "` not defined for input `" ++ "<any>" ++ "`" = "`" ++ o ++ "` not defined for input `<any>`" := by
          simp only [String.append_assoc]
          rfl
        simp [defMsg, h', noteText, tyStr, e]
      · by_cases e : o = name
        · subst e
          simp only [helpText, hk, decide_true, if_true, iff_true]
          decide +kernel
        · simp only [helpText, hk, e, decide_false, Bool.false_eq_true, if_false, List.isEmpty_nil, if_true, iff_false]
          decide +kernel
      · intro e
        simp [helpText, hk, e]

/-- **The code violates C103**: `abs` is listed as being there for `Number`, but there is no type with this name; and once
the user has made one, `abs` is not there for it. -/
theorem number_is_no_name :
    compileMsg base "abs" .tab (keysOf base "abs") =
      some ("`abs` not defined for input `Table`", "`abs` is implemented for the following input types: Number") ∧
    tyOf base.types "Number" = none ∧
    (run true base [.shell (.type_ "Number" (.product [⟨"x", "Num", []⟩]))]).map (fun d =>
      (compileMsg d "abs" (.def_ "Number") (keysOf d "abs"), tyOf d.types "Number")) =
      some (some ("`abs` not defined for input `Number`", "`abs` is implemented for the following input types: Number"),
        some (.def_ "Number")) := by decide +kernel

-- the hypotheses can be met
example : ∃ d, run true base [.shell (.impl "foo" (some "Table") ["len"] "def foo Table () { len }"),
      .shell (.impl "foo" (some "Ord") ["len"] "def foo Ord () { 3 }")] = some d ∧ d.getImpl "foo" .num = none ∧
    compileMsg d "foo" .num (keysOf d "foo") =
      some ("`foo` not defined for input `Number`", "`foo` is implemented for the following input types: Table Ord") ∧
    defMsg d (keysOf d) "bar" ["len", "bar", "baz"] ≠ none := by
  cases h : run true base [.shell (.impl "foo" (some "Table") ["len"] "def foo Table () { len }"),
      .shell (.impl "foo" (some "Ord") ["len"] "def foo Ord () { 3 }")] with
  | none => exact absurd h (by decide +kernel)
  | some d =>
    refine ⟨d, rfl, ?_⟩
    have : (some d).all (fun d => decide (d.getImpl "foo" .num = none ∧
      compileMsg d "foo" .num (keysOf d "foo") =
      some ("`foo` not defined for input `Number`", "`foo` is implemented for the following input types: Table Ord") ∧
      defMsg d (keysOf d) "bar" ["len", "bar", "baz"] ≠ none)) = true := by
      rw [← h]
      decide +kernel
    simpa using this

end Verif.NotFound
