import Verif.Lemmas.Defs
/-! C04–C07: the stores of commands and types. `run checked base os` is the store after the session `os`;
`none` is a panic, which only a build with debug assertions (`checked`) has. -/
namespace Verif.Defs

/-! ### C04 -/

/-- Looking up a built-in for its input type gives the built-in, after any session. -/
theorem typed_builtin_kept (checked : Bool) (os : List Op) (d : Defs) (h : run checked base os = some d)
    (op : String) (t : Ty) (i : Impl) (hb : base.entry op (some t) = some i) :
    d.getImpl op t = some i ∧ d.containsOp op = true := by
  have hr := run_reach (fun _ => True) (fun _ => True) checked base os base d .refl
    (fun _ _ _ _ => trivial) (fun _ _ _ _ => trivial) h
  have := typed_stay hr op t i hb
  exact ⟨by rw [getImpl_entry, this], (containsOp_iff (reach_wf base_wf hr) op).2 ⟨_, _, this⟩⟩

/-- A generic built-in stays as well, when no record type is given the name of a generic built-in. It can
then only be shadowed by a definition for one input type. -/
theorem generic_builtin_kept_partial (checked : Bool) (os : List Op) (d : Defs)
    (hid : ∀ o ∈ os, ∀ r ∈ o.reqs, r.Ident ∧ ¬ r.Clash) (h : run checked base os = some d)
    (op : String) (i : Impl) (hb : base.entry op none = some i) :
    d.entry op none = some i ∧ d.containsOp op = true ∧
      ∀ t, d.entry op (some t) = none → d.getImpl op t = some i := by
  have hr := run_reach (fun r => r.Ident ∧ ¬ r.Clash) (fun _ => True) checked base os base d .refl
    hid (fun _ _ _ _ => trivial) h
  have := generic_stay (fun r h => h) hr op i hb
  refine ⟨this, (containsOp_iff (reach_wf base_wf hr) op).2 ⟨_, _, this⟩, ?_⟩
  intro t ht
  rw [getImpl_entry, ht]; exact this

/-- The claim fails for a record type with the name of a generic built-in: `def-ty if { x:Num }` takes the
place of `if`. -/
theorem record_replaces_builtin :
    (base.entry "if" none = some (.intrinsic .ogma (.builtin "if"))) ∧
    ((run false base [.shell (.type_ "if" (.product [⟨"x", "Num", []⟩]))]).map (·.entry "if" none) =
      some (some (.intrinsic .shell (.ctor "if" 0)))) := by
  decide +kernel

/-- Clearing does not bring the built-in back: the command is then gone. -/
theorem clear_does_not_restore :
    ((run false base [.shell (.type_ "if" (.product [⟨"x", "Num", []⟩])), .shell .clear]).map
      (·.containsOp "if") = some false) := by
  decide +kernel

/-- With debug assertions the same definition panics. -/
theorem record_named_as_builtin_panics :
    run true base [.shell (.type_ "if" (.product [⟨"x", "Num", []⟩]))] = none := by
  decide +kernel

/-- A generic built-in can be shadowed for one input type. -/
theorem generic_builtin_shadowed :
    ((run false base [.shell (.impl "if" (some "Num") [] "def if Num () { }")]).map (·.getImpl "if" .num) =
      some (some (.definition .shell "def if Num () { }"))) := by
  decide +kernel

/-! ### C05 -/

/-- The lookup order: the entry for the type, or else the generic one. -/
theorem lookup_order (d : Defs) (op : String) (t : Ty) :
    (∀ i, d.entry op (some t) = some i → d.getImpl op t = some i) ∧
    (d.entry op (some t) = none → d.getImpl op t = d.entry op none) := by
  rw [getImpl_entry]
  constructor
  · intro i h; rw [h]
  · intro h; rw [h]

/-- Defining a command for one input type makes lookups at that type give the new definition and changes
no other lookup. -/
theorem typed_definition_is_local (checked : Bool) (os : List Op) (d d' : Defs) (loc : Loc) (op t : String)
    (ops : List String) (src : String) (h0 : run checked base os = some d)
    (h : process checked d loc (.impl op (some t) ops src) = .ok d') :
    ∃ ty, tyOf d.types t = some ty ∧ d'.getImpl op ty = some (.definition loc src) ∧ d'.types = d.types ∧
      ∀ op' u, ¬ (op' = op ∧ u = ty) → d'.getImpl op' u = d.getImpl op' u := by
  have hw := reach_wf base_wf (run_reach (fun _ => True) (fun _ => True) checked base os base d .refl
    (fun _ _ _ _ => trivial) (fun _ _ _ _ => trivial) h0)
  simp only [process] at h
  split at h
  · cases h
  · split at h
    · cases h
    · rename_i ty hty
      obtain ⟨_, ht, _, he⟩ := insertImpl_ok hw h
      refine ⟨ty, hty, by rw [getImpl_entry, he]; simp, ht, ?_⟩
      intro op' u hne
      rw [getImpl_entry, getImpl_entry, he, he]
      rw [if_neg (by rintro ⟨rfl, e⟩; cases e; exact hne ⟨rfl, rfl⟩), if_neg (by rintro ⟨_, e⟩; cases e)]

/-- A generic definition is found exactly at the types that have no entry of their own. -/
theorem generic_definition_is_local (checked : Bool) (os : List Op) (d d' : Defs) (loc : Loc) (op : String)
    (ops : List String) (src : String) (h0 : run checked base os = some d)
    (h : process checked d loc (.impl op none ops src) = .ok d') :
    d'.types = d.types ∧
    (∀ t, d'.getImpl op t = match d.entry op (some t) with
      | some i => some i
      | none => some (.definition loc src)) ∧
    ∀ op' t, op' ≠ op → d'.getImpl op' t = d.getImpl op' t := by
  have hw := reach_wf base_wf (run_reach (fun _ => True) (fun _ => True) checked base os base d .refl
    (fun _ _ _ _ => trivial) (fun _ _ _ _ => trivial) h0)
  simp only [process] at h
  split at h
  · cases h
  · obtain ⟨_, ht, _, he⟩ := insertImpl_ok hw h
    refine ⟨ht, ?_, ?_⟩
    · intro t
      rw [getImpl_entry, he, he, if_neg (by simp), if_pos (by simp)]
      cases d.entry op (some t) <;> rfl
    · intro op' t hne
      rw [getImpl_entry, getImpl_entry, he, he, if_neg (fun e => hne e.1.symm), if_neg (fun e => hne e.1.symm)]

/-- Defining a type only adds its constructors, at generic entries. -/
theorem type_definition_is_local (checked : Bool) (os : List Op) (d d' : Defs) (loc : Loc) (name : String)
    (sh : Shape RawField) (h0 : run checked base os = some d)
    (h : process checked d loc (.type_ name sh) = .ok d') :
    ∃ sh', AMap.get d'.types name = some (.def_ ⟨loc, name, sh'⟩) ∧
      (∀ op t, d.entry op (some t) ≠ none → d'.getImpl op t = d.getImpl op t) ∧
      (∀ op t, op ∉ (ctors ⟨loc, name, sh'⟩).map (·.1) → d'.getImpl op t = d.getImpl op t) ∧
      (∀ op ∈ (ctors ⟨loc, name, sh'⟩).map (·.1), ∃ i, (op, i) ∈ ctors ⟨loc, name, sh'⟩ ∧
        d'.entry op none = some (.intrinsic loc (.ctor name i))) := by
  have hw := reach_wf base_wf (run_reach (fun _ => True) (fun _ => True) checked base os base d .refl
    (fun _ _ _ _ => trivial) (fun _ _ _ _ => trivial) h0)
  obtain ⟨sh', _, _, _, ht, h3, h4, h5⟩ := insertType_ok hw h
  refine ⟨sh', by rw [ht, AMap.get_insert, if_pos rfl], ?_, ?_, h5⟩
  · intro op t hne
    rw [getImpl_entry, getImpl_entry, h3]
    cases hx : d.entry op (some t) with
    | none => exact absurd hx hne
    | some i => rfl
  · intro op t hn
    rw [getImpl_entry, getImpl_entry, h3, h4 op hn]

/-! ### C06 -/

/-- Clearing keeps the built-in definitions, and the shell's when only files are cleared, and nothing
else. -/
theorem clear_keeps_exactly (checked : Bool) (os : List Op) (d : Defs) (h0 : run checked base os = some d)
    (onlyFiles : Bool) :
    (∀ op k i, (d.clear onlyFiles).entry op k = some i ↔
      d.entry op k = some i ∧ (i.loc = .ogma ∨ (onlyFiles = true ∧ i.loc = .shell))) ∧
    (∀ n e, AMap.get (d.clear onlyFiles).types n = some e ↔
      AMap.get d.types n = some e ∧
        ∀ td, e = .def_ td → td.loc = .ogma ∨ (onlyFiles = true ∧ td.loc = .shell)) ∧
    (∀ op, (d.clear onlyFiles).containsOp op = true ↔
      ∃ k i, d.entry op k = some i ∧ (i.loc = .ogma ∨ (onlyFiles = true ∧ i.loc = .shell))) := by
  have hw := reach_wf base_wf (run_reach (fun _ => True) (fun _ => True) checked base os base d .refl
    (fun _ _ _ _ => trivial) (fun _ _ _ _ => trivial) h0)
  have hkept : ∀ l : Loc, l.kept onlyFiles = true ↔ (l = .ogma ∨ (onlyFiles = true ∧ l = .shell)) := by
    intro l; cases l <;> simp [Loc.kept]
  have h1 : ∀ op k i, (d.clear onlyFiles).entry op k = some i ↔
      d.entry op k = some i ∧ (i.loc = .ogma ∨ (onlyFiles = true ∧ i.loc = .shell)) := by
    intro op k i
    rw [entry_clear hw, Option.filter_eq_some_iff, hkept]
  refine ⟨h1, ?_, ?_⟩
  · intro n e
    rw [types_clear hw, Option.filter_eq_some_iff]
    cases e with
    | prim t => simp [TyEntry.kept]
    | def_ td => simp only [TyEntry.kept, hkept, TyEntry.def_.injEq, forall_eq']
  · intro op
    rw [containsOp_iff (wf_clear hw _)]
    simp only [h1]

/-- Clearing everything, after a session in which no record type was given the name of a generic built-in,
gives back the initial store. -/
theorem clear_restores_partial (checked : Bool) (os : List Op) (d : Defs)
    (hid : ∀ o ∈ os, ∀ r ∈ o.reqs, r.Ident ∧ ¬ r.Clash) (h0 : run checked base os = some d) :
    (∀ op k, (d.clear false).entry op k = base.entry op k) ∧
    (∀ op t, (d.clear false).getImpl op t = base.getImpl op t) ∧
    (∀ op, (d.clear false).containsOp op = base.containsOp op) ∧
    (∀ n, AMap.get (d.clear false).types n = AMap.get base.types n) := by
  have hr := run_reach (fun r => r.Ident ∧ ¬ r.Clash) (fun _ => True) checked base os base d .refl
    hid (fun _ _ _ _ => trivial) h0
  have hw := reach_wf base_wf hr
  have ho := ogma_entries hr
  have he : ∀ op k, (d.clear false).entry op k = base.entry op k := by
    intro op k
    apply Option.ext
    intro i
    rw [entry_clear hw, Option.filter_eq_some_iff]
    constructor
    · rintro ⟨h1, h2⟩
      apply ho.1 op k i h1
      cases hl : i.loc with
      | ogma => rfl
      | shell => rw [hl] at h2; cases h2
      | file p l => rw [hl] at h2; cases h2
    · intro h
      refine ⟨?_, kept_ogma (base_entry h).2.1 _⟩
      cases k with
      | none => exact generic_stay (fun r h => h) hr op i h
      | some t => exact typed_stay hr op t i h
  refine ⟨he, ?_, ?_, ?_⟩
  · intro op t; rw [getImpl_entry, getImpl_entry, he, he]
  · intro op
    rw [Bool.eq_iff_iff, containsOp_iff (wf_clear hw _), containsOp_iff base_wf]
    simp only [he]
  · intro n
    apply Option.ext
    intro e
    rw [types_clear hw, Option.filter_eq_some_iff]
    constructor
    · rintro ⟨h1, h2⟩
      apply ho.2 n e h1
      rintro td rfl
      cases hl : td.loc with
      | ogma => rfl
      | shell => simp [TyEntry.kept, hl, Loc.kept] at h2
      | file p l => simp [TyEntry.kept, hl, Loc.kept] at h2
    · intro h
      exact ⟨base_types_stay hr n e h, base_type_kept h _⟩

/-- Clearing twice is clearing once. -/
theorem clear_idempotent (checked : Bool) (os : List Op) (d : Defs) (h0 : run checked base os = some d)
    (b : Bool) :
    (∀ op k, ((d.clear b).clear b).entry op k = (d.clear b).entry op k) ∧
    (∀ n, AMap.get ((d.clear b).clear b).types n = AMap.get (d.clear b).types n) := by
  have hw := reach_wf base_wf (run_reach (fun _ => True) (fun _ => True) checked base os base d .refl
    (fun _ _ _ _ => trivial) (fun _ _ _ _ => trivial) h0)
  constructor
  · intro op k
    rw [entry_clear (wf_clear hw _), entry_clear hw, Option.filter_filter]
    simp
  · intro n
    rw [types_clear (wf_clear hw _), types_clear hw, Option.filter_filter]
    simp

/-! ### C07 -/

/-- Defining a name that is already a type is an error and changes nothing. -/
theorem type_redefinition_rejected (checked : Bool) (d : Defs) (loc : Loc) (name : String)
    (sh : Shape RawField) (e : TyEntry) (hd : AMap.get d.types name = some e) :
    process checked d loc (.type_ name sh) = .err d := by
  simp only [process, insertType]
  split
  · rfl
  · rw [if_pos (AMap.has_iff.2 ⟨e, hd⟩)]

/-- Any request that fails changes nothing. -/
theorem failed_request_changes_nothing (checked : Bool) (d d' : Defs) (loc : Loc) (r : Req)
    (h : process checked d loc r = .err d') : d' = d := process_err h

/-- A type keeps its definition as long as no clear is asked for. -/
theorem type_kept_until_clear (checked : Bool) (os : List Op) (d d' : Defs) (os0 : List Op)
    (h0 : run checked base os0 = some d)
    (hc : ∀ o ∈ os, .clear ∉ o.reqs ∧ o.clears = []) (h : run checked d os = some d')
    (n : String) (e : TyEntry) (he : AMap.get d.types n = some e) : AMap.get d'.types n = some e := by
  have hw := reach_wf base_wf (run_reach (fun _ => True) (fun _ => True) checked base os0 base d .refl
    (fun _ _ _ _ => trivial) (fun _ _ _ _ => trivial) h0)
  have hr := run_reach (fun r => r ≠ .clear) (fun _ => False) checked d os d d' .refl
    (fun o ho r hr e => (hc o ho).1 (e ▸ hr)) (fun o ho b hb => by rw [(hc o ho).2] at hb; cases hb) h
  clear h
  induction hr with
  | refl => exact he
  | @request d1 d2 loc r hr _ hne hp ih =>
    have hw1 := reach_wf hw hr
    cases r with
    | help => cases hp
    | list => cases hp; exact ih
    | clear => exact absurd rfl hne
    | malformed => cases hp
    | impl m t ops src =>
      rcases process_ok hp with e | e | ⟨_, _, _, _, _, _, _, _, hi⟩ | ⟨_, _, e, _⟩
      · rw [e]; exact ih
      · simp only [process] at hp
        split at hp
        · cases hp
        · split at hp
          · rw [(insertImpl_ok hw1 hp).2.1]; exact ih
          · split at hp
            · cases hp
            · rw [(insertImpl_ok hw1 hp).2.1]; exact ih
      · rw [(insertImpl_ok hw1 hi).2.1]; exact ih
      · cases e
    | type_ m sh =>
      obtain ⟨_, _, hm, _, ht, _⟩ := insertType_ok hw1 hp
      rw [ht, AMap.get_insert, if_neg]
      · exact ih
      · rintro rfl; rw [hm] at ih; cases ih
  | clear _ hf _ => exact absurd hf id

/-- The types that come with the program are always there. -/
theorem base_types_kept (checked : Bool) (os : List Op) (d : Defs) (h : run checked base os = some d)
    (n : String) (e : TyEntry) (hn : AMap.get base.types n = some e) : AMap.get d.types n = some e :=
  base_types_stay (run_reach (fun _ => True) (fun _ => True) checked base os base d .refl
    (fun _ _ _ _ => trivial) (fun _ _ _ _ => trivial) h) n e hn

/-- A type can only be defined from types that are known. -/
theorem definition_needs_known_types (checked : Bool) (os : List Op) (d d' : Defs) (loc : Loc)
    (name : String) (sh : Shape RawField) (h0 : run checked base os = some d)
    (h : process checked d loc (.type_ name sh) = .ok d') :
    ∃ td, AMap.get d'.types name = some (.def_ td) ∧ ∀ t ∈ td.shape.mentions, d.Known t := by
  have hw := reach_wf base_wf (run_reach (fun _ => True) (fun _ => True) checked base os base d .refl
    (fun _ _ _ _ => trivial) (fun _ _ _ _ => trivial) h0)
  obtain ⟨sh', hsh, _, _, ht, _⟩ := insertType_ok hw h
  exact ⟨⟨loc, name, sh'⟩, by rw [ht, AMap.get_insert, if_pos rfl], parsedShape_known hsh⟩

/-- At all times every type mentioned by a type is known, in sessions that do not clear files alone. -/
theorem types_closed_partial (checked : Bool) (os : List Op) (d : Defs)
    (hc : ∀ o ∈ os, true ∉ o.clears) (h : run checked base os = some d)
    (n : String) (td : TypeDef) (hn : AMap.get d.types n = some (.def_ td)) :
    ∀ t ∈ td.shape.mentions, d.Known t := by
  have hr := run_reach (fun _ => True) (fun b => b = false) checked base os base d .refl
    (fun _ _ _ _ => trivial) (fun o ho b hb => by
      cases b with
      | false => rfl
      | true => exact absurd hb (hc o ho)) h
  clear h
  have hclear : ∀ d1 : Defs, Reach (fun _ => True) (fun b => b = false) checked base d1 → ∀ n td,
      AMap.get (d1.clear false).types n = some (.def_ td) → ∀ t ∈ td.shape.mentions, (d1.clear false).Known t := by
    intro d1 hr1 n td hn t ht
    rw [types_clear (reach_wf base_wf hr1)] at hn
    obtain ⟨h1, h2⟩ := Option.filter_eq_some_iff.1 hn
    have hl : td.loc = .ogma := by
      cases hl : td.loc with
      | ogma => rfl
      | shell => simp [TyEntry.kept, hl, Loc.kept] at h2
      | file p l => simp [TyEntry.kept, hl, Loc.kept] at h2
    have := (ogma_entries hr1).2 n _ h1 (fun td' e => by cases e; exact hl)
    rw [base_type this] at ht
    simp [Shape.mentions] at ht
  induction hr generalizing n td with
  | refl =>
    intro t ht
    rw [base_type hn] at ht
    simp [Shape.mentions] at ht
  | @request d1 d2 loc r hr _ _ hp ih =>
    have hw := reach_wf base_wf hr
    rcases process_ok hp with e | e | ⟨_, _, _, _, _, _, _, _, hi⟩ | ⟨m, sh, _, hi⟩
    · rw [e] at hn ⊢; exact ih n td hn
    · rw [e] at hn ⊢; exact hclear d1 hr n td hn
    · have ht := (insertImpl_ok hw hi).2.1
      rw [ht] at hn
      intro t hm
      obtain ⟨k, e, h1, h2⟩ := ih n td hn t hm
      exact ⟨k, e, by rw [ht]; exact h1, h2⟩
    · obtain ⟨sh', hsh, hm, _, ht, _⟩ := insertType_ok hw hi
      have keep : ∀ t, d1.Known t → d2.Known t := by
        rintro t ⟨k, e, h1, h2⟩
        refine ⟨k, e, ?_, h2⟩
        rw [ht, AMap.get_insert, if_neg]
        · exact h1
        · rintro rfl; rw [hm] at h1; cases h1
      intro t hmem
      apply keep
      rw [ht, AMap.get_insert] at hn
      split at hn
      · cases hn; exact parsedShape_known hsh t hmem
      · exact ih n td hn t hmem
  | @clear d1 b hr hb _ => subst hb; exact hclear d1 hr n td hn

/-- Clearing the files' definitions alone can leave a shell type with a field of an unknown type. -/
theorem clear_files_can_dangle :
    ∃ d, run false base [.load "a.ogma" [(1, .type_ "A" (.product [⟨"x", "Num", []⟩]))],
        .shell (.type_ "B" (.product [⟨"a", "A", []⟩])), .clear true] = some d ∧
      AMap.get d.types "B" = some (.def_ ⟨.shell, "B", .product [⟨"a", .def_ "A", []⟩]⟩) ∧
      AMap.get d.types "A" = none := by
  refine ⟨_, rfl, ?_, ?_⟩ <;> decide +kernel

/-- A type with two variants of the same name is accepted: its second constructor replaces the first. -/
theorem duplicate_variant_accepted :
    ((run false base [.shell (.type_ "A" (.sum [("X", [⟨"n", "Num", []⟩]), ("X", [])]))]).map
      (·.entry "A::X" none)) = some (some (.intrinsic .shell (.ctor "A" 1))) := by
  decide +kernel

/-- Loading a file that fails half way leaves the definitions before the failure in the store. -/
theorem failed_load_is_partial :
    ∃ d, addFile false "f" base [(1, .impl "foo" none [] "def foo () { }"), (2, .malformed)] = .err d ∧
      d.containsOp "foo" = true ∧ base.containsOp "foo" = false := by
  refine ⟨_, rfl, ?_, ?_⟩ <;> decide +kernel

/-! ### Non-vacuity -/

/-- A session with a definition, a redefinition, a rejected redefinition of a built-in, a type, a clear. -/
def sample : List Op := [
  .shell (.type_ "Pt" (.product [⟨"x", "Num", []⟩, ⟨"y", "Num", []⟩])),
  .load "lib.ogma" [(3, .type_ "Sh" (.sum [("Dot", [⟨"at", "Pt", []⟩]), ("None", [])])),
    (7, .impl "area" (some "Sh") ["+"] "def area Sh () { + 1 }")],
  .shell (.impl "+" (some "Num") [] "def + Num () { }"),
  .shell (.impl "area" none ["area"] "def area () { area }"),
  .shell (.type_ "Pt" (.product []))]

example : ∃ d, run true base sample = some d ∧
    d.getImpl "+" .num = some (.intrinsic .ogma (.builtin "+")) ∧
    d.getImpl "area" (.def_ "Sh") = some (.definition (.file "lib.ogma" 7) "def area Sh () { + 1 }") ∧
    d.getImpl "area" .num = some (.definition .shell "def area () { area }") ∧
    d.getImpl "Sh::None" .nil = some (.intrinsic (.file "lib.ogma" 3) (.ctor "Sh" 1)) ∧
    AMap.get d.types "Pt" = some (.def_ ⟨.shell, "Pt", .product [⟨"x", .num, []⟩, ⟨"y", .num, []⟩]⟩) ∧
    (d.clear true).getImpl "area" (.def_ "Sh") = some (.definition .shell "def area () { area }") ∧
    (d.clear false).containsOp "area" = false := by
  refine ⟨_, rfl, ?_, ?_, ?_, ?_, ?_, ?_, ?_⟩ <;> decide +kernel

example : base.entry "+" (some .num) = some (.intrinsic .ogma (.builtin "+")) ∧
    base.entry "get" none = some (.intrinsic .ogma (.builtin "get")) := by decide +kernel

example : ∀ o ∈ sample, ∀ r ∈ o.reqs, r.Ident ∧ ¬ r.Clash := by
  have h1 : base.entry "Pt" none = none := by decide +kernel
  simp only [sample, List.forall_mem_cons, Op.reqs, List.map_cons, List.map_nil, List.not_mem_nil,
    false_implies, implies_true, and_true, Req.Ident, Req.Clash, h1, reduceCtorEq, exists_false, not_false_eq_true]
  decide +kernel

example : (∀ o ∈ sample, .clear ∉ o.reqs ∧ o.clears = []) ∧ ∀ o ∈ sample, true ∉ o.clears := by
  decide +kernel

end Verif.Defs
