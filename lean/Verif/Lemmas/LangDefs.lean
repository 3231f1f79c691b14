import Verif.Props.Tuple
import Verif.Props.Defs
import Verif.Model.LangProg
import Verif.Spec.Lang
import Verif.Spec.Prog
/-! C81: values of defined types after any session of definitions. -/
namespace Verif.Lang
open Verif Verif.Tuple
variable {N : Type} {d : Defs.Defs}

theorem toTab_ofTab (u : Tab.Ty) : toTab (ofTab u) = u := by cases u <;> rfl

theorem ofTab_toTab (t : Defs.Ty) : ofTab (toTab t) = t := by cases t <;> rfl

theorem tyname_key (t : TTy) : tyname t = baseName t.key := by
  cases t with
  | base t => rfl
  | tuple ts => rw [TTy.key, baseName, String.toList_ofList]

theorem members_key : ∀ ts : List TTy, members (ts.map fun t => .base t.key) = members ts
  | [] => rfl
  | t :: ts => by rw [List.map_cons, members, members, members_key ts, tyname_key t]; rfl

theorem nameTuple_eq (ts : List TTy) : nameTuple (ts.map fun t => toTab t.key) = String.ofList (tyname (.tuple ts)) := by
  unfold nameTuple
  rw [List.map_map, show ((fun u => TTy.base (ofTab u)) ∘ fun t : TTy => toTab t.key) = fun t : TTy => TTy.base t.key by
    funext t; simp only [Function.comp, ofTab_toTab], tyname, tyname, members_key]

mutual
theorem convert_known {tys : AMap String Defs.TyEntry} : ∀ (s : Split) (t : TTy), convert tys s = some t → ∀ u ∈ leaves t, ∃ n, Defs.tyOf tys n = some u
  | .ty n, t, h, u, hu => by
    rw [convert] at h
    obtain ⟨w, h1, rfl⟩ := Option.map_eq_some_iff.1 h
    rw [leaves, List.mem_singleton] at hu
    exact ⟨_, by rw [hu]; exact h1⟩
  | .tuple ss, t, h, u, hu => by
    rw [convert] at h
    obtain ⟨ts, h1, rfl⟩ := Option.map_eq_some_iff.1 h
    rw [leaves] at hu
    exact convertAll_known ss ts h1 u hu
theorem convertAll_known {tys : AMap String Defs.TyEntry} : ∀ (ss : List Split) (ts : List TTy), convertAll tys ss = some ts → ∀ u ∈ leavesAll ts, ∃ n, Defs.tyOf tys n = some u
  | [], ts, h, u, hu => by cases h; cases hu
  | s :: ss, ts, h, u, hu => by
    rw [convertAll] at h
    obtain ⟨t, h1, h2⟩ := Option.bind_eq_some_iff.1 h
    obtain ⟨ts', h3, rfl⟩ := Option.map_eq_some_iff.1 h2
    rw [leavesAll] at hu
    rcases List.mem_append.1 hu with hu | hu
    · exact convert_known s t h1 u hu
    · exact convertAll_known ss ts' h3 u hu
end

mutual
theorem convert_clean {tys : AMap String Defs.TyEntry} : ∀ (s : Split) (t : TTy), Full s → convert tys s = some t → (∀ u ∈ leaves t, Clean (.base u)) → Clean t
  | .ty n, t, _, h, hc => by
    rw [convert] at h
    obtain ⟨w, h1, rfl⟩ := Option.map_eq_some_iff.1 h
    exact hc w (by simp [leaves])
  | .tuple ss, t, hf, h, hc => by
    rw [convert] at h
    obtain ⟨ts, h1, rfl⟩ := Option.map_eq_some_iff.1 h
    refine ⟨?_, convertAll_clean ss ts hf.2 h1 fun u hu => hc u (by rw [leaves]; exact hu)⟩
    rintro rfl
    cases ss with
    | nil => exact hf.1 rfl
    | cons s ss =>
      rw [convertAll] at h1
      obtain ⟨t, _, h2⟩ := Option.bind_eq_some_iff.1 h1
      obtain ⟨_, _, h3⟩ := Option.map_eq_some_iff.1 h2
      cases h3
theorem convertAll_clean {tys : AMap String Defs.TyEntry} : ∀ (ss : List Split) (ts : List TTy), FullAll ss → convertAll tys ss = some ts → (∀ u ∈ leavesAll ts, Clean (.base u)) → CleanAll ts
  | [], ts, _, h, _ => by cases h; trivial
  | s :: ss, ts, hf, h, hc => by
    rw [convertAll] at h
    obtain ⟨t, h1, h2⟩ := Option.bind_eq_some_iff.1 h
    obtain ⟨ts', h3, rfl⟩ := Option.map_eq_some_iff.1 h2
    exact ⟨convert_clean s t hf.1 h1 fun u hu => hc u (by rw [leavesAll]; exact List.mem_append_left _ hu),
      convertAll_clean ss ts' hf.2 h3 fun u hu => hc u (by rw [leavesAll]; exact List.mem_append_right _ hu)⟩
end

theorem known_clean {checked : Bool} {os : List Defs.Op} (hd : Defs.run checked Defs.base os = some d) (hc : ClearTypes d) {u : Defs.Ty} (h : d.Known u) :
    Clean (.base u) := by
  have hr := Defs.run_reach (fun _ => True) (fun _ => True) checked Defs.base os Defs.base d .refl
    (fun _ _ _ _ => trivial) (fun _ _ _ _ => trivial) hd
  obtain ⟨n, e, h1, rfl⟩ := h
  cases e with
  | def_ td =>
    have h2 := hc n td h1
    have h3 := (Defs.reach_wf Defs.base_wf hr).names n td h1
    show CleanName td.name
    rw [h3]
    exact h2
  | prim p =>
    have hb := (Defs.ogma_entries hr).2 n _ h1 (fun td e => by cases e)
    have hx := AMap.mem_of_get hb
    simp only [Defs.base, Defs.baseTypes, List.mem_cons, List.not_mem_nil, or_false, Prod.mk.injEq, reduceCtorEq,
      and_false, Defs.TyEntry.prim.injEq] at hx
    rcases hx with ⟨rfl, rfl⟩ | ⟨rfl, rfl⟩ | ⟨rfl, rfl⟩ | ⟨rfl, rfl⟩ | ⟨rfl, rfl⟩ | ⟨rfl, rfl⟩ <;> trivial

/-- A type that has a name like this: built in, defined, or a tuple of such types. -/
structure Proper (d : Defs.Defs) (t : TTy) : Prop where
  clean : Clean t
  known : ∀ u ∈ leaves t, d.Known u

theorem proper_base {checked : Bool} {os : List Defs.Op} (hd : Defs.run checked Defs.base os = some d) (hc : ClearTypes d) {u : Defs.Ty} (h : d.Known u) :
    Proper d (.base u) :=
  ⟨known_clean hd hc h, fun w hw => by rw [leaves, List.mem_singleton] at hw; rw [hw]; exact h⟩

theorem parsed_proper {checked : Bool} {os : List Defs.Op} (hd : Defs.run checked Defs.base os = some d) (hc : ClearTypes d) {i : List Char} {t : TTy}
    (h : parseName i d.types = some t) : Proper d t := by
  unfold parseName at h
  obtain ⟨s, hp, h⟩ := Option.bind_eq_some_iff.1 h
  have hfull : Full s := by
    unfold parseTop at hp
    split at hp
    · split at hp
      · rename_i hx; cases hp; exact parseSplit_full _ _ _ _ hx
      · cases hp
    · cases hp
  have hk : ∀ u ∈ leaves t, d.Known u := fun u hu => by
    obtain ⟨n, h1⟩ := convert_known s t h u hu
    exact Defs.tyOf_known h1
  exact ⟨convert_clean s t hfull h fun u hu => known_clean hd hc (hk u hu), hk⟩

theorem prim_known {checked : Bool} {os : List Defs.Op} (hd : Defs.run checked Defs.base os = some d) {n : String} {u : Defs.Ty}
    (h : AMap.get Defs.base.types n = some (.prim u)) : d.Known u :=
  ⟨n, _, Defs.base_types_kept checked os d hd n _ h, rfl⟩

/-- A well-formed value has a proper type. -/
theorem value_proper {checked : Bool} {os : List Defs.Op} (hd : Defs.run checked Defs.base os = some d) (hc : ClearTypes d) {v : Tab.Value N}
    (hv : okV (shapeOf d) v = true) : ∃ t, v.ty = toTab t.key ∧ Proper d t := by
  cases v with
  | nil => exact ⟨_, rfl, proper_base (u := .nil) hd hc (prim_known (n := "Nil") hd (by decide +kernel))⟩
  | bool b => exact ⟨_, rfl, proper_base (u := .bool) hd hc (prim_known (n := "Bool") hd (by decide +kernel))⟩
  | num x => exact ⟨_, rfl, proper_base (u := .num) hd hc (prim_known (n := "Num") hd (by decide +kernel))⟩
  | str x => exact ⟨_, rfl, proper_base (u := .str) hd hc (prim_known (n := "Str") hd (by decide +kernel))⟩
  | tab t => exact ⟨_, rfl, proper_base (u := .tab) hd hc (prim_known (n := "Table") hd (by decide +kernel))⟩
  | row t i => exact ⟨_, rfl, proper_base (u := .tabRow) hd hc (prim_known (n := "TableRow") hd (by decide +kernel))⟩
  | ogma n k vs =>
    have hr := Defs.run_reach (fun _ => True) (fun _ => True) checked Defs.base os Defs.base d .refl
      (fun _ _ _ _ => trivial) (fun _ _ _ _ => trivial) hd
    rw [okV, Bool.and_eq_true, decide_eq_true_eq] at hv
    have hv := hv.2
    unfold shapeOf at hv
    split at hv
    · rename_i td h1
      refine ⟨.base (.def_ n), rfl, proper_base hd hc ⟨n, _, h1, ?_⟩⟩
      show Defs.Ty.def_ td.name = _
      rw [(Defs.reach_wf Defs.base_wf hr).names n td h1]
    · split at hv
      · rename_i ts h1
        have := (read_name_denotes checked os d hd _ _ h1).1
        rw [String.ofList_toList] at this
        exact ⟨.tuple ts, by rw [this]; rfl, parsed_proper hd hc h1⟩
      · cases hv

theorem values_proper {checked : Bool} {os : List Defs.Op} (hd : Defs.run checked Defs.base os = some d) (hc : ClearTypes d) :
    ∀ vs : List (Tab.Value N), (∀ v ∈ vs, okV (shapeOf d) v = true) → ∃ ts, vs.map Tab.Value.ty = ts.map (fun t => toTab t.key) ∧ CleanAll ts ∧ ∀ u ∈ leavesAll ts, d.Known u
  | [], _ => ⟨[], rfl, trivial, fun _ h => by cases h⟩
  | v :: vs, h => by
    obtain ⟨t, h1, h2⟩ := value_proper hd hc (h v (.head _))
    obtain ⟨ts, h3, h4, h5⟩ := values_proper hd hc vs fun w hw => h w (List.mem_cons_of_mem _ hw)
    refine ⟨t :: ts, by rw [List.map_cons, List.map_cons, h1, h3], ⟨h2.clean, h4⟩, fun u hu => ?_⟩
    rw [leavesAll] at hu
    rcases List.mem_append.1 hu with hu | hu
    · exact h2.known u hu
    · exact h5 u hu

theorem fields_tuple (ts : List TTy) : (tupleFields ts).map (fun p => toTab p.2.key) = ts.map fun t => toTab t.key := by
  unfold tupleFields
  rw [List.map_map]
  apply List.ext_getElem?
  intro i
  simp only [List.getElem?_map, List.getElem?_zipIdx, Option.map_map]
  rfl

theorem shape_tuple {checked : Bool} {os : List Defs.Op} (hd : Defs.run checked Defs.base os = some d) (hc : ClearTypes d) {ts : List TTy}
    (h : Clean (.tuple ts)) (hk : ∀ u ∈ leavesAll ts, d.Known u) :
    (shapeOf d (nameTuple (ts.map fun t => toTab t.key))).fields 0 = some (ts.map fun t => toTab t.key) := by
  rw [nameTuple_eq]
  have hp := tuple_name_round_trip_partial checked os d hd ts h hk
  unfold shapeOf
  split
  · rename_i td h1
    have := (hc _ _ h1).2.2.2.1
    rw [String.toList_ofList, tyname] at this
    exact absurd (List.mem_append_right _ (List.mem_singleton.2 rfl)) this
  · rw [String.toList_ofList, hp]
    show some (((tupleFields ts).map fun p => (p.1, toTab p.2.key)).map (·.2)) = _
    rw [List.map_map, ← fields_tuple]
    rfl

/-- After any session, if the names of defined types are clear and the tables from outside are well-formed. -/
theorem typed_ok {checked : Bool} {os : List Defs.Op} (hd : Defs.run checked Defs.base os = some d) (hc : ClearTypes d) {W : World N}
    (h1 : ∀ p t, W.files p = some t → okRs (shapeOf d) t = true) (h2 : ∀ p t, W.openTab p = some t → okRs (shapeOf d) t = true)
    (h3 : ∀ op, okRs (shapeOf d) (W.duration op) = true) : (W.typed d).Ok where
  ord := by
    show shapeOf d "Ord" = _
    unfold shapeOf
    rw [Defs.base_types_kept checked os d hd "Ord" (.def_ ⟨.ogma, "Ord", .sum [("Lt", []), ("Eq", []), ("Gt", [])]⟩) (by decide +kernel)]
    rfl
  tuples vs hn hv := by
    show (shapeOf d (nameTuple _)).fields 0 = _
    obtain ⟨ts, h4, h5, h6⟩ := values_proper hd hc vs hv
    rw [h4]
    refine shape_tuple hd hc ⟨?_, h5⟩ h6
    rintro rfl
    have := congrArg List.length h4
    simp only [List.length_map, List.length_nil] at this
    omega
  files := h1
  openTab := h2
  duration := h3

/-! ### The store -/

theorem tyOf_name {P : Defs.Req → Prop} {C : Bool → Prop} {checked : Bool} (hr : Defs.Reach P C checked Defs.base d) {n : String} {t : Defs.Ty}
    (h : Defs.tyOf d.types n = some t) : tyName t = n := by
  unfold Defs.tyOf at h
  obtain ⟨e, h1, rfl⟩ := Option.map_eq_some_iff.1 h
  cases e with
  | def_ td =>
    have := (Defs.reach_wf Defs.base_wf hr).names n td h1
    simp [Defs.TyEntry.ty, tyName, baseName, this]
  | prim p =>
    have hb := (Defs.ogma_entries hr).2 n _ h1 (fun td e => by cases e)
    have hx := AMap.mem_of_get hb
    simp only [Defs.base, Defs.baseTypes, List.mem_cons, List.not_mem_nil, or_false, Prod.mk.injEq, reduceCtorEq,
      and_false, Defs.TyEntry.prim.injEq] at hx
    rcases hx with ⟨rfl, rfl⟩ | ⟨rfl, rfl⟩ | ⟨rfl, rfl⟩ | ⟨rfl, rfl⟩ | ⟨rfl, rfl⟩ | ⟨rfl, rfl⟩ <;> decide

/-! What holds of every entry of the store. -/

def baseOk (L : List (String × Option Defs.Ty × String)) (n : String) (ty : Option Defs.Ty) : Defs.Impl → Bool
  | .intrinsic _ (.builtin m) => decide (n = m)
  | .intrinsic _ (.ctor _ _) => true
  | .definition _ src => L.contains (n, ty, src)

theorem base_list : ∀ x ∈ Defs.base.impls, (∀ y ∈ x.2.tys, baseOk Defs.derived x.1 (some y.1) y.2 = true) ∧ ∀ i, x.2.agnostic = some i → baseOk Defs.derived x.1 none i = true := by
  decide +kernel

theorem base_entries {n : String} {ty : Option Defs.Ty} {i : Defs.Impl} (h : Defs.base.entry n ty = some i) : baseOk Defs.derived n ty i = true := by
  unfold Defs.Defs.entry at h
  cases hg : AMap.get Defs.base.impls n with
  | none => cases ty <;> simp [hg] at h
  | some ks =>
    have hb := base_list _ (AMap.mem_of_get hg)
    cases ty with
    | none =>
      rw [hg] at h
      exact hb.2 i h
    | some t =>
      rw [hg] at h
      exact hb.1 _ (AMap.mem_of_get h)

theorem base_text {L : List (String × Option Defs.Ty × String)} {n : String} {ty : Option Defs.Ty} {loc : Defs.Loc} {src : String}
    (h : baseOk L n ty (.definition loc src) = true) : (n, ty, src) ∈ L := by
  rwa [baseOk, List.contains_iff_mem] at h

theorem base_builtin {L : List (String × Option Defs.Ty × String)} {n m : String} {ty : Option Defs.Ty} {loc : Defs.Loc}
    (h : baseOk L n ty (.intrinsic loc (.builtin m)) = true) : n = m := of_decide_eq_true h

/-- A request adds a definition, or constructors. -/
theorem entries_step {P : Defs.Req → Prop} {C : Bool → Prop} {checked : Bool} {d1 d2 : Defs.Defs} (hr : Defs.Reach P C checked Defs.base d1)
    {Q : String → Option Defs.Ty → Defs.Impl → Prop} (hctor : ∀ n ty l t j, Q n ty (.intrinsic l (.ctor t j))) {loc : Defs.Loc} {r : Defs.Req}
    (hp : Defs.process checked d1 loc r = .ok d2) (ih : ∀ n ty i, d1.entry n ty = some i → Q n ty i)
    (himpl : ∀ m u ops src ty, r = .impl m u ops src → ty.map tyName = u → Q m ty (.definition loc src)) :
    ∀ n ty i, d2.entry n ty = some i → Q n ty i := by
  have hw := Defs.reach_wf Defs.base_wf hr
  rcases Defs.process_ok hp with e | e | ⟨m, u, ops, src, k', rfl, _, hu, hi⟩ | ⟨m, sh, e, hi⟩
  · rw [e]; exact ih
  · rw [e]
    intro n ty i h
    rw [Defs.entry_clear hw] at h
    exact ih n ty i (Option.filter_eq_some_iff.1 h).1
  · obtain ⟨_, _, _, he⟩ := Defs.insertImpl_ok hw hi
    intro n ty i h
    rw [he] at h
    split at h
    · rename_i hc
      obtain ⟨rfl, rfl⟩ := hc
      cases h
      refine himpl _ _ _ _ _ rfl ?_
      cases u with
      | none => rw [show k' = none from hu]; rfl
      | some t =>
        obtain ⟨ty, h1, rfl⟩ := hu
        rw [Option.map_some, tyOf_name hr h1]
    · exact ih n ty i h
  · obtain ⟨sh', _, _, _, _, h3, h4, h5⟩ := Defs.insertType_ok hw hi
    intro n ty i h
    cases ty with
    | some t => rw [h3] at h; exact ih n _ i h
    | none =>
      by_cases hm : n ∈ (Defs.ctors ⟨loc, m, sh'⟩).map (·.1)
      · obtain ⟨j, _, he⟩ := h5 n hm
        rw [he] at h; cases h; exact hctor _ _ _ _ _
      · rw [h4 n hm] at h; exact ih n _ i h

theorem entries_clear {P : Defs.Req → Prop} {C : Bool → Prop} {checked : Bool} {d : Defs.Defs} (hr : Defs.Reach P C checked Defs.base d)
    {Q : String → Option Defs.Ty → Defs.Impl → Prop} (ih : ∀ n ty i, d.entry n ty = some i → Q n ty i) (b : Bool) :
    ∀ n ty i, (d.clear b).entry n ty = some i → Q n ty i := by
  intro n ty i h
  rw [Defs.entry_clear (Defs.reach_wf Defs.base_wf hr)] at h
  exact ih n ty i (Option.filter_eq_some_iff.1 h).1

/-- An entry for a built-in command has its name. -/
def Named (n : String) (_ : Option Defs.Ty) : Defs.Impl → Prop
  | .intrinsic _ (.builtin m) => n = m
  | _ => True

theorem entries_named {P : Defs.Req → Prop} {C : Bool → Prop} {checked : Bool} {d : Defs.Defs} (h : Defs.Reach P C checked Defs.base d) :
    ∀ n ty i, d.entry n ty = some i → Named n ty i := by
  induction h with
  | refl =>
    intro n ty i h
    have := base_entries h
    cases i with
    | definition l src => trivial
    | intrinsic l fn =>
      cases fn with
      | builtin m => exact base_builtin this
      | ctor t j => trivial
  | request hr _ _ hp ih => exact entries_step hr (fun _ _ _ _ _ => trivial) hp ih fun _ _ _ _ _ _ _ => trivial
  | clear hr _ ih => exact entries_clear hr ih _

theorem entriesOf_entry (hw : d.Wf) {n : String} {ks : Defs.Keys} (h : AMap.get d.impls n = some ks) {y : Option String × Defs.Impl} (hy : y ∈ entriesOf ks) :
    ∃ ty : Option Defs.Ty, y.1 = ty.map tyName ∧ d.entry n ty = some y.2 := by
  rcases List.mem_append.1 hy with hy | hy
  · obtain ⟨i, h1, rfl⟩ := List.mem_map.1 hy
    refine ⟨none, rfl, ?_⟩
    show (AMap.get d.impls n).bind _ = _
    rw [h]
    exact Option.mem_toList.1 h1
  · obtain ⟨x, h1, rfl⟩ := List.mem_map.1 hy
    refine ⟨some x.1, rfl, ?_⟩
    show (AMap.get d.impls n).bind _ = _
    rw [h]
    exact AMap.get_of_mem (hw.keys n ks h).1 h1

theorem defs_from_text {ks : String → Parse.Env} {K : Parse.Env → Prop} (hK : ∀ src, K (ks src)) (hw : d.Wf) (h : Stored ks d) :
    Prog.FromText K (defsOf ks d) := by
  intro f im him ps b hb
  have him : im ∈ implsOf ks (AMap.get d.impls f) := him
  cases hg : AMap.get d.impls f with
  | none => rw [hg] at him; cases him
  | some ys =>
    rw [hg] at him
    obtain ⟨y, hy, rfl⟩ := List.mem_map.1 him
    obtain ⟨ty, h1, h2⟩ := entriesOf_entry hw hg hy
    dsimp only at hb
    generalize y.2 = i at hb h2
    cases i with
    | intrinsic l fn => cases hb
    | definition l src =>
      obtain ⟨rest, df, h4, h5, h6⟩ := h f ty l src h2
      rw [bodyAt, h4] at hb
      cases hb
      exact ⟨_, _, rest, df, hK src, h4, h5, by rw [← h6]; exact h1, rfl, rfl⟩

theorem installed_let : ∀ x ∈ installed, x.2.2 = .let_ → x.1 = "let" := by decide +kernel

theorem cmds_let (hw : d.Wf) (h : ∀ n ty i, d.entry n ty = some i → Named n ty i) :
    ∀ x ∈ cmdsOf d, x.2.2 = .let_ → x.1 = "let" := by
  intro x hx e
  obtain ⟨⟨n, ks⟩, h1, h2⟩ := List.mem_flatMap.1 hx
  obtain ⟨y, h3, h4⟩ := List.mem_filterMap.1 h2
  obtain ⟨c, h5, rfl⟩ := Option.map_eq_some_iff.1 h4
  dsimp only at e h2 h3 ⊢
  subst e
  obtain ⟨ty, h6, h7⟩ := entriesOf_entry hw (AMap.get_of_mem hw.impls h1) h3
  have h8 := h n ty y.2 h7
  generalize y.2 = i at h5 h8
  cases i with
  | definition l src => cases h5
  | intrinsic l fn =>
    cases fn with
    | ctor t j => cases h5
    | builtin m =>
      rw [cmdAt] at h5
      obtain ⟨z, h9, h10⟩ := Option.map_eq_some_iff.1 h5
      have h11 := List.find?_some h9
      have h12 := installed_let z (List.mem_of_find?_eq_some h9) h10
      rw [show n = m from h8, ← eq_of_beq (Bool.and_eq_true_iff.1 h11).1, h12]

theorem installed_pick : ∀ x ∈ installed, x.2.2 = .pick → x.2.1 = some "Table" := by decide +kernel

/-- `pick` is stored for tables only. -/
theorem cmds_pick : ∀ x ∈ cmdsOf d, x.2.2 = .pick → x.2.1 = some "Table" := by
  intro x hx e
  obtain ⟨⟨n, ks⟩, h1, h2⟩ := List.mem_flatMap.1 hx
  obtain ⟨y, h3, h4⟩ := List.mem_filterMap.1 h2
  obtain ⟨c, h5, rfl⟩ := Option.map_eq_some_iff.1 h4
  dsimp only at e h2 h3 ⊢
  subst e
  generalize y.2 = i at h5
  cases i with
  | definition l src => cases h5
  | intrinsic l fn =>
    cases fn with
    | ctor t j => cases h5
    | builtin m =>
      rw [cmdAt] at h5
      obtain ⟨z, h9, h10⟩ := Option.map_eq_some_iff.1 h5
      have h11 := List.find?_some h9
      have h12 := installed_pick z (List.mem_of_find?_eq_some h9) h10
      rw [← eq_of_beq (Bool.and_eq_true_iff.1 h11).2, h12]

theorem stored_table {checked : Bool} {os : List Defs.Op} (hd : Defs.run checked Defs.base os = some d) : (storedTypes d).get "Table" = .tab := by
  have h := Defs.base_types_kept checked os d hd "Table" (.prim .tab) (by decide +kernel)
  show ((Defs.tyOf d.types "Table").map toTab).getD .nil = .tab
  unfold Defs.tyOf
  rw [h]
  rfl

/-- No type is stored twice. -/
theorem stored_nodup {P : Defs.Req → Prop} {C : Bool → Prop} {checked : Bool} (hr : Defs.Reach P C checked Defs.base d) : (storedTypes d).all.Nodup := by
  have hw := Defs.reach_wf Defs.base_wf hr
  have hk : (d.types.map (·.1)).Nodup := hw.types
  show (d.types.map fun e => toTab e.2.ty).Nodup
  have : d.types.map (·.1) = (d.types.map fun e => toTab e.2.ty).map fun t => tyName (ofTab t) := by
    rw [List.map_map]
    refine List.map_congr_left fun e he => ?_
    show e.1 = tyName (ofTab (toTab e.2.ty))
    rw [ofTab_toTab]
    refine (tyOf_name hr ?_).symm
    unfold Defs.tyOf
    rw [AMap.get_of_mem hw.types he]
    rfl
  rw [this] at hk
  exact (List.pairwise_map.1 hk).imp fun h e => h (by rw [e])

end Verif.Lang
