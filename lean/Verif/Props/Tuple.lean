import Std.Data.String.ToNat
import Verif.Lemmas.TupleParse
/-! C08 tuple types, C09 records. -/
namespace Verif.Tuple
open Verif.Defs

/-! ### C08 -/

/-- Two tuple types are the same type only if they have the same members, when the names in them are
clear. -/
theorem tuples_distinct_partial (ts us : List TTy) (ht : Clean (.tuple ts)) (hu : Clean (.tuple us))
    (h : (TTy.tuple ts).key = (TTy.tuple us).key) : ts = us := by
  simp only [TTy.key, Ty.def_.injEq, String.ofList_inj] at h
  have h1 := parseTop_back ts ht
  have h2 := parseTop_back us hu
  rw [h, h2] at h1
  simp only [Option.some.injEq, Split.tuple.injEq] at h1
  exact (toSplits_inj us ts hu.2 ht.2 h1).symm

/-- A tuple type is never a user's type with a clear name, nor a primitive type. -/
theorem tuple_not_user_type (ts : List TTy) (t : Ty) (hts : ts ≠ []) (h : Clean (.base t)) :
    (TTy.tuple ts).key ≠ t := by
  intro e
  cases ts with
  | nil => exact hts rfl
  | cons x xs =>
    rw [TTy.key] at e
    subst e
    apply (leaf_clean h).2.2.2
    simp [baseName, tyname_tuple]

/-- Reading the name of a tuple type gives the tuple type back, when its members are known types with
clear names. -/
theorem tuple_name_round_trip_partial (checked : Bool) (os : List Op) (d : Defs)
    (hd : run checked base os = some d) (ts : List TTy) (h : Clean (.tuple ts))
    (hk : ∀ t ∈ leavesAll ts, d.Known t) : parseName (tyname (.tuple ts)) d.types = some (.tuple ts) := by
  have hr := run_reach (fun _ => True) (fun _ => True) checked base os base d .refl
    (fun _ _ _ _ => trivial) (fun _ _ _ _ => trivial) hd
  rw [parseName, parseTop_back ts h]
  have := convert_back d.types (.tuple ts) (fun u hu => known_by_name hr (hk u (by simpa [leaves] using hu)))
  exact this

/-- A type flag that is read as a tuple denotes a type of that very name. -/
theorem read_name_denotes (checked : Bool) (os : List Op) (d : Defs) (hd : run checked base os = some d)
    (i : List Char) (t : TTy) (h : parseName i d.types = some t) :
    t.key = .def_ (String.ofList i) ∧ ∃ ts, t = .tuple ts := by
  have hr := run_reach (fun _ => True) (fun _ => True) checked base os base d .refl
    (fun _ _ _ _ => trivial) (fun _ _ _ _ => trivial) hd
  unfold parseName at h
  cases hp : parseTop i with
  | none => rw [hp] at h; cases h
  | some s =>
    rw [hp, Option.bind_some] at h
    obtain ⟨e1, x, xs, e2⟩ := parseTop_sound hp
    have hfull : Full s := by
      unfold parseTop at hp
      split at hp
      · split at hp
        · rename_i hx; cases hp; exact parseSplit_full _ _ _ _ hx
        · cases hp
      · cases hp
    have ht : ∀ n t, tyOf d.types n = some t → baseName t = n.toList := by
      intro n t hn
      unfold tyOf at hn
      cases hg : AMap.get d.types n with
      | none => rw [hg] at hn; cases hn
      | some e =>
        rw [hg] at hn; cases hn
        cases e with
        | def_ td =>
          have := (reach_wf base_wf hr).names n td hg
          simp [TyEntry.ty, baseName, this]
        | prim p =>
          have hb := (ogma_entries hr).2 n _ hg (fun td e => by cases e)
          have hx := AMap.mem_of_get hb
          simp only [base, baseTypes, List.mem_cons, List.not_mem_nil, or_false, Prod.mk.injEq, reduceCtorEq,
            and_false, TyEntry.prim.injEq] at hx
          rcases hx with ⟨rfl, rfl⟩ | ⟨rfl, rfl⟩ | ⟨rfl, rfl⟩ | ⟨rfl, rfl⟩ | ⟨rfl, rfl⟩ | ⟨rfl, rfl⟩ <;> decide
    have hn := convert_name d.types ht s t (full_ne hfull) h hfull
    subst e2
    simp only [convert] at h
    cases hc : convertAll d.types (x :: xs) with
    | none => rw [hc] at h; cases h
    | some ts =>
      rw [hc] at h; cases h
      exact ⟨by rw [TTy.key, hn, e1], ts, rfl⟩

/-- With a `-` in a type's name two tuple types with different members are the same type: the types
`A-B` and `C`, and the types `A` and `B-C`. -/
theorem dashed_names_collide :
    (TTy.tuple [.base (.def_ "A-B"), .base (.def_ "C")]).key =
      (TTy.tuple [.base (.def_ "A"), .base (.def_ "B-C")]).key := by
  decide +kernel

/-- A user can define a type with the name of a tuple type; it is then the same type with other fields. -/
theorem user_type_is_a_tuple :
    ((run true base [.shell (.type_ "U_Num-Str_" (.product [⟨"x", "Bool", []⟩]))]).map
      fun d => d.types.get "U_Num-Str_") =
      some (some (.def_ ⟨.shell, "U_Num-Str_", .product [⟨"x", .bool, []⟩]⟩)) ∧
    (TTy.tuple [.base .num, .base .str]).key = .def_ "U_Num-Str_" := by
  decide +kernel

/-- The name of a tuple with a member whose name has a `_`, or is `U`, cannot be read back. -/
theorem underscore_name_not_read :
    (parseTop (tyname (.tuple [.base .num, .base (.def_ "my_ty")]))).isNone ∧
    (parseTop (tyname (.tuple [.base .num, .base (.def_ "U")]))).isNone := by
  decide +kernel

/-! ### C09 -/

theorem takeArgs_ok {E V : Type} (ts : List Ty) (args : List (Arg E V)) :
    (∃ as, takeArgs ts args = .ok as) ↔ args.map (·.ty) = ts := by
  induction ts generalizing args with
  | nil => cases args <;> simp [takeArgs]
  | cons t ts ih =>
    cases args with
    | nil => simp [takeArgs]
    | cons a as =>
      simp only [takeArgs, List.map_cons, List.cons.injEq]
      by_cases h : a.ty = t
      · rw [if_pos h, ← ih as]
        cases takeArgs ts as <;> simp [Except.map, h]
      · rw [if_neg h]; simp [h]

theorem takeArgs_eq {E V : Type} {ts : List Ty} {args as : List (Arg E V)} (h : takeArgs ts args = .ok as) :
    as = args := by
  induction ts generalizing args as with
  | nil => cases args <;> simp [takeArgs] at h; exact h
  | cons t ts ih =>
    cases args with
    | nil => simp [takeArgs] at h
    | cons a args =>
      simp only [takeArgs] at h
      split at h
      · cases h1 : takeArgs ts args with
        | error e => rw [h1] at h; cases h
        | ok x => rw [h1] at h; cases h; rw [ih h1]
      · cases h

theorem evalArgs_ok {E V : Type} {input : V} {args : List (Arg E V)} {vs : List V}
    (h : evalArgs input args = .ok vs) :
    vs.length = args.length ∧ ∀ (i : Nat) (a : Arg E V) (v : V), args[i]? = some a → vs[i]? = some v →
      a.eval input = .ok v := by
  induction args generalizing vs with
  | nil => cases h; simp
  | cons a args ih =>
    simp only [evalArgs] at h
    cases h1 : a.eval input with
    | error e => rw [h1] at h; cases h
    | ok v =>
      rw [h1] at h
      cases h2 : evalArgs input args with
      | error e => rw [h2] at h; cases h
      | ok ws =>
        rw [h2] at h; cases h
        obtain ⟨e1, e2⟩ := ih h2
        refine ⟨by simp [e1], ?_⟩
        intro i b w hb hw
        cases i with
        | zero => simp at hb hw; subst hb hw; exact h1
        | succ i => exact e2 i b w (by simpa using hb) (by simpa using hw)

theorem vecRemove_get {V : Type} (i : Nat) (vs : List V) : (vecRemove i vs).map (·.1) = vs[i]? := by
  induction vs generalizing i with
  | nil => cases i <;> simp [vecRemove]
  | cons v vs ih =>
    cases i with
    | zero => simp [vecRemove]
    | succ i =>
      rw [List.getElem?_cons_succ, ← ih i, vecRemove, Option.map_map]
      rfl

/-- A record is built exactly when there is one argument for each field, each of the field's type. -/
theorem construct_needs_exact_args {E V : Type} (ty : Ty) (k : Nat) (fields : List Field)
    (args : List (Arg E V)) :
    (∃ f, typedefInit ty k fields args = .ok f) ↔ args.map (·.ty) = fields.map (·.ty) := by
  rw [← takeArgs_ok]
  unfold typedefInit
  cases takeArgs (fields.map (·.ty)) args <;> simp [Except.map]

/-- Building a record on an input and reading the field `name` gives what the argument for that field
gives on that input, for owned and shared values; the field is the first of that name. -/
theorem construct_then_get {E V : Type} (ty : Ty) (k : Nat) (fields : List Field) (args : List (Arg E V))
    (mk : V → Except E (Data V)) (input : V) (d : Data V) (owned : Bool) (name : String) (i : Nat) (t : Ty)
    (hmk : typedefInit ty k fields args = .ok mk) (hd : mk input = .ok d)
    (hget : fieldIdx (fields.map fun f => (f.name, f.ty)) name = .ok (i, t)) :
    d.ty = ty ∧ d.variant = some k ∧
    ∃ (f : Field) (a : Arg E V) (v : V), fields[i]? = some f ∧ f.name = name ∧ f.ty = t ∧
      (∀ j < i, ∀ g, fields[j]? = some g → g.name ≠ name) ∧
      args[i]? = some a ∧ a.ty = t ∧ a.eval input = .ok v ∧ fieldGet owned i d = some v := by
  have hargs := (construct_needs_exact_args ty k fields args).1 ⟨mk, hmk⟩
  unfold typedefInit at hmk
  cases h1 : takeArgs (fields.map (·.ty)) args with
  | error e => rw [h1] at hmk; cases hmk
  | ok as =>
    have := takeArgs_eq h1
    subst this
    rw [h1] at hmk
    cases hmk
    simp only at hd
    cases h2 : evalArgs input as with
    | error e => rw [h2] at hd; cases hd
    | ok vs =>
      rw [h2] at hd
      cases hd
      refine ⟨rfl, rfl, ?_⟩
      obtain ⟨hl, hev⟩ := evalArgs_ok h2
      have hlen : as.length = fields.length := by simpa using congrArg List.length hargs
      unfold fieldIdx at hget
      cases hf : (fields.map fun f => (f.name, f.ty)).findIdx? (·.1 == name) with
      | none => rw [hf] at hget; cases hget
      | some j =>
        rw [hf] at hget
        obtain ⟨hj, hjp, hjmin⟩ := List.findIdx?_eq_some_iff_getElem.1 hf
        simp only [List.getElem?_eq_getElem hj] at hget
        simp only [Except.ok.injEq, Prod.mk.injEq] at hget
        obtain ⟨e, et⟩ := hget
        subst e
        have hjf : j < fields.length := by simpa using hj
        have hja : j < as.length := by omega
        have hjv : j < vs.length := by omega
        refine ⟨fields[j], as[j], vs[j], List.getElem?_eq_getElem hjf, ?_, ?_, ?_, List.getElem?_eq_getElem hja,
          ?_, ?_, ?_⟩
        · simpa using hjp
        · simpa using et
        · intro m hm g hg
          have := hjmin m hm
          have hmf : m < fields.length := by omega
          rw [List.getElem?_eq_getElem hmf] at hg
          cases hg
          simpa using this
        · have h3 : (as.map (·.ty))[j]? = (fields.map (·.ty))[j]? := by rw [hargs]
          rw [List.getElem?_map, List.getElem?_map, List.getElem?_eq_getElem hja,
            List.getElem?_eq_getElem hjf] at h3
          simp at h3
          rw [h3]; simpa using et
        · exact hev j _ _ (List.getElem?_eq_getElem hja) (List.getElem?_eq_getElem hjv)
        · unfold fieldGet
          cases owned with
          | true => simp only [if_true]; rw [vecRemove_get]; exact List.getElem?_eq_getElem hjv
          | false => simpa using List.getElem?_eq_getElem hjv

/-- Every field can be read when the names are distinct: the accessor for the name of field `i` is `i`. -/
theorem every_field_readable {α : Type} (fields : List (String × α)) (h : (fields.map (·.1)).Nodup) (i : Nat)
    (f : String × α) (hi : fields[i]? = some f) : fieldIdx fields f.1 = .ok (i, f.2) := by
  have hlt : i < fields.length := by
    rcases Nat.lt_or_ge i fields.length with h | h
    · exact h
    · rw [List.getElem?_eq_none h] at hi; cases hi
  have hfi : fields[i] = f := by
    rw [List.getElem?_eq_getElem hlt] at hi; exact Option.some.inj hi
  have : fields.findIdx? (·.1 == f.1) = some i := by
    rw [List.findIdx?_eq_some_iff_getElem]
    refine ⟨hlt, by simp [hfi], ?_⟩
    intro j hj hc
    have hjl : j < fields.length := by omega
    have e : fields[j].1 = f.1 := by simpa using hc
    have := List.pairwise_iff_getElem.1 h j i (by simpa using hjl) (by simpa using hlt) hj
    exact this (by simp [e, hfi])
  simp only [fieldIdx, this, hi]

/-- Of two fields with the same name only the first can be read. -/
theorem duplicate_field_unreadable :
    fieldIdx [("a", Ty.num), ("a", Ty.str)] "a" = .ok (0, Ty.num) := by decide +kernel

/-- A tuple has the fields `t0`, `t1`, …: field `ti` is read at position `i` and has the type of member
`i`; its names are distinct. -/
theorem tuple_field (ts : List TTy) (i : Nat) (t : TTy) (h : ts[i]? = some t) :
    fieldIdx (tupleFields ts) ("t" ++ toString i) = .ok (i, t) := by
  have hget : (tupleFields ts)[i]? = some ("t" ++ toString i, t) := by
    simp [tupleFields, List.getElem?_zipIdx, h]
  refine every_field_readable (tupleFields ts) ?_ i _ hget
  apply List.pairwise_iff_getElem.2
  intro a b _ _ hab e
  simp only [tupleFields, List.getElem_map, List.getElem_zipIdx, Nat.zero_add] at e
  have e := congrArg String.toList e
  rw [String.toList_append, String.toList_append] at e
  have e := List.append_cancel_left e
  have e : toString a = toString b := String.toList_inj.1 e
  have : a = b := Nat.repr_inj.1 e
  omega

/-- Building a tuple and reading member `i`. -/
theorem tuple_then_get {E V : Type} (args : List (Arg E V)) (tys : List TTy) (mk : V → Except E (Data V))
    (input : V) (d : Data V) (owned : Bool) (i : Nat) (a : Arg E V)
    (hmk : tupleIntrinsic args tys = .ok mk) (hd : mk input = .ok d) (ha : args[i]? = some a) :
    d.ty = (TTy.tuple tys).key ∧ ∃ v, a.eval input = .ok v ∧ fieldGet owned i d = some v := by
  unfold tupleIntrinsic at hmk
  split at hmk
  · cases hmk
  · cases hmk
    simp only at hd
    cases h2 : evalArgs input args with
    | error e => rw [h2] at hd; cases hd
    | ok vs =>
      rw [h2] at hd
      cases hd
      obtain ⟨hl, hev⟩ := evalArgs_ok h2
      have hlt : i < args.length := by
        rcases Nat.lt_or_ge i args.length with h | h
        · exact h
        · rw [List.getElem?_eq_none h] at ha; cases ha
      have hv : vs[i]? = some (vs[i]'(by omega)) := List.getElem?_eq_getElem (by omega)
      refine ⟨rfl, vs[i]'(by omega), hev i a _ ha hv, ?_⟩
      unfold fieldGet
      cases owned with
      | true => simp only [if_true]; rw [vecRemove_get]; exact hv
      | false => simpa using hv

/-! ### Non-vacuity -/

example : Clean (.tuple [.base .num, .tuple [.base (.def_ "Pt"), .base .str]]) ∧
    tyname (.tuple [.base .num, .tuple [.base (.def_ "Pt"), .base .str]]) = "U_Num-U_Pt-Str__".toList := by
  refine ⟨?_, by decide +kernel⟩
  simp only [Clean, CleanAll, CleanName]
  decide +kernel

example : ∃ d, run true base [.shell (.type_ "Pt" (.product [⟨"x", "Num", []⟩]))] = some d ∧
    (∀ t ∈ leavesAll [.base .num, .tuple [.base (.def_ "Pt"), .base .str]], d.Known t) := by
  refine ⟨_, rfl, ?_⟩
  intro t ht
  simp only [leavesAll, leaves, List.append_nil, List.cons_append, List.nil_append, List.mem_cons,
    List.not_mem_nil, or_false] at ht
  rcases ht with rfl | rfl | rfl
  · exact ⟨"Num", .prim .num, by decide +kernel, rfl⟩
  · exact ⟨"Pt", .def_ ⟨.shell, "Pt", .product [⟨"x", .num, []⟩]⟩, by decide +kernel, rfl⟩
  · exact ⟨"Str", .prim .str, by decide +kernel, rfl⟩

/-- A point with `x` computed from the input. -/
example : ∃ mk d, typedefInit (E := Unit) (V := Nat) (.def_ "Pt") 0 [⟨"x", .num, []⟩, ⟨"y", .num, []⟩]
      [⟨.num, fun n => .ok (n + 1)⟩, ⟨.num, fun _ => .ok 7⟩] = .ok mk ∧ mk 3 = .ok d ∧
    fieldIdx [("x", Ty.num), ("y", .num)] "y" = .ok (1, .num) ∧
    fieldGet true 0 d = some 4 ∧ fieldGet false 1 d = some 7 :=
  ⟨_, ⟨.def_ "Pt", some 0, [4, 7]⟩, rfl, rfl, by decide +kernel, by decide, by decide⟩

end Verif.Tuple
