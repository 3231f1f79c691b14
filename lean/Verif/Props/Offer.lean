import Verif.Spec.Offer
import Verif.Props.Help
import Verif.Props.Listing
import Verif.Props.ParseDefs
import Verif.Lemmas.Offer
import Verif.Lemmas.ShellCmpl
namespace Verif.Offer
open Verif

/-! ### What is offered -/

theorem allOf_ok {α β : Type} {f : α → Option β} {g : α → β → Prop} : ∀ {as : List α}, (∀ a ∈ as, ∃ b, f a = some b ∧ g a b) →
    ∃ bs, allOf f as = some bs ∧ bs.length = as.length ∧ ∀ (i : Nat) (a : α), as[i]? = some a → ∃ b, bs[i]? = some b ∧ g a b
  | [], _ => ⟨[], rfl, rfl, fun i a h => (by simp at h)⟩
  | a :: as, h => by
    obtain ⟨b, h1, h2⟩ := h a (List.mem_cons_self ..)
    obtain ⟨bs, h3, h4, h5⟩ := allOf_ok fun a ha => h a (List.mem_cons_of_mem _ ha)
    refine ⟨b :: bs, by rw [allOf, h1, h3]; rfl, by simp [h4], fun i c hc => ?_⟩
    cases i with
    | zero => cases hc; exact ⟨b, rfl, h2⟩
    | succ i => exact h5 i c hc

theorem map_of_zip {α β γ : Type} {as : List α} {bs : List β} {p : α → γ} {q : β → γ} (hl : bs.length = as.length)
    (h : ∀ (i : Nat) (a : α), as[i]? = some a → ∃ b, bs[i]? = some b ∧ q b = p a) : bs.map q = as.map p := by
  apply List.ext_getElem?
  intro i
  rw [List.getElem?_map, List.getElem?_map]
  cases ha : as[i]? with
  | none =>
    rw [List.getElem?_eq_none_iff] at ha
    rw [List.getElem?_eq_none_iff.2 (by omega)]
    rfl
  | some a =>
    obtain ⟨b, h1, h2⟩ := h i a ha
    rw [h1]
    exact congrArg some h2

/-- Of elements in a row with the same name one is kept. -/
theorem dedup_row (n : String) (rest : List String) (h : rest.head? ≠ some n) : ∀ m : Nat, dedup (List.replicate (m + 1) n ++ rest) = n :: dedup rest
  | 0 => by
    cases rest with
    | nil => rfl
    | cons y l =>
      have : n ≠ y := fun e => h (by rw [e]; rfl)
      show (if n = y then _ else _) = _
      rw [if_neg this]
  | m + 1 => by
    have ih := dedup_row n rest h m
    rw [List.replicate_succ, List.replicate_succ, List.cons_append, List.cons_append]
    rw [List.replicate_succ, List.cons_append] at ih
    rw [dedup, if_pos rfl]
    exact ih

theorem dedup_groups {α : Type} (g : α → Nat) (f : α → String) : ∀ (ps : List α), (ps.map f).Nodup → (∀ p ∈ ps, 0 < g p) →
    dedup (ps.flatMap fun p => List.replicate (g p) (f p)) = ps.map f
  | [], _, _ => rfl
  | p :: ps, hn, hg => by
    rw [List.map_cons, List.nodup_cons] at hn
    have ih := dedup_groups g f ps hn.2 fun q hq => hg q (List.mem_cons_of_mem _ hq)
    obtain ⟨m, hm⟩ : ∃ m, g p = m + 1 := ⟨g p - 1, by have := hg p (List.mem_cons_self ..); omega⟩
    rw [List.flatMap_cons, hm, dedup_row, ih, List.map_cons]
    intro he
    apply hn.1
    have : f p ∈ ps.flatMap fun p => List.replicate (g p) (f p) := List.mem_of_head? he
    obtain ⟨q, hq, h⟩ := List.mem_flatMap.1 this
    rw [(List.mem_replicate.1 h).2]
    exact List.mem_map_of_mem hq

theorem items_names {n : String} {ks : Defs.Keys} {l : List Listing.Item} (h : l.Perm (Listing.itemsOf n ks)) :
    l.map (·.name) = List.replicate (ks.tys.length + ks.agnostic.toList.length) n := by
  rw [List.eq_replicate_iff]
  refine ⟨by rw [List.length_map, h.length_eq]; simp [Listing.itemsOf], fun b hb => ?_⟩
  obtain ⟨x, hx, rfl⟩ := List.mem_map.1 hb
  have := h.mem_iff.1 hx
  unfold Listing.itemsOf at this
  rcases List.mem_append.1 this with h | h <;> obtain ⟨y, _, rfl⟩ := List.mem_map.1 h <;> rfl

theorem names_once {d : Defs.Defs} (hw : d.Wf) {xs : List Listing.Item} (h : Iterates d xs) :
    ∃ ps : List (String × Defs.Keys), ps.Perm d.impls ∧ dedup (xs.map (·.name)) = ps.map (·.1) := by
  obtain ⟨ps, inner, h1, h2, rfl⟩ := h
  refine ⟨ps, h1, ?_⟩
  rw [List.map_flatMap]
  have : (fun x : String × Defs.Keys => (inner x.1 x.2).map (·.name)) = fun x => List.replicate (x.2.tys.length + x.2.agnostic.toList.length) x.1 :=
    funext fun x => items_names (h2 x.1 x.2)
  rw [this]
  refine dedup_groups (fun x => x.2.tys.length + x.2.agnostic.toList.length) (fun x => x.1) ps ?_ ?_
  · exact (h1.map Prod.fst).nodup_iff.2 hw.impls
  · rintro ⟨n, ks⟩ hp
    have hk := (hw.keys n ks (AMap.get_of_mem hw.impls (h1.mem_iff.1 hp))).2
    dsimp only
    cases ks with
    | mk tys ag =>
      cases tys with
      | cons _ _ => simp; omega
      | nil =>
        cases ag with
        | some _ => simp
        | none => cases hk

theorem run_wf {checked : Bool} {os : List Defs.Op} {d : Defs.Defs} (h : Defs.run checked Defs.base os = some d) : d.Wf :=
  Defs.reach_wf Defs.base_wf (Defs.run_reach (fun _ => True) (fun _ => True) checked Defs.base os Defs.base d .refl
    (fun _ _ _ _ => trivial) (fun _ _ _ _ => trivial) h)

theorem str_name (n : String) : Prog.str n.toList = n := by simp [Prog.str]

/-- **C87**: whatever was defined, loaded and cleared before, each command that is defined is offered exactly once, whatever order the hash maps
have, with its name and its help; there always is help. -/
theorem commands_offered {W : Wsp} {checked : Bool} {os : List Defs.Op} (h : Defs.run checked Defs.base os = some W.defs)
    (hp : ∀ l, (W.order l).Perm l) {xs : List Listing.Item} (hx : Iterates W.defs xs) :
    ∃ ns : List String, ∃ ds, impls W xs = some ds ∧ ns.Nodup ∧ (∀ n, n ∈ ns ↔ W.defs.containsOp n = true) ∧ ds.length = ns.length ∧
      ∀ (i : Nat) (n : String), ns[i]? = some n → ∃ x, ds[i]? = some x ∧ SaysCommand W n x := by
  have hw := run_wf h
  obtain ⟨ps, h1, h2⟩ := names_once hw hx
  have hm : ∀ n, n ∈ ps.map (·.1) ↔ W.defs.containsOp n = true := by
    intro n
    unfold Defs.Defs.containsOp
    rw [AMap.has_iff]
    constructor
    · intro hn
      obtain ⟨⟨m, ks⟩, hq, rfl⟩ := List.mem_map.1 hn
      exact ⟨ks, AMap.get_of_mem hw.impls (h1.mem_iff.1 hq)⟩
    · rintro ⟨ks, hk⟩
      exact List.mem_map.2 ⟨(n, ks), h1.mem_iff.2 (AMap.mem_of_get hk), rfl⟩
  obtain ⟨ds, h3, h4, h5⟩ := allOf_ok (f := implDef W) (g := SaysCommand W) (as := ps.map (·.1)) (by
    intro n hn
    unfold implDef implHelp
    have hc := (hm n).1 hn
    unfold Defs.Defs.containsOp at hc
    obtain ⟨ks, hk⟩ := AMap.has_iff.1 hc
    obtain ⟨sh, hs⟩ := Help.stored_help checked os W.defs h W.msg n ks hk _ (hp (Help.entries W.msg ks))
    have : Help.stored W.msg W.order W.defs n.toList = some (some sh) := by
      unfold Help.stored
      rw [str_name, hk]
      exact hs
    rw [this]
    exact ⟨_, rfl, ks, sh, hk, hs, rfl⟩)
  refine ⟨ps.map (·.1), ds, by unfold impls; rw [h2]; exact h3, (h1.map Prod.fst).nodup_iff.2 hw.impls, hm, h4, h5⟩

/-- **C87**: so is each type. -/
theorem types_offered {W : Wsp} {checked : Bool} {os : List Defs.Op} (h : Defs.run checked Defs.base os = some W.defs)
    {xs : List (String × Defs.TyEntry)} (hx : xs.Perm W.defs.types) :
    ∃ ns : List String, ∃ ds, types W xs = some ds ∧ ns.Nodup ∧ (∀ n, n ∈ ns ↔ ∃ e, AMap.get W.defs.types n = some e) ∧ ds.length = ns.length ∧
      ∀ (i : Nat) (n : String), ns[i]? = some n → ∃ x, ds[i]? = some x ∧ SaysType W n x := by
  have hw := run_wf h
  obtain ⟨ds, h3, h4, h5⟩ := allOf_ok (f := typeDef W) (g := fun p x => SaysType W p.1 x) (as := xs) (by
    rintro ⟨n, e⟩ hn
    obtain ⟨sh, hs⟩ := Help.help_exists (none, W.tyMsg e) []
    refine ⟨_, by unfold typeDef tyHelp; rw [hs]; rfl, e, sh, AMap.get_of_mem hw.types (hx.mem_iff.1 hn), hs, rfl⟩)
  refine ⟨xs.map (·.1), ds, h3, (hx.map Prod.fst).nodup_iff.2 hw.types, fun n => ⟨fun hn => ?_, ?_⟩, by rw [h4, List.length_map], ?_⟩
  · obtain ⟨⟨m, e⟩, hq, rfl⟩ := List.mem_map.1 hn
    exact ⟨e, AMap.get_of_mem hw.types (hx.mem_iff.1 hq)⟩
  · rintro ⟨e, he⟩
    exact List.mem_map.2 ⟨(n, e), hx.mem_iff.2 (AMap.mem_of_get he), rfl⟩
  · intro i n hi
    rw [List.getElem?_map] at hi
    obtain ⟨p, hp, rfl⟩ := Option.map_eq_some_iff.1 hi
    exact h5 i p hp

/-- **C87**: what is asked for is offered, nothing else: file names first, then commands, types and special literals. Looking it up does not panic. -/
theorem all_asked {W : Wsp} {o : Orders} {checked : Bool} {os : List Defs.Op} (h : Defs.run checked Defs.base os = some W.defs) (hr : Real W o)
    (dir : Option (Text → List (Text × Bool))) (line : Text) (its : ParseErr.Items) :
    ∃ cs ts, impls W o.impls = some cs ∧ types W o.types = some ts ∧
      cmpls W o dir line its = some ((if its.paths then pathsIn dir line else []) ++ ((if its.impls then cs else []) ++
        ((if its.types then ts else []) ++ if its.speclits then literals else []))) := by
  obtain ⟨_, cs, h1, _⟩ := commands_offered h hr.help hr.impls
  obtain ⟨_, ts, h2, _⟩ := types_offered h hr.types
  refine ⟨cs, ts, h1, h2, ?_⟩
  obtain ⟨a, b, c, d⟩ := its
  unfold cmpls when_
  rw [h1, h2]
  cases a <;> cases b <;> cases c <;> cases d <;> rfl

/-! ### What is offered can be typed -/

def asciiName (s : Text) : Bool := (s.head?.any Char.isAlpha) && s.all fun c => c.isAlpha || c == '-' || c == '_'

/-- A symbol, a name, or a constructor of `Ord`. -/
def baseName (s : Text) : Bool := decide (s ∈ Parse.specOps) || asciiName s || [['L', 't'], ['E', 'q'], ['G', 't']].any fun v => s == ['O', 'r', 'd'] ++ [':', ':'] ++ v

theorem base_commands : ∀ x ∈ Defs.base.impls, baseName x.1.toList = true := by decide +kernel
theorem base_types : ∀ x ∈ Defs.base.types, asciiName x.1.toList = true := by decide +kernel

section
variable {C : Parse.Env} (L : Parse.Laws C) (hA : Letters C)
include L hA

theorem name_ok {s : Text} (h : asciiName s = true) : Parse.IsName C.cls s := by
  unfold asciiName at h
  rw [Bool.and_eq_true] at h
  cases s with
  | nil => cases h.1
  | cons c s =>
    refine ⟨⟨c, s, rfl, hA c h.1⟩, fun x hx => ?_⟩
    have := List.all_eq_true.1 h.2 x hx
    unfold File.Classes.ident
    simp only [Bool.or_eq_true] at this ⊢
    rcases this with (h | h) | h
    · exact .inl (.inl (L.alnum x (hA x h)))
    · exact .inl (.inr h)
    · exact .inr h

theorem base_name_ok {s : Text} (h : baseName s = true) : Parse.IsOp C.cls (.single s) := by
  unfold baseName at h
  simp only [Bool.or_eq_true] at h
  rcases h with (h | h) | h
  · exact .inl (of_decide_eq_true h)
  · exact .inr (name_ok L hA h).op
  · obtain ⟨v, hv, e⟩ := List.any_eq_true.1 h
    rw [beq_iff_eq.1 e]
    refine .inr ((name_ok L hA (s := ['O', 'r', 'd']) (by decide)).op.snoc (name_ok L hA ?_))
    simp only [List.mem_cons, List.not_mem_nil, or_false] at hv
    rcases hv with rfl | rfl | rfl <;> decide

end

theorem variant_names {m : AMap String Defs.TyEntry} {sh : Defs.Shape Defs.RawField} {vs : List (String × List Defs.Field)}
    (h : Defs.parsedShape m sh = some (.sum vs)) : ∃ us, sh = .sum us ∧ ∀ v ∈ vs, ∃ u ∈ us, v.1 = u.1 := by
  cases sh with
  | product rs =>
    simp only [Defs.parsedShape] at h
    cases hp : Defs.parsedFields m rs <;> rw [hp] at h <;> cases h
  | sum us =>
    refine ⟨us, rfl, fun v hv => ?_⟩
    simp only [Defs.parsedShape] at h
    obtain ⟨ws, h1, h2⟩ := Option.map_eq_some_iff.1 h
    cases h2
    obtain ⟨u, hu, e⟩ := Defs.allSome_mem h1 v hv
    obtain ⟨fs, _, rfl⟩ := Option.map_eq_some_iff.1 e
    exact ⟨u, hu, rfl⟩

theorem ctor_names {C : Parse.Env} {m : AMap String Defs.TyEntry} {loc : Defs.Loc} {name : String} {sh : Defs.Shape Defs.RawField} {sh' : Defs.Shape Defs.Field}
    (hs : Defs.parsedShape m sh = some sh') (hP : Readable C (.type_ name sh)) {n : String} (hn : n ∈ (Defs.ctors ⟨loc, name, sh'⟩).map (·.1)) :
    Parse.IsOp C.cls (.single n.toList) := by
  cases sh' with
  | product fs =>
    obtain ⟨rs, rfl⟩ := Defs.parsedShape_product hs
    rw [show n = name from by simpa [Defs.ctors] using hn]
    exact .inr hP.op
  | sum vs =>
    obtain ⟨us, rfl, hu⟩ := variant_names hs
    unfold Defs.ctors at hn
    dsimp only at hn
    rw [List.map_map] at hn
    obtain ⟨⟨v, i⟩, hv, rfl⟩ := List.mem_map.1 hn
    obtain ⟨u, h1, h2⟩ := hu v (by
      have := List.mem_zipIdx_iff_getElem?.1 hv
      exact List.mem_of_getElem? this)
    show Parse.IsOp C.cls (.single (name ++ "::" ++ v.1).toList)
    rw [String.toList_append, String.toList_append, h2]
    exact .inr (hP.1.op.snoc (hP.2 u h1))

theorem types_clear {d : Defs.Defs} (hw : d.Wf) {b : Bool} {n : String} {e : Defs.TyEntry} (h : AMap.get (d.clear b).types n = some e) :
    AMap.get d.types n = some e := by
  unfold Defs.Defs.clear Defs.clearTypes at h
  dsimp only at h
  rw [AMap.get_retain hw.types] at h
  exact (Option.filter_eq_some_iff.1 h).1

theorem readable_reach {C : Parse.Env} (L : Parse.Laws C) (hA : Letters C) {checked : Bool} {Cl : Bool → Prop} {d : Defs.Defs}
    (h : Defs.Reach (Readable C) Cl checked Defs.base d) :
    (∀ n k i, d.entry n k = some i → Parse.IsOp C.cls (.single n.toList)) ∧ ∀ n e, AMap.get d.types n = some e → Parse.IsName C.cls n.toList := by
  induction h with
  | refl =>
    refine ⟨fun n k i h => ?_, fun n e h => name_ok L hA (base_types _ (AMap.mem_of_get h))⟩
    obtain ⟨ks, hk⟩ := AMap.has_iff.1 ((Defs.containsOp_iff Defs.base_wf n).2 ⟨k, i, h⟩)
    exact base_name_ok L hA (base_commands _ (AMap.mem_of_get hk))
  | clear hr _ ih =>
    have hw := Defs.reach_wf Defs.base_wf hr
    refine ⟨fun n k i h => ?_, fun n e h => ih.2 n e (types_clear hw h)⟩
    rw [Defs.entry_clear hw] at h
    exact ih.1 n k i (Option.filter_eq_some_iff.1 h).1
  | @request d1 d2 loc r hr _ hP hp ih =>
    have hw := Defs.reach_wf Defs.base_wf hr
    rcases Defs.process_ok hp with e | e | ⟨m, u, ops, src, k', rfl, _, hu, hi⟩ | ⟨m, sh, rfl, hi⟩
    · rw [e]; exact ih
    · rw [e]
      refine ⟨fun n k i h => ?_, fun n e h => ih.2 n e (types_clear hw h)⟩
      rw [Defs.entry_clear hw] at h
      exact ih.1 n k i (Option.filter_eq_some_iff.1 h).1
    · obtain ⟨_, h2, _, h4⟩ := Defs.insertImpl_ok hw hi
      refine ⟨fun n k i h => ?_, fun n e h => ih.2 n e (by rw [← h2]; exact h)⟩
      rw [h4] at h
      split at h
      · rename_i hc
        rw [← hc.1]
        exact hP
      · exact ih.1 n k i h
    · obtain ⟨sh', h1, h2, h3, h4, h5, h6, h7⟩ := Defs.insertType_ok hw hi
      refine ⟨fun n k i h => ?_, fun n e h => ?_⟩
      · cases k with
        | some t => rw [h5] at h; exact ih.1 n _ i h
        | none =>
          by_cases hn : n ∈ (Defs.ctors ⟨loc, m, sh'⟩).map (·.1)
          · exact ctor_names h1 hP hn
          · rw [h6 n hn] at h
            exact ih.1 n _ i h
      · rw [h4, AMap.get_insert] at h
        split at h
        · rename_i e
          rw [← e]
          cases sh with
          | sum vs => exact hP.1
          | product _ => exact hP
        · exact ih.2 n _ h

theorem reqOf_readable {C : Parse.Env} (L : Parse.Laws C) {f : Text → Bool} {d : Defs.Defs} {text : Text} {r : Defs.Req}
    (h : Enter.reqOf { C with known := f } d text = some r) : Readable C r := by
  cases r with
  | impl m u ops src =>
    obtain ⟨rest, df, h1, rfl, _⟩ := Enter.reqOf_impl h
    have := (Parse.definition_good (Enter.laws_known L f) h1).1
    unfold Readable
    simpa [Prog.str] using this
  | type_ m sh =>
    obtain ⟨rest, dt, h1, rfl, rfl⟩ := Enter.reqOf_type h
    have hg := Parse.type_good h1
    have hb := hg.2
    cases hd : dt.body with
    | product fs => simpa [Readable, Enter.rawShape, Prog.str] using hg.1
    | sum vs =>
      rw [hd] at hb
      refine ⟨by simpa [Prog.str] using hg.1, fun v hv => ?_⟩
      obtain ⟨w, hw, rfl⟩ := List.mem_map.1 hv
      simpa [Prog.str] using (hb w hw).1
  | _ => trivial

/-- **C87**: in every session the name of each command can be written as one, so what completion offers is read as that command, alone or after a pipe;
the name of each type can be written as one. -/
theorem names_readable {C : Parse.Env} (L : Parse.Laws C) (hA : Letters C) {checked : Bool} {s0 s : Enter.Session} {es : List Enter.Event}
    (hb : Enter.Begun C s0) (h : Enter.run C checked s0 es = some s) :
    (∀ n, s.defs.containsOp n = true → Parse.IsOp C.cls (.single n.toList)) ∧ ∀ n e, AMap.get s.defs.types n = some e → Parse.IsName C.cls n.toList := by
  have hg : Enter.Good (Readable C) C checked s := Enter.run_good es (Enter.begun_good hb) (fun e he t ht d r hr => reqOf_readable L hr) h
  have hr := readable_reach L hA hg.reach
  refine ⟨fun n hn => ?_, hr.2⟩
  obtain ⟨k, i, hi⟩ := (Defs.containsOp_iff (Defs.reach_wf Defs.base_wf hg.reach) n).1 hn
  exact hr.1 n k i hi

theorem writeB_call (n : Text) : Parse.writeB (call n) = n := by simp [Parse.writeB, call, Parse.writeOp, Parse.writeTy, Parse.writeTs]

/-- **C87**: a command that is offered is read as that command: alone, behind a pipe, and with each type that is offered behind it. -/
theorem offered_reads {C : Parse.Env} (L : Parse.Laws C) (hA : Letters C) {checked : Bool} {s0 s : Enter.Session} {es : List Enter.Event}
    (hb : Enter.Begun C s0) (h : Enter.run C checked s0 es = some s) {n : String} (hn : s.defs.containsOp n = true) (f : Text → Bool) :
    Parse.parse { C with known := f } n.toList = .ok [] (.expr (.mk [call n.toList] none)) ∧
    (∀ bs out, Parse.GoodE { C with known := f } (.mk bs out) → Parse.expression { C with known := f } (Parse.write (.mk bs out) ++ ([' ', '|', ' '] ++ n.toList)) =
      .ok [] (.mk (bs ++ [call n.toList]) none)) ∧
    ∀ t e, AMap.get s.defs.types t = some e → Parse.expression { C with known := f } (n.toList ++ ':' :: t.toList) =
      .ok [] (.mk [.mk none (.single n.toList) (some t.toList) []] none) := by
  have hr := names_readable L hA hb h
  have ho := hr.1 n hn
  have Lf := Enter.laws_known L f
  have hc : Parse.GoodB { C with known := f } (call n.toList) := ⟨trivial, ho, trivial, trivial⟩
  refine ⟨?_, fun bs out hg => ?_, fun t e ht => ?_⟩
  · have h1 := Parse.expression_round_trip Lf (.mk [call n.toList] none) ⟨by simp, ⟨hc, trivial⟩, trivial⟩
    have h2 : Parse.write (.mk [call n.toList] none) = n.toList := by rw [Parse.write, Parse.writeBs, writeB_call]
    rw [h2] at h1
    unfold Parse.parse
    have hblank : ' ' ∉ n.toList := fun hm => by have := multi_free L ho ' ' hm; revert this; decide
    rw [if_neg, if_neg]
    · rw [h1]; rfl
    · intro hp
      obtain ⟨q, hq⟩ := List.isPrefixOf_iff_prefix.1 hp
      exact hblank (by rw [← hq]; simp)
    · intro hp
      obtain ⟨q, hq⟩ := List.isPrefixOf_iff_prefix.1 hp
      exact hblank (by rw [← hq]; simp)
  · have h1 := Parse.expression_round_trip Lf (.mk (bs ++ [call n.toList]) none) ⟨by simp, goodBs_snoc hc hg.2.1, trivial⟩
    rw [Parse.write, writeBs_snoc _ _ hg.1, writeB_call] at h1
    exact h1
  · have h1 := Parse.expression_round_trip Lf (.mk [.mk none (.single n.toList) (some t.toList) []] none)
      ⟨by simp, ⟨⟨trivial, ho, hr.2 t e ht, trivial⟩, trivial⟩, trivial⟩
    have h2 : Parse.write (.mk [.mk none (.single n.toList) (some t.toList) []] none) = n.toList ++ ':' :: t.toList := by
      simp [Parse.write, Parse.writeBs, Parse.writeB, Parse.writeOp, Parse.writeTy, Parse.writeTs]
    rw [h2] at h1
    exact h1

/-! ### When commands are offered -/

/-- **C87**: while the name of a command is typed, at the start of a line or behind a pipe, commands are offered and nothing else. -/
theorem commands_while_typing {k : Parse.Env} (L : Parse.Laws k) {bs : List Parse.Blk} (hg : Parse.GoodBs k bs) {n : Text} (hn : Parse.IsOp k.cls (.single n)) {w : Text}
    (hw : w = Parse.writeBs (bs ++ [call n])) (h1 : ¬ ['d', 'e', 'f', ' '] <+: w) (h2 : ¬ ['d', 'e', 'f', '-', 't', 'y', ' '] <+: w)
    (hu : ∀ r x, Tags.parse k w = .ok r x → x.usesPath = false) : ParseErr.completions k w = some (some ⟨true, false, false, false⟩) := by
  obtain ⟨t, xs, out, s, h3, h4, h5, h6, h7⟩ := last_command L hg hn hw
  have hp : Tags.parse k w = .ok [] (.expr (.mk t xs out)) := by
    unfold Tags.parse
    rw [if_neg (fun h => h1 (List.isPrefixOf_iff_prefix.1 h)), if_neg (fun h => h2 (List.isPrefixOf_iff_prefix.1 h)), h3]
    rfl
  have hf := Tags.node_found hp (hu _ _ hp) (n := ⟨s, .command⟩) (by exact h4) h6 h7
  unfold ParseErr.completions
  rw [hp]
  dsimp only
  rw [hu _ _ hp, hf]
  rfl

/-- **C87**: in particular for the first word of a line. -/
theorem commands_first_word {k : Parse.Env} (L : Parse.Laws k) {n : Text} (hn : Parse.IsOp k.cls (.single n)) :
    ParseErr.completions k n = some (some ⟨true, false, false, false⟩) := by
  have hblank : ' ' ∉ n := fun hm => by have := multi_free L hn ' ' hm; revert this; decide
  refine commands_while_typing L (bs := []) trivial hn (by rw [List.nil_append, Parse.writeBs, writeB_call]) ?_ ?_ ?_
  · rintro ⟨q, rfl⟩; exact hblank (by simp)
  · rintro ⟨q, rfl⟩; exact hblank (by simp)
  · intro r x hx
    obtain ⟨y, h1, h2⟩ := (Tags.tag_is_place n).1 r x hx
    have h3 := Parse.expression_round_trip L (.mk [call n] none) ⟨by simp, ⟨⟨trivial, hn, trivial, trivial⟩, trivial⟩, trivial⟩
    rw [Parse.write, Parse.writeBs, writeB_call] at h3
    have h4 : Parse.parse k n = .ok [] (.expr (.mk [call n] none)) := by
      unfold Parse.parse
      rw [if_neg, if_neg, h3]
      · rfl
      · intro hp
        obtain ⟨q, hq⟩ := List.isPrefixOf_iff_prefix.1 hp
        exact hblank (by rw [← hq]; simp)
      · intro hp
        obtain ⟨q, hq⟩ := List.isPrefixOf_iff_prefix.1 hp
        exact hblank (by rw [← hq]; simp)
    rw [h4] at h1
    cases h1
    cases x with
    | impl d => simp [Tags.LParsed.text] at h2
    | ty d => simp [Tags.LParsed.text] at h2
    | expr e =>
      obtain ⟨e', h5, h6⟩ := Option.map_eq_some_iff.1 h2
      cases h6
      obtain ⟨t, xs, out⟩ := e
      unfold Tags.LExpr.text at h5
      obtain ⟨_, _, h5⟩ := Option.bind_eq_some_iff.1 h5
      obtain ⟨ys, h7, h5⟩ := Option.bind_eq_some_iff.1 h5
      obtain ⟨_, _, h5⟩ := Option.map_eq_some_iff.1 h5
      injection h5 with h5 _
      subst h5
      cases xs with
      | nil => cases h7
      | cons x xs =>
        unfold Tags.textBs at h7
        obtain ⟨_, h8, h7⟩ := Option.bind_eq_some_iff.1 h7
        obtain ⟨_, h9, h7⟩ := Option.map_eq_some_iff.1 h7
        injection h7 with e1 e2
        subst e1 e2
        obtain ⟨s, rfl, _⟩ := call_text h8
        cases xs with
        | nil => rfl
        | cons y ys =>
          unfold Tags.textBs at h9
          obtain ⟨_, _, h9⟩ := Option.bind_eq_some_iff.1 h9
          obtain ⟨_, _, h9⟩ := Option.map_eq_some_iff.1 h9
          cases h9

/-! ### What the shell lists -/

theorem wordAt_spec (l r : Text) : WordAt l r (Shell.wordAt l r) := by
  unfold Shell.wordAt
  split
  · rename_i h
    cases r with
    | nil => cases h
    | cons c r => exact .inl ⟨c, r, rfl, h, rfl⟩
  · rename_i h
    refine .inr ⟨fun c r' e => ?_, (Shell.cut l).1, (Shell.cut_append l).symm, Shell.cut_word l, Shell.cut_pre l⟩
    rw [e] at h
    cases hc : Shell.isSplit c with
    | false => rfl
    | true => exact absurd hc h

theorem slice_word (l r : Text) : Shell.sliceBytes (l ++ r) (Shell.wordStart (l ++ r) (Shell.utf8Len l)) (Shell.utf8Len l) = some (Shell.wordAt l r) := by
  have hcut := Shell.cut_append l
  have hle : Shell.utf8Len (Shell.cut l).1 ≤ Shell.utf8Len l := by
    conv => rhs; rw [← hcut]
    rw [Shell.utf8Len_append]; omega
  have hws : Shell.wordStart (l ++ r) (Shell.utf8Len l) = if r.head?.any Shell.isSplit = true then Shell.utf8Len l else Shell.utf8Len (Shell.cut l).1 := by
    rw [Shell.wordStart, Shell.wordStartLoop_left _ _ _ _ _ (by omega), Nat.zero_add, Shell.wordStartLoop_right _ _ _ (by split <;> omega)]
    split
    · rfl
    · split
      · rename_i h; simp [h, Shell.utf8Len]
      · omega
  rw [Shell.sliceBytes, hws, if_pos (by split <;> omega), Shell.takeBytes_left, Option.bind_some]
  unfold Shell.wordAt
  split
  · have := Shell.dropBytes_left l []
    rw [List.append_nil] at this
    exact this
  · have := Shell.dropBytes_left (Shell.cut l).1 (Shell.cut l).2
    rw [hcut] at this
    exact this

/-- **C87**: below the input the shell lists the first ten of those offered for the text before the cursor whose names start with the word at the cursor,
in the order they are offered in. -/
theorem listed_below {k : Parse.Env} {W : Wsp} {o : Orders} {dir : Text → List (Text × Bool)} {l r : Text} {ds : Option (List Def)} (h : get k W o (some dir) l = some ds) :
    ∃ word, WordAt l r word ∧ listed k W o dir (l ++ r) (Shell.utf8Len l) = some (((ds.getD []).filter fun d => word.isPrefixOf d.name).take 10) := by
  refine ⟨Shell.wordAt l r, wordAt_spec l r, ?_⟩
  unfold listed complete
  rw [slice_word, Option.bind_some, Shell.takeBytes_left, Option.bind_some, h]
  unfold matching
  simp [List.take_take]

theorem get_items {k : Parse.Env} {W : Wsp} {o : Orders} {dir : Option (Text → List (Text × Bool))} {l : Text} {its : ParseErr.Items}
    (h : ParseErr.completions k l = some (some its)) : get k W o dir l = (cmpls W o dir l its).map some := by
  unfold get
  rw [h]
  rfl

theorem split_free {k : Parse.Env} (L : Parse.Laws k) {s : Text} (h : Parse.IsOpName k.cls s) : ∀ c ∈ s, Shell.isSplit c = false := by
  obtain ⟨ss, hne, hall, rfl⟩ := h
  have hn : ∀ n ∈ ss, ∀ c ∈ n, Shell.isSplit c = false := fun n hn c hm => by
    have := (hall n hn).2 c hm
    cases hc : Shell.isSplit c with
    | false => rfl
    | true =>
      have hc := of_decide_eq_true hc
      rw [L.ident_off (by simp only [List.mem_cons, List.not_mem_nil, or_false] at hc ⊢; rcases hc with h | h | h | h | h | h | h <;> simp [h])] at this
      cases this
  cases ss with
  | nil => exact absurd rfl hne
  | cons s ss =>
    rw [Parse.join_cons]
    intro c hm
    rcases List.mem_append.1 hm with hm | hm
    · exact hn s (List.mem_cons_self ..) c hm
    · obtain ⟨t, ht, hm⟩ := List.mem_flatMap.1 hm
      rcases List.mem_append.1 hm with hm | hm
      · simp only [List.mem_cons, List.not_mem_nil, or_false, or_self] at hm
        rw [hm]; decide
      · exact hn t (List.mem_cons_of_mem _ ht) c hm

/-- The word at the cursor is determined by the text before and behind it. -/
theorem WordAt.unique {l r a b : Text} (h1 : WordAt l r a) (h2 : WordAt l r b) : a = b := by
  have key : ∀ {p q a b : Text}, p ++ a = q ++ b → (∀ c ∈ a, Shell.isSplit c = false) → (q = [] ∨ ∃ q' c, q = q' ++ [c] ∧ Shell.isSplit c = true) →
      q.length ≥ p.length → a = b := by
    intro p q a b he ha hq hl
    rcases List.append_eq_append_iff.1 he with ⟨x, rfl, rfl⟩ | ⟨x, rfl, rfl⟩
    · cases hx : x.getLast? with
      | none => rw [List.getLast?_eq_none_iff.1 hx]; rfl
      | some c =>
        obtain ⟨y, rfl⟩ := List.getLast?_eq_some_iff.1 hx
        have hc := ha c (by simp)
        rcases hq with hq | ⟨q', d, hq, hd⟩
        · simp at hq
        · rw [← List.append_assoc] at hq
          have := (List.append_inj' hq rfl).2
          injection this with this
          rw [this, hd] at hc
          cases hc
    · have : x = [] := List.eq_nil_of_length_eq_zero (by rw [List.length_append] at hl; omega)
      rw [this]; rfl
  rcases h1 with ⟨c, r', e1, hc, rfl⟩ | ⟨hr, p, hp, ha, hpp⟩
  · rcases h2 with ⟨_, _, _, _, rfl⟩ | ⟨hr, _⟩
    · rfl
    · rw [hr c r' e1] at hc; cases hc
  · rcases h2 with ⟨c, r', e1, hc, rfl⟩ | ⟨_, q, hq, hb, hqq⟩
    · rw [hr c r' e1] at hc; cases hc
    · have he : p ++ a = q ++ b := by rw [← hp, ← hq]
      rcases Nat.le_total p.length q.length with hl | hl
      · exact key he ha hqq hl
      · exact (key he.symm hb hpp hl).symm

/-- **C87**: while the name of a command is typed, behind other blocks or first in the line, the shell lists the first ten of the commands that start with
what is typed, in the order the hash maps give; and nothing else. -/
theorem typed_lists {k : Parse.Env} (L : Parse.Laws k) {W : Wsp} {o : Orders} {checked : Bool} {os : List Defs.Op} (h : Defs.run checked Defs.base os = some W.defs) (hr : Real W o)
    {bs : List Parse.Blk} (hg : Parse.GoodBs k bs) {n : Text} (hn : Parse.IsOpName k.cls n) {w : Text}
    (hw : w = Parse.writeBs (bs ++ [call n])) (h1 : ¬ ['d', 'e', 'f', ' '] <+: w) (h2 : ¬ ['d', 'e', 'f', '-', 't', 'y', ' '] <+: w)
    (hu : ∀ r x, Tags.parse k w = .ok r x → x.usesPath = false) (dir : Text → List (Text × Bool)) {r : Text} (hb : ∀ c r', r = c :: r' → Shell.isSplit c = false) :
    ∃ cs, impls W o.impls = some cs ∧ listed k W o dir (w ++ r) (Shell.utf8Len w) = some ((cs.filter fun d => n.isPrefixOf d.name).take 10) := by
  have hc := commands_while_typing L hg (.inr hn) hw h1 h2 hu
  obtain ⟨cs, ts, h3, _, h4⟩ := all_asked h hr (some dir) w ⟨true, false, false, false⟩
  have hget := get_items (W := W) (o := o) (dir := some dir) hc
  rw [h4] at hget
  obtain ⟨word, h5, h6⟩ := listed_below (r := r) hget
  have h7 : WordAt w r n := by
    refine .inr ⟨hb, ?_⟩
    cases bs with
    | nil => exact ⟨[], by rw [hw, List.nil_append, Parse.writeBs, writeB_call]; rfl, split_free L hn, .inl rfl⟩
    | cons b bs =>
      refine ⟨Parse.writeBs (b :: bs) ++ [' ', '|', ' '], ?_, split_free L hn, .inr ⟨Parse.writeBs (b :: bs) ++ [' ', '|'], ' ', by simp, by decide⟩⟩
      rw [hw, writeBs_snoc _ _ (by simp), writeB_call, List.append_assoc]
  have := h5.unique h7
  subst this
  refine ⟨cs, h3, ?_⟩
  rw [h6]
  simp

/-- **C87**: as long as not more than ten commands start with what is typed, those are exactly what is listed. -/
theorem all_listed {W : Wsp} {checked : Bool} {os : List Defs.Op} (h : Defs.run checked Defs.base os = some W.defs)
    (hp : ∀ l, (W.order l).Perm l) {xs : List Listing.Item} (hx : Iterates W.defs xs) {cs : List Def} (hc : impls W xs = some cs) (n : Text)
    {few : List String} (hf : ∀ m, W.defs.containsOp m = true → n <+: m.toList → m ∈ few) (hl : few.length ≤ 10) (m : Text) :
    m ∈ ((cs.filter fun d => n.isPrefixOf d.name).take 10).map (·.name) ↔ W.defs.containsOp (String.ofList m) = true ∧ n <+: m := by
  obtain ⟨ns, ds, h1, h2, h3, h4, h5⟩ := commands_offered h hp hx
  rw [h1] at hc
  have hc := Option.some.inj hc
  subst hc
  have hnames : ds.map (·.name) = ns.map (·.toList) := map_of_zip h4 fun i a ha => by
    obtain ⟨x, hx, ks, sh, _, _, rfl⟩ := h5 i a ha
    exact ⟨_, hx, rfl⟩
  have hfil : (ds.filter fun d => n.isPrefixOf d.name).map (·.name) = (ns.filter fun m => n.isPrefixOf m.toList).map (·.toList) := by
    have h6 : (ds.filter fun d => n.isPrefixOf d.name).map (·.name) = (ds.map (·.name)).filter (n.isPrefixOf ·) := by
      rw [List.filter_map]; rfl
    have h7 : (ns.filter fun m => n.isPrefixOf m.toList).map (·.toList) = (ns.map (·.toList)).filter (n.isPrefixOf ·) := by
      rw [List.filter_map]; rfl
    rw [h6, h7, hnames]
  have hlen : (ds.filter fun d => n.isPrefixOf d.name).length ≤ 10 := by
    have h6 := congrArg List.length hfil
    rw [List.length_map, List.length_map] at h6
    rw [h6]
    refine Nat.le_trans ?_ hl
    refine List.Nodup.length_le_of_subset (List.Pairwise.sublist List.filter_sublist h2) fun m hm => ?_
    rw [List.mem_filter] at hm
    exact hf m ((h3 m).1 hm.1) (List.isPrefixOf_iff_prefix.1 hm.2)
  rw [List.take_of_length_le hlen, hfil]
  simp only [List.mem_map, List.mem_filter]
  constructor
  · rintro ⟨a, ⟨ha, hq⟩, rfl⟩
    exact ⟨by rw [String.ofList_toList]; exact (h3 a).1 ha, List.isPrefixOf_iff_prefix.1 hq⟩
  · rintro ⟨ha, hq⟩
    exact ⟨String.ofList m, ⟨(h3 _).2 ha, by rw [String.toList_ofList]; exact List.isPrefixOf_iff_prefix.2 hq⟩, String.toList_ofList⟩

/-! ### Hover -/

theorem node_shows {W : Wsp} {checked : Bool} {os : List Defs.Op} (h : Defs.run checked Defs.base os = some W.defs) (hp : ∀ l, (W.order l).Perm l)
    {code t : Text} {n : Tags.Node} (ht : n.tag.str code = some t) : ∃ shown, nodeText W code n = some shown ∧ Shows W n.ty t shown := by
  unfold nodeText
  rw [ht, Option.bind_some]
  have rest : n.ty ≠ .command → n.ty ≠ .type → ∃ shown, (nodeHelp W t n.ty).map (withHelp (docHeader t n.ty)) = some shown ∧ Shows W n.ty t shown := by
    intro h1 h2
    refine ⟨docHeader t n.ty, ?_, .inr (.inr ⟨fun e => absurd e h1, fun e => absurd e h2, rfl⟩)⟩
    cases hty : n.ty <;> first | rfl | exact absurd hty h1 | exact absurd hty h2
  cases hty : n.ty with
  | command =>
    unfold nodeHelp implHelp Help.stored
    dsimp only
    cases hk : AMap.get W.defs.impls (String.ofList t) with
    | none =>
      have hk' : AMap.get W.defs.impls (Prog.str t) = none := hk
      rw [hk']
      refine ⟨_, rfl, .inr (.inr ⟨fun _ => ?_, fun e => (by cases e), rfl⟩)⟩
      unfold Defs.Defs.containsOp
      cases hh : AMap.has W.defs.impls (String.ofList t) with
      | false => rfl
      | true =>
        obtain ⟨ks, hks⟩ := AMap.has_iff.1 hh
        rw [hk] at hks
        cases hks
    | some ks =>
      have hk' : AMap.get W.defs.impls (Prog.str t) = some ks := hk
      rw [hk']
      dsimp only
      obtain ⟨sh, hs⟩ := Help.stored_help checked os W.defs h W.msg _ ks hk _ (hp (Help.entries W.msg ks))
      rw [hs]
      exact ⟨_, rfl, .inl ⟨ks, sh, rfl, hk, hs, rfl⟩⟩
  | type =>
    unfold nodeHelp typeHelp
    dsimp only
    cases hk : AMap.get W.defs.types (String.ofList t) with
    | none => exact ⟨_, rfl, .inr (.inr ⟨fun e => (by cases e), fun _ => hk, rfl⟩)⟩
    | some e =>
      dsimp only
      unfold tyHelp
      obtain ⟨sh, hs⟩ := Help.help_exists (none, W.tyMsg e) []
      rw [hs]
      exact ⟨_, rfl, .inr (.inl ⟨e, sh, rfl, hk, hs, rfl⟩)⟩
  | _ => rw [hty] at rest; exact rest (by simp) (by simp)

theorem leaf_text {k : Parse.Env} {code r : Text} {x : Tags.LParsed} (hx : Tags.parse k code = .ok r x) (hu : x.usesPath = false) {n : Tags.Node} (hn : n ∈ x.leaves) :
    ∃ t, n.tag.str code = some t := by
  obtain ⟨y, _, h2⟩ := Tags.parts_are_words hx hu
  have := h2.mem_iff.1 (List.mem_map.2 ⟨n, hn, rfl⟩)
  obtain ⟨p, _, hp⟩ := List.mem_map.1 this
  injection hp with _ hp
  exact ⟨p.2, hp.symm⟩

/-- **C87**: hovering over a part of a text that can be read shows that part and its kind, and its help if it is a command or type that is defined. -/
theorem hover_shows {k : Parse.Env} {W : Wsp} {checked : Bool} {os : List Defs.Op} (h : Defs.run checked Defs.base os = some W.defs) (hp : ∀ l, (W.order l).Perm l)
    {code r : Text} {x : Tags.LParsed} (hx : Tags.parse k code = .ok r x) (hu : x.usesPath = false) {n : Tags.Node} (hn : n ∈ x.leaves) {pos : Nat}
    (h1 : n.tag.start ≤ pos) (h2 : pos < n.tag.stop) :
    ∃ t shown, n.tag.str code = some t ∧ hover k W code pos = some (some shown) ∧ Shows W n.ty t shown := by
  obtain ⟨t, ht⟩ := leaf_text hx hu hn
  obtain ⟨shown, h3, h4⟩ := node_shows h hp ht
  refine ⟨t, shown, ht, ?_, h4⟩
  unfold hover
  rw [hx]
  dsimp only
  rw [hu, if_neg (by simp), Tags.node_found hx hu hn h1 h2]
  unfold atNode
  dsimp only
  rw [h3]
  rfl

/-- **C87**: and nothing else is shown: what is shown belongs to a part of the text at the cursor. A text that cannot be read shows nothing. -/
theorem hover_only {k : Parse.Env} {W : Wsp} {checked : Bool} {os : List Defs.Op} (h : Defs.run checked Defs.base os = some W.defs) (hp : ∀ l, (W.order l).Perm l)
    {code shown : Text} {pos : Nat} (hh : hover k W code pos = some (some shown)) :
    ∃ r x n t, Tags.parse k code = .ok r x ∧ n ∈ x.leaves ∧ n.tag.start ≤ pos ∧ pos ≤ n.tag.stop ∧ n.tag.str code = some t ∧ Shows W n.ty t shown := by
  unfold hover at hh
  cases hx : Tags.parse k code with
  | ok r x =>
    rw [hx] at hh
    dsimp only at hh
    cases hu : x.usesPath with
    | true => rw [hu, if_pos rfl] at hh; cases hh
    | false =>
      rw [hu, if_neg (by simp)] at hh
      cases hf : x.nodeAt pos with
      | none => rw [hf] at hh; cases hh
      | some n =>
        rw [hf] at hh
        obtain ⟨h1, h2, h3⟩ := Tags.found_node hx hu hf
        obtain ⟨t, ht⟩ := leaf_text hx hu h1
        obtain ⟨sh, h4, h5⟩ := node_shows h hp ht
        unfold atNode at hh
        dsimp only at hh
        rw [h4] at hh
        cases hh
        exact ⟨r, x, n, t, rfl, h1, h2, by rcases h3 with h3 | h3 <;> omega, ht, h5⟩
  | _ => rw [hx] at hh; cases hh

/-- **C87**: a text that cannot be read shows nothing, and neither does a place outside of all parts of a text. -/
theorem hover_nothing {k : Parse.Env} {W : Wsp} {code : Text} {pos : Nat}
    (h : ∀ r x, Tags.parse k code = .ok r x → x.usesPath = false ∧ ∀ n ∈ x.leaves, ¬ (n.tag.start ≤ pos ∧ pos ≤ n.tag.stop)) :
    hover k W code pos = some none := by
  unfold hover
  cases hx : Tags.parse k code with
  | ok r x =>
    dsimp only
    obtain ⟨hu, hn⟩ := h r x hx
    rw [hu, if_neg (by simp)]
    cases hf : x.nodeAt pos with
    | none => rfl
    | some n =>
      obtain ⟨h1, h2, h3⟩ := Tags.found_node hx hu hf
      exact absurd ⟨h2, by rcases h3 with h3 | h3 <;> omega⟩ (hn n h1)
  | _ => rfl

/-! ### Where nothing is offered or shown -/

def nothing (s : String) : Bool := decide (ParseErr.completions Lang.asciiEnv s.toList = some none)

/-- A blank behind a command, the first letter of a type behind a colon, a command in the body of a definition, the types in a definition, and anything in
quotes: nothing is offered although something can be written there. -/
theorem nothing_offered : ∀ s ∈ ["ls | filter ", "ls:T", "def foo N", "def foo () { f", "def-ty X { a:N", "ls 'fo", "open 'fo"], nothing s = true := by decide +kernel

def onlyTypes (s : String) : Bool := decide (ParseErr.completions Lang.asciiEnv s.toList = some (some ⟨false, true, false, false⟩))

/-- Behind a colon types are offered, but the shell compares them with a word that still has the command and the colon in it. -/
theorem types_not_listed {W : Wsp} {o : Orders} {checked : Bool} {os : List Defs.Op} (h : Defs.run checked Defs.base os = some W.defs) (hr : Real W o)
    (dir : Text → List (Text × Bool)) (hn : ∀ n e, AMap.get W.defs.types n = some e → ':' ∉ n.toList) :
    (∃ ts, types W o.types = some ts ∧ get Lang.asciiEnv W o (some dir) "ls:".toList = some (some ts)) ∧
    listed Lang.asciiEnv W o dir "ls:".toList 3 = some [] := by
  have hc : ParseErr.completions Lang.asciiEnv "ls:".toList = some (some ⟨false, true, false, false⟩) := of_decide_eq_true (by decide +kernel)
  obtain ⟨cs, ts, _, h3, h4⟩ := all_asked h hr (some dir) "ls:".toList ⟨false, true, false, false⟩
  have hget := get_items (W := W) (o := o) (dir := some dir) hc
  rw [h4] at hget
  have hget : get Lang.asciiEnv W o (some dir) "ls:".toList = some (some ts) := by simpa using hget
  refine ⟨⟨ts, h3, hget⟩, ?_⟩
  obtain ⟨word, h5, h6⟩ := listed_below (r := []) hget
  have h7 : WordAt "ls:".toList [] "ls:".toList := .inr ⟨fun _ _ e => (by cases e), [], rfl, by decide, .inl rfl⟩
  have := h5.unique h7
  subst this
  rw [List.append_nil] at h6
  have h8 : Shell.utf8Len "ls:".toList = 3 := by decide
  rw [h8] at h6
  rw [h6]
  obtain ⟨ns, ds, g1, _, g3, g4, g5⟩ := types_offered h hr.types
  rw [h3] at g1
  cases g1
  have : (ts.filter fun d => ("ls:".toList).isPrefixOf d.name) = [] := by
    rw [List.filter_eq_nil_iff]
    intro d hd hpre
    obtain ⟨i, hi⟩ := List.mem_iff_getElem?.1 hd
    have hlt : i < ns.length := by rw [← g4]; exact (List.getElem?_eq_some_iff.1 hi).1
    obtain ⟨x, hx, e, sh, he, _, rfl⟩ := g5 i ns[i] (List.getElem?_eq_getElem hlt)
    rw [hi] at hx
    cases hx
    obtain ⟨q, hq⟩ := List.isPrefixOf_iff_prefix.1 hpre
    dsimp only at hq
    exact hn _ e he (by rw [← hq]; simp)
  rw [Option.getD_some, this]
  rfl

def shownAt (s : String) (pos : Nat) : Option (Option Tags.Node) :=
  match Tags.parse Lang.asciiEnv s.toList with
  | .ok _ x => some (x.nodeAt pos)
  | _ => none

/-- A type behind a colon is no part of the text for hovering: nothing is shown for it. In the position of the input of a definition it is. -/
theorem type_not_shown : shownAt "ls:Table" 4 = some none ∧ shownAt "def foo Table (x:Num) { ls }" 18 = some none ∧
    shownAt "def foo Table (x:Num) { ls }" 9 = some (some ⟨⟨8, 13⟩, .type⟩) := by decide +kernel

/-- Directly before a blank the word is empty: any ten of the commands are listed, whatever is typed. -/
theorem before_blank {k : Parse.Env} {W : Wsp} {o : Orders} {dir : Text → List (Text × Bool)} {l r : Text} {ds : List Def} (h : get k W o (some dir) l = some (some ds)) :
    listed k W o dir (l ++ ' ' :: r) (Shell.utf8Len l) = some (ds.take 10) := by
  obtain ⟨word, h1, h2⟩ := listed_below (r := ' ' :: r) h
  have := h1.unique (.inl ⟨' ', r, rfl, by decide, rfl⟩)
  subst this
  rw [h2]
  congr 2
  exact List.filter_eq_self.2 fun a _ => by simp

/-! ### What is assumed can be met -/

/-- A workspace with these definitions. -/
def wsp (d : Defs.Defs) : Wsp :=
  ⟨d, fun _ _ => ⟨['h'], [], [], false, [], []⟩, id, fun _ => ⟨['t'], [], [], false, [], []⟩, fun _ => ['x']⟩

def orders (d : Defs.Defs) : Orders := ⟨Listing.items d, d.types⟩

theorem wsp_real (d : Defs.Defs) : Real (wsp d) (orders d) :=
  ⟨⟨d.impls, Listing.itemsOf, .refl _, fun _ _ => .refl _, rfl⟩, .refl _, fun _ => .refl _⟩

theorem ascii_letters : Letters Lang.asciiEnv := fun _ h => h

theorem name_of {s : Text} (h : asciiName s = true) : Parse.IsName Lang.asciiEnv.cls s := name_ok Lang.ascii_laws ascii_letters h

def noPath (w : Text) : Bool :=
  match Tags.parse Lang.asciiEnv w with
  | .ok _ x => !x.usesPath
  | _ => true

/-- `f` is typed behind `ls | `: exactly the four commands that begin so are listed. -/
example : ∃ cs, impls (wsp Defs.base) (orders Defs.base).impls = some cs ∧
    listed Lang.asciiEnv (wsp Defs.base) (orders Defs.base) (fun _ => []) ("ls | f".toList ++ "x".toList) 6 =
      some ((cs.filter fun d => ("f".toList).isPrefixOf d.name).take 10) ∧
    ∀ m, m ∈ ((cs.filter fun d => ("f".toList).isPrefixOf d.name).take 10).map (·.name) ↔ m ∈ ["filter".toList, "fold".toList, "fold-while".toList, "floor".toList] := by
  have h : Defs.run false Defs.base [] = some (wsp Defs.base).defs := rfl
  have hr := wsp_real Defs.base
  obtain ⟨cs, h1, h2⟩ := typed_lists (k := Lang.asciiEnv) Lang.ascii_laws h hr (bs := [call "ls".toList]) ⟨⟨trivial, .inr (name_of rfl).op, trivial, trivial⟩, trivial⟩
    (n := "f".toList) (name_of rfl).op (w := "ls | f".toList) (by decide) (by decide) (by decide) (fun r x hx => by
      have : noPath "ls | f".toList = true := by decide +kernel
      rw [noPath, hx] at this
      simpa using this) (fun _ => []) (r := "x".toList) (fun c r' e => by cases e; decide)
  refine ⟨cs, h1, h2, fun m => ?_⟩
  have hc : (["filter", "fold", "fold-while", "floor"].all fun m => Defs.base.containsOp m) = true := by decide +kernel
  have hf : ∀ x ∈ Defs.base.impls, ("f".toList).isPrefixOf x.1.toList = true → x.1 ∈ ["filter", "fold", "fold-while", "floor"] := by decide +kernel
  have hf' : ∀ m, Defs.base.containsOp m = true → "f".toList <+: m.toList → m ∈ ["filter", "fold", "fold-while", "floor"] := by
    intro m hm hp
    unfold Defs.Defs.containsOp at hm
    obtain ⟨ks, hk⟩ := AMap.has_iff.1 hm
    exact hf (m, ks) (AMap.mem_of_get hk) (List.isPrefixOf_iff_prefix.2 hp)
  rw [all_listed h hr.help hr.impls h1 "f".toList hf' (by decide) m]
  constructor
  · rintro ⟨h3, h4⟩
    have := hf' (String.ofList m) h3 ((String.toList_ofList (l := m)).symm ▸ h4)
    rw [← String.toList_ofList (l := m)]
    generalize String.ofList m = q at this
    revert q
    decide
  · intro h3
    have h5 : ∀ m ∈ ["filter".toList, "fold".toList, "fold-while".toList, "floor".toList], String.ofList m ∈ ["filter", "fold", "fold-while", "floor"] ∧ ("f".toList).isPrefixOf m = true := by
      decide
    exact ⟨List.all_eq_true.1 hc _ (h5 m h3).1, List.isPrefixOf_iff_prefix.1 (h5 m h3).2⟩

/-- In the session of C84 `thrice` and `Pt` are defined, so `thrice:Pt` can be read. -/
example : ∃ s0 s, Enter.Begun Lang.asciiEnv s0 ∧ Enter.run Lang.asciiEnv false s0 Enter.lines = some s ∧ s.defs.containsOp "thrice" = true ∧
    Parse.expression (Enter.envOf Lang.asciiEnv s.defs) "thrice:Pt".toList = .ok [] (.mk [.mk none (.single "thrice".toList) (some "Pt".toList) []] none) := by
  obtain ⟨s0, h0, ha⟩ := Enter.ascii_begun
  have h1 : ((Enter.quick Enter.lines).map fun s => s.defs).map (fun d => d.containsOp "thrice" && (AMap.get d.types "Pt").isSome) = some true := by decide +kernel
  rw [← Enter.after_defs, ha] at h1
  cases hr : Enter.run Lang.asciiEnv false s0 Enter.lines with
  | none => rw [hr] at h1; cases h1
  | some s =>
    rw [hr] at h1
    have h1 := Bool.and_eq_true_iff.1 (Option.some.inj h1)
    obtain ⟨e, he⟩ := Option.isSome_iff_exists.1 h1.2
    exact ⟨s0, s, h0, hr, h1.1, (offered_reads Lang.ascii_laws ascii_letters h0 hr h1.1 _).2.2 "Pt" e he⟩

def leafAt (w : Text) (n : Tags.Node) : Bool :=
  match Tags.parse Lang.asciiEnv w with
  | .ok _ x => !x.usesPath && decide (n ∈ x.leaves)
  | _ => false

/-- Hovering over the command in a definition. -/
example : ∃ sh, hover Lang.asciiEnv (wsp Defs.base) "def six Num () { filter #t }".toList 18 = some (some (addBody (docHeader "filter".toList .command) ((wsp Defs.base).print sh))) := by
  have h : Defs.run false Defs.base [] = some (wsp Defs.base).defs := rfl
  have hl : leafAt "def six Num () { filter #t }".toList ⟨⟨17, 23⟩, .command⟩ = true := by decide +kernel
  have hs : Tags.Span.str "def six Num () { filter #t }".toList ⟨17, 23⟩ = some "filter".toList := by decide +kernel
  have hd : Defs.base.containsOp (String.ofList "filter".toList) = true := by decide +kernel
  unfold leafAt at hl
  cases hx : Tags.parse Lang.asciiEnv "def six Num () { filter #t }".toList with
  | ok r x =>
    rw [hx] at hl
    simp only [Bool.and_eq_true, Bool.not_eq_true', decide_eq_true_eq] at hl
    obtain ⟨t, shown, h1, h2, h3⟩ := hover_shows h (fun _ => .refl _) hx hl.1 hl.2 (pos := 18) (by decide) (by decide)
    rw [hs] at h1
    cases h1
    rcases h3 with ⟨ks, sh, _, _, _, h4⟩ | ⟨_, _, h4, _⟩ | ⟨h4, _, _⟩
    · exact ⟨sh, by rw [h2, h4]⟩
    · cases h4
    · have := h4 rfl
      rw [show (wsp Defs.base).defs = Defs.base from rfl, hd] at this
      cases this
  | _ => rw [hx] at hl; cases hl

end Verif.Offer
