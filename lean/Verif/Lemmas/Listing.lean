import Verif.Spec.Listing
import Verif.Lemmas.Enter
namespace Verif.Listing
open Verif

/-! ### Implementations -/

theorem mem_items {d : Defs.Defs} (hw : d.Wf) {n : String} {k : Option Defs.Ty} {i : Defs.Impl} : ⟨n, k, i⟩ ∈ items d ↔ d.entry n k = some i := by
  unfold items
  rw [List.mem_flatMap]
  constructor
  · rintro ⟨⟨m, ks⟩, h1, h2⟩
    have hg := AMap.get_of_mem hw.impls h1
    rcases List.mem_append.1 h2 with h2 | h2
    · obtain ⟨x, h3, h4⟩ := List.mem_map.1 h2
      cases h4
      show (AMap.get d.impls m).bind _ = _
      rw [hg]
      exact AMap.get_of_mem (hw.keys m ks hg).1 h3
    · obtain ⟨x, h3, h4⟩ := List.mem_map.1 h2
      cases h4
      show (AMap.get d.impls m).bind _ = _
      rw [hg]
      exact Option.mem_toList.1 h3
  · intro h
    unfold Defs.Defs.entry at h
    cases hg : AMap.get d.impls n with
    | none => rw [hg] at h; cases k <;> cases h
    | some ks =>
      rw [hg] at h
      refine ⟨(n, ks), AMap.mem_of_get hg, ?_⟩
      cases k with
      | none => exact List.mem_append_right _ (List.mem_map.2 ⟨i, Option.mem_toList.2 h, rfl⟩)
      | some t => exact List.mem_append_left _ (List.mem_map.2 ⟨(t, i), AMap.mem_of_get h, rfl⟩)

theorem nodup_of_map {α β : Type} (f : α → β) {xs : List α} (h : (xs.map f).Nodup) : xs.Nodup :=
  (List.pairwise_map.1 h).imp fun h e => h (by rw [e])

theorem items_nodup {d : Defs.Defs} (hw : d.Wf) : (items d).Nodup := by
  unfold items
  rw [List.nodup_iff_pairwise_ne, List.pairwise_flatMap]
  constructor
  · rintro ⟨n, ks⟩ hx
    have hg := AMap.get_of_mem hw.impls hx
    unfold itemsOf
    rw [List.pairwise_append]
    refine ⟨?_, ?_, ?_⟩
    · rw [List.pairwise_map]
      refine (List.pairwise_map.1 (hw.keys n ks hg).1).imp ?_
      intro a b hab e
      injection e with _ e _
      injection e with e
      exact hab e
    · rw [List.pairwise_map]
      cases ks.agnostic with
      | none => exact List.Pairwise.nil
      | some i => exact List.pairwise_singleton _ _
    · intro a ha b hb
      obtain ⟨x, _, rfl⟩ := List.mem_map.1 ha
      obtain ⟨y, _, rfl⟩ := List.mem_map.1 hb
      intro e
      injection e with _ e _
      cases e
  · refine (List.pairwise_map.1 hw.impls).imp ?_
    intro a b hab x hx y hy e
    have key : ∀ (n : String) (ks : Defs.Keys) (z : Item), z ∈ itemsOf n ks → z.name = n := by
      intro n ks z hz
      rcases List.mem_append.1 hz with hz | hz <;> obtain ⟨w, _, rfl⟩ := List.mem_map.1 hz <;> rfl
    exact hab (by rw [← key _ _ _ hx, ← key _ _ _ hy, e])

theorem all_items {d : Defs.Defs} (hw : d.Wf) : All d (items d) := ⟨items_nodup hw, fun _ _ _ => mem_items hw⟩

theorem all_perm {d : Defs.Defs} {xs ys : List Item} (h : All d xs) (h' : All d ys) : xs.Perm ys :=
  (List.perm_ext_iff_of_nodup h.once h'.once).2 fun ⟨n, k, i⟩ => by rw [h.all, h'.all]

/-! ### Where definitions come from -/

/-- Every definition is of this kind. -/
def Kept (T : Defs.Loc → String → Prop) (d : Defs.Defs) : Prop := ∀ n k l src, d.entry n k = some (.definition l src) → T l src

def Holds (T : Defs.Loc → String → Prop) : Defs.Impl → Prop
  | .definition l src => T l src
  | _ => True

theorem kept_holds {T : Defs.Loc → String → Prop} {d : Defs.Defs} : Kept T d ↔ ∀ n k i, d.entry n k = some i → Holds T i := by
  constructor
  · intro h n k i hi
    cases i with
    | definition l src => exact h n k l src hi
    | intrinsic l f => trivial
  · intro h n k l src hi
    exact h n k _ hi

theorem reqOf_word {k : Parse.Env} {d : Defs.Defs} {text : Text} {m : String} {u : Option String} {ops : List String} {src : String}
    (h : Enter.reqOf k d text = some (.impl m u ops src)) : Enter.defWord <+: text := by
  unfold Enter.reqOf at h
  split at h
  · rename_i hp; exact List.isPrefixOf_iff_prefix.1 hp
  · split at h
    · unfold Enter.tyReq at h
      repeat' split at h
      all_goals cases h
    · cases h

/-- What is known of the session: how it was reached, and its definitions. -/
structure From (T : Defs.Loc → String → Prop) (C : Parse.Env) (checked : Bool) (s : Enter.Session) : Prop where
  good : Enter.Good (fun _ => True) C checked s
  kept : Kept T s.defs

variable {T : Defs.Loc → String → Prop} {C : Parse.Env} {checked : Bool}

theorem define_from {s s' : Enter.Session} {loc : Defs.Loc} {text : Text} (hs : From T C checked s) (hl : loc ≠ .ogma)
    (hT : Enter.defWord <+: text → T loc (Prog.str text)) (h : Enter.define C checked s loc text = .ok s') : From T C checked s' := by
  refine ⟨Enter.define_ok hs.good hl (fun _ _ => trivial) h, ?_⟩
  unfold Enter.define at h
  split at h
  · cases h
  · rename_i r hr
    split at h
    · rename_i d hp
      cases h
      rw [kept_holds]
      refine Lang.entries_step (Q := fun _ _ i => Holds T i) hs.good.reach (fun _ _ _ _ _ => trivial) hp (kept_holds.1 hs.kept) ?_
      rintro m u ops src ty rfl rfl
      obtain ⟨_, _, _, _, _, rfl⟩ := Enter.reqOf_impl hr
      exact hT (reqOf_word hr)
    · cases h
    · cases h

theorem addItems_from {path : String} : ∀ (is : List File.Item) {s s' : Enter.Session}, From T C checked s →
    (∀ i ∈ is, Enter.defWord <+: i.code → T (.file path i.line) (Prog.str i.code)) → (Enter.addItems C checked path s is).after = some s' → From T C checked s'
  | [], s, s', hs, _, h => by cases h; exact hs
  | i :: is, s, s', hs, hT, h => by
    rw [Enter.addItems] at h
    split at h
    · rename_i s1 h1
      exact addItems_from is (define_from hs (by intro e; cases e) (hT i (.head _)) h1) (fun j hj => hT j (List.mem_cons_of_mem _ hj)) h
    · cases hd : Enter.define C checked s (.file path i.line) i.code with
      | ok s1 => rename_i h1; exact absurd hd (h1 s1)
      | err s1 => rw [hd] at h; cases h; rw [Enter.define_err hd]; exact hs
      | panic => rw [hd] at h; cases h

theorem addText_from {path : String} {s s' : Enter.Session} {text : Text} (hs : From T C checked s)
    (hT : ∀ f, File.file C.cls (Enter.headRead C) text = .ok f → ∀ i ∈ f.types ++ f.impls, Enter.defWord <+: i.code → T (.file path i.line) (Prog.str i.code))
    (h : (Enter.addText C checked path s text).after = some s') : From T C checked s' := by
  unfold Enter.addText at h
  split at h
  · rename_i f hf
    exact addItems_from _ hs (hT f hf) h
  · cases h; exact hs
  · cases h

theorem loadAll_from : ∀ (fs : List (String × Option Text)) {s s' : Enter.Session}, From T C checked s →
    (∀ p text, (p, some text) ∈ fs → ∀ f, File.file C.cls (Enter.headRead C) text = .ok f → ∀ i ∈ f.types ++ f.impls, Enter.defWord <+: i.code →
      T (.file p i.line) (Prog.str i.code)) →
    Enter.loadAll C checked s fs = some s' → From T C checked s'
  | [], s, s', hs, _, h => by cases h; exact hs
  | (p, none) :: fs, s, s', hs, hT, h => loadAll_from fs hs (fun p t hf => hT p t (List.mem_cons_of_mem _ hf)) h
  | (p, some text) :: fs, s, s', hs, hT, h => by
    rw [Enter.loadAll] at h
    obtain ⟨s1, h1, h2⟩ := Option.bind_eq_some_iff.1 h
    exact loadAll_from fs (addText_from hs (hT p text (.head _)) h1) (fun p t hf => hT p t (List.mem_cons_of_mem _ hf)) h2

theorem clear_from {s : Enter.Session} (hs : From T C checked s) : From T C checked ⟨s.defs.clear false, s.env⟩ :=
  ⟨Enter.clear_good hs.good, kept_holds.2 (Lang.entries_clear (Q := fun _ _ i => Holds T i) hs.good.reach (kept_holds.1 hs.kept) false)⟩

/-- A text that begins with the word, and where it comes from. -/
def Told (C : Parse.Env) (es : List Enter.Event) (l : Defs.Loc) (src : String) : Prop := Origin C es l src ∧ Enter.defWord <+: src.toList

theorem str_toList (t : Text) : (Prog.str t).toList = t := by rw [Prog.str, String.toList_ofList]

theorem step_from {es : List Enter.Event} {s s' : Enter.Session} {e : Enter.Event} (he : e ∈ es) (hs : From (Told C es) C checked s)
    (h : Enter.step C checked s e = some s') : From (Told C es) C checked s' := by
  cases e with
  | line text files =>
    have h : Enter.enter C checked s text files = some s' := h
    unfold Enter.enter at h
    split at h
    · cases h; exact hs
    · split at h
      · cases h; exact hs
      · split at h
        · split at h
          · refine loadAll_from files hs (fun p t hf f hx i hi hw => ⟨.file he hf hx hi, ?_⟩) h
            rw [str_toList]; exact hw
          · cases hd : Enter.define C checked s .shell text with
            | ok s1 =>
              rw [hd] at h
              cases h
              refine define_from hs (by intro e; cases e) (fun hw => ⟨.line he, ?_⟩) hd
              rw [str_toList]; exact hw
            | err s1 => rw [hd] at h; cases h; rw [Enter.define_err hd]; exact hs
            | panic => rw [hd] at h; cases h
        · cases h; exact hs
  | reload docs =>
    refine loadAll_from _ (clear_from hs) ?_ h
    intro p t hf f hx i hi hw
    obtain ⟨x, hx1, hx2⟩ := List.mem_map.1 hf
    cases hx2
    refine ⟨.doc he hx1 hx hi, ?_⟩
    rw [str_toList]; exact hw

theorem run_from {E : List Enter.Event} : ∀ (es : List Enter.Event) {s s' : Enter.Session}, (∀ e ∈ es, e ∈ E) → From (Told C E) C checked s →
    Enter.run C checked s es = some s' → From (Told C E) C checked s'
  | [], s, s', _, hs, h => by cases h; exact hs
  | e :: es, s, s', hE, hs, h => by
    rw [Enter.run] at h
    obtain ⟨s1, h1, h2⟩ := Option.bind_eq_some_iff.1 h
    exact run_from es (fun x hx => hE x (List.mem_cons_of_mem _ hx)) (step_from (hE e (.head _)) hs h1) h2

theorem derived_words : ∀ x ∈ Defs.derived, Enter.defWord.isPrefixOf x.2.2.toList = true := by decide +kernel

theorem base_locs : ∀ x ∈ items Defs.base, x.impl.loc = .ogma := by decide +kernel

theorem base_kept (es : List Enter.Event) : Kept (Told C es) Defs.base := by
  intro n k l src h
  have hl : l = .ogma := base_locs _ ((mem_items Defs.base_wf).2 h)
  have hm := Lang.base_text (Lang.base_entries h)
  subst hl
  exact ⟨.program hm, List.isPrefixOf_iff_prefix.1 (derived_words _ hm)⟩

/-! ### Sorting -/

theorem pairwise_stable {cmp : Row → Row → Ordering} (hr : ∀ a, cmp a a = .eq) {R1 R2 : Row → Row → Prop} : ∀ ys : List Row, ys.Pairwise R1 →
    (∀ x, (ys.filter fun y => cmp x y == .eq).Pairwise R2) → ys.Pairwise fun a b => R1 a b ∧ (cmp a b = .eq → R2 a b)
  | [], _, _ => .nil
  | a :: ys, h1, h2 => by
    obtain ⟨h3, h4⟩ := List.pairwise_cons.1 h1
    refine List.pairwise_cons.2 ⟨fun b hb => ⟨h3 b hb, fun e => ?_⟩, pairwise_stable hr ys h4 fun x => ?_⟩
    · have := h2 a
      rw [List.filter_cons_of_pos (by rw [hr]; rfl)] at this
      exact (List.pairwise_cons.1 this).1 b (List.mem_filter.2 ⟨hb, by rw [e]; rfl⟩)
    · exact (h2 x).sublist ((List.sublist_cons_self a ys).filter _)

instance byName_trans : Std.TransCmp byName where
  eq_swap := Std.OrientedCmp.eq_swap (cmp := (compare : Text → Text → Ordering))
  isLE_trans := Std.TransCmp.isLE_trans (cmp := (compare : Text → Text → Ordering))

/-- In order by input. -/
def Under (a b : Row) : Prop := a.input = none ∨ ∃ x y, a.input = some x ∧ b.input = some y ∧ compare x y ≠ .gt

theorem isLE_iff {o : Ordering} : o ≠ .gt ↔ o.isLE = true := by cases o <;> decide

theorem under_trans (a b c : Row) (h : Under a b) (h' : Under b c) : Under a c := by
  rcases h with h | ⟨x, y, h1, h2, h3⟩
  · exact .inl h
  · rcases h' with h' | ⟨y', z, h4, h5, h6⟩
    · rw [h'] at h2; cases h2
    · rw [h4] at h2; cases h2
      exact .inr ⟨x, z, h1, h5, isLE_iff.2 (Std.TransCmp.isLE_trans (isLE_iff.1 h3) (isLE_iff.1 h6))⟩

theorem under_lt (a b : Row) (h : byInput a b = .lt) : Under a b := by
  unfold byInput at h
  split at h
  · rename_i x y h1 h2
    exact .inr ⟨x, y, h1, h2, by rw [h]; decide⟩
  · rename_i h1; exact .inl h1
  · cases h

theorem under_ge (a b : Row) (h : byInput a b ≠ .lt) : Under b a := by
  unfold byInput at h
  split at h
  · rename_i x y h1 h2
    refine .inr ⟨y, x, h2, h1, ?_⟩
    intro e
    exact h ((Std.OrientedCmp.gt_iff_lt (cmp := (compare : Text → Text → Ordering))).1 e)
  · exact absurd rfl h
  · rename_i h1; exact .inl h1

theorem sorted_before {sort : Sorter} (hs : Lenient sort) {rs r1 r2 : List Row} (h1 : sort byInput rs = some r1) (h2 : sort byName r1 = some r2) :
    r2.Pairwise Before := by
  have hu := hs.honest byInput Under under_trans under_lt under_ge rs r1 h1
  obtain ⟨ys, h3, h4, h5⟩ := hs.sorted byName r1
  rw [h2] at h3
  cases h3
  refine (pairwise_stable (fun a => Std.ReflCmp.compare_self) r2 h4 (R2 := Under) fun x => by rw [h5]; exact hu.filter _).imp ?_
  rintro a b ⟨h6, h7⟩
  cases he : byName a b with
  | lt => exact .inl he
  | eq => exact .inr ⟨Std.LawfulEqCmp.eq_of_compare (cmp := (compare : Text → Text → Ordering)) he, h7 he⟩
  | gt => exact absurd he h6

/-! ### Rows -/

theorem rows_map {cat : Item → Text} {f : Item → Row} : ∀ xs : List Item, (∀ x ∈ xs, rowOf cat x = some (f x)) → rows cat xs = some (xs.map f)
  | [], _ => rfl
  | x :: xs, h => by
    rw [rows, h x (.head _), rows_map xs fun y hy => h y (List.mem_cons_of_mem _ hy)]
    rfl

/-- The row, if there is one. -/
def theRow (cat : Item → Text) (x : Item) : Row := (rowOf cat x).getD ⟨[], [], none, [], none, none⟩

theorem from_word (c : Text) : from_ 4 (Enter.defWord ++ c) = some c := by
  have h1 : Char.utf8Size 'd' = 1 := by decide
  have h2 : Char.utf8Size 'e' = 1 := by decide
  have h3 : Char.utf8Size 'f' = 1 := by decide
  have h4 : Char.utf8Size ' ' = 1 := by decide
  show from_ 4 ('d' :: 'e' :: 'f' :: ' ' :: c) = some c
  simp [from_, h1, h2, h3, h4]

theorem shows_row {cat : Item → Text} {x : Item} (h : ∀ l src, x.impl = .definition l src → Enter.defWord <+: src.toList) :
    rowOf cat x = some (theRow cat x) ∧ Shows x (theRow cat x) ∧ (theRow cat x).cat = cat x := by
  obtain ⟨n, k, i⟩ := x
  cases i with
  | intrinsic l f =>
    refine ⟨rfl, ⟨rfl, rfl, ?_, ?_, rfl⟩, rfl⟩
    · cases l <;> first | rfl | decide
    · cases l <;> rfl
  | definition l src =>
    obtain ⟨c, hc⟩ := h l src rfl
    have hrow : rowOf cat ⟨n, k, .definition l src⟩ = some ⟨n.toList, cat ⟨n, k, .definition l src⟩, k.map Help.typeText, location l, lineOf l, some c⟩ := by
      unfold rowOf code
      dsimp only
      rw [← hc, from_word]
      rfl
    have ht : theRow cat ⟨n, k, .definition l src⟩ = ⟨n.toList, cat ⟨n, k, .definition l src⟩, k.map Help.typeText, location l, lineOf l, some c⟩ := by
      unfold theRow; rw [hrow]; rfl
    rw [ht]
    refine ⟨hrow, ⟨rfl, rfl, ?_, ?_, c, rfl, hc.symm⟩, rfl⟩
    · cases l <;> first | rfl | decide
    · cases l <;> rfl

/-! ### A sort -/

def place (cmp : Row → Row → Ordering) (x : Row) : List Row → List Row
  | [] => [x]
  | y :: ys => if cmp y x = .lt then y :: place cmp x ys else x :: y :: ys

def insertion (cmp : Row → Row → Ordering) (xs : List Row) : Option (List Row) := some (xs.foldr (place cmp) [])

theorem place_perm (cmp : Row → Row → Ordering) (x : Row) : ∀ ys, (place cmp x ys).Perm (x :: ys)
  | [] => .refl _
  | y :: ys => by
    rw [place]
    split
    · exact (List.Perm.cons y (place_perm cmp x ys)).trans (List.Perm.swap x y ys)
    · exact .refl _

theorem foldr_perm (cmp : Row → Row → Ordering) : ∀ xs : List Row, (xs.foldr (place cmp) []).Perm xs
  | [] => .refl _
  | x :: xs => (place_perm cmp x _).trans (List.Perm.cons x (foldr_perm cmp xs))

theorem place_sorted {cmp : Row → Row → Ordering} {le : Row → Row → Prop} (ht : ∀ a b c, le a b → le b c → le a c) (h1 : ∀ a b, cmp a b = .lt → le a b)
    (h2 : ∀ a b, cmp a b ≠ .lt → le b a) (x : Row) : ∀ ys : List Row, ys.Pairwise le → (place cmp x ys).Pairwise le
  | [], _ => List.pairwise_singleton _ _
  | y :: ys, h => by
    obtain ⟨h3, h4⟩ := List.pairwise_cons.1 h
    rw [place]
    split
    · rename_i e
      refine List.pairwise_cons.2 ⟨fun b hb => ?_, place_sorted ht h1 h2 x ys h4⟩
      rcases List.mem_cons.1 ((place_perm cmp x ys).subset hb) with rfl | hb
      · exact h1 _ _ e
      · exact h3 b hb
    · rename_i e
      refine List.pairwise_cons.2 ⟨fun b hb => ?_, h⟩
      rcases List.mem_cons.1 hb with rfl | hb
      · exact h2 _ _ e
      · exact ht _ _ _ (h2 _ _ e) (h3 b hb)

theorem place_filter {cmp : Row → Row → Ordering} [Std.TransCmp cmp] (x a : Row) : ∀ ys : List Row,
    (place cmp x ys).filter (fun y => cmp a y == .eq) = (x :: ys).filter fun y => cmp a y == .eq
  | [] => rfl
  | y :: ys => by
    rw [place]
    split
    · rename_i e
      rw [List.filter_cons, place_filter x a ys, List.filter_cons, List.filter_cons, List.filter_cons]
      by_cases h1 : cmp a x = .eq
      · have h2 : ¬ cmp a y = .eq := by
          intro h2
          have h3 : cmp y x = .eq := Std.TransCmp.eq_trans (Std.OrientedCmp.eq_symm h2) h1
          rw [e] at h3; cases h3
        simp only [beq_iff_eq, h1, h2, if_true, if_false]
      · simp only [beq_iff_eq, h1, if_false]
    · rfl

theorem insertion_lenient : Lenient insertion where
  perm cmp xs ys h := by cases h; exact foldr_perm cmp xs
  sorted cmp _ xs := by
    refine ⟨_, rfl, ?_, ?_⟩
    · induction xs with
      | nil => exact .nil
      | cons x xs ih =>
        refine place_sorted (le := fun a b => cmp a b ≠ .gt) ?_ ?_ ?_ x _ ih
        · exact fun a b c h1 h2 => isLE_iff.2 (Std.TransCmp.isLE_trans (isLE_iff.1 h1) (isLE_iff.1 h2))
        · intro a b h; rw [h]; decide
        · intro a b h e
          exact h (Std.OrientedCmp.gt_iff_lt.1 e)
    · intro a
      induction xs with
      | nil => rfl
      | cons x xs ih => rw [List.foldr_cons, place_filter, List.filter_cons, List.filter_cons, ih]
  ends cmp xs := ⟨_, rfl⟩
  honest cmp le ht h1 h2 xs ys h := by
    cases h
    induction xs with
    | nil => exact .nil
    | cons x xs ih => exact place_sorted ht h1 h2 x _ ih

end Verif.Listing
