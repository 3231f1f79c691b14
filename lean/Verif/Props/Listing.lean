import Verif.Lemmas.Listing
import Verif.Props.Enter
import Verif.Props.Help
/-! C85: the list of definitions. -/
namespace Verif.Listing
open Verif

variable {C : Parse.Env} {checked : Bool} {es : List Enter.Event} {s0 s : Enter.Session} {sort : Sorter} {cat : Item → Text} {xs ys : List Item}

theorem session_from (hb : Enter.Begun C s0) (h : Enter.run C checked s0 es = some s) : From (Told C es) C checked s :=
  run_from es (fun _ h => h) ⟨Enter.begun_good hb, by rw [hb.defs]; exact base_kept es⟩ h

/-- The implementations are gone through once each, whatever the order of the maps. -/
theorem iteration_complete (hb : Enter.Begun C s0) (h : Enter.run C checked s0 es = some s) : All s.defs xs ↔ xs.Perm (items s.defs) := by
  have hw := Defs.reach_wf Defs.base_wf (session_from hb h).good.reach
  refine ⟨fun hx => all_perm hx (all_items hw), fun hp => ⟨hp.nodup_iff.2 (items_nodup hw), fun n k i => ?_⟩⟩
  rw [hp.mem_iff, mem_items hw]

theorem lists_of (rs : List Row) : Lists (header :: rs.map Row.cells) rs := by
  have h1 : header = ["name", "category", "input", "location", "line", "code"].map (fun s => Cell.text s.toList) := by decide +kernel
  have h2 : ∀ x, cellOf x = textOr x := fun x => by cases x <;> rfl
  have h3 : ∀ x, numCell x = numOr x := fun x => by cases x <;> rfl
  unfold Lists Row.cells
  rw [h1]
  simp only [h2, h3]

theorem rows_of (hb : Enter.Begun C s0) (h : Enter.run C checked s0 es = some s) (hx : All s.defs xs) :
    rows cat xs = some (xs.map (theRow cat)) ∧ ∀ x ∈ xs, Shows x (theRow cat x) ∧ (theRow cat x).cat = cat x := by
  have hk := (session_from hb h).kept
  have key : ∀ x ∈ xs, rowOf cat x = some (theRow cat x) ∧ Shows x (theRow cat x) ∧ (theRow cat x).cat = cat x := by
    intro x hm
    refine shows_row fun l src e => ?_
    have := (hx.all x.name x.ty x.impl).1 hm
    rw [e] at this
    exact (hk _ _ _ _ this).2
  exact ⟨rows_map xs fun x hm => (key x hm).1, fun x hm => (key x hm).2⟩

/-- Every implementation has one row, and nothing else has one. The rows are in order by name. There is no panic but in sorting, in the first
of the two. -/
theorem nothing_missing (hb : Enter.Begun C s0) (h : Enter.run C checked s0 es = some s) (hs : Sorts sort) (hx : All s.defs xs) :
    (table sort cat xs = none → ∃ rs, sort byInput rs = none) ∧
    ∀ t, table sort cat xs = some t → ∃ rs row, Lists t rs ∧ (∀ x ∈ xs, Shows x (row x) ∧ (row x).cat = cat x) ∧ rs.Perm (xs.map row) ∧
      rs.Pairwise fun a b => compare a.name b.name ≠ .gt := by
  obtain ⟨h1, h2⟩ := rows_of (cat := cat) hb h hx
  unfold table
  rw [h1]
  dsimp only [Option.bind_some]
  cases h3 : sort byInput (xs.map (theRow cat)) with
  | none => exact ⟨fun _ => ⟨_, h3⟩, fun t e => by cases e⟩
  | some r1 =>
    dsimp only [Option.bind_some]
    obtain ⟨r2, h4, h5, _⟩ := hs.sorted byName r1
    rw [h4]
    refine ⟨fun e => (by cases e), fun t e => ?_⟩
    cases e
    exact ⟨r2, theRow cat, lists_of r2, h2, (hs.perm _ _ _ h4).trans (hs.perm _ _ _ h3), h5⟩

/-- With a sort that bears contradictions the list is always shown, and for one name the implementation for any input is the first. -/
theorem list_shown_partial (hb : Enter.Begun C s0) (h : Enter.run C checked s0 es = some s) (hs : Lenient sort) (hx : All s.defs xs) :
    ∃ t rs row, table sort cat xs = some t ∧ Lists t rs ∧ (∀ x ∈ xs, Shows x (row x) ∧ (row x).cat = cat x) ∧ rs.Perm (xs.map row) ∧ rs.Pairwise Before := by
  obtain ⟨h1, h2⟩ := rows_of (cat := cat) hb h hx
  obtain ⟨r1, h3⟩ := hs.ends byInput (xs.map (theRow cat))
  obtain ⟨r2, h4⟩ := hs.ends byName r1
  refine ⟨header :: r2.map Row.cells, r2, theRow cat, ?_, lists_of r2, h2, (hs.perm _ _ _ h4).trans (hs.perm _ _ _ h3), sorted_before hs h3 h4⟩
  unfold table
  rw [h1]
  dsimp only [Option.bind_some]
  rw [h3]
  dsimp only [Option.bind_some]
  rw [h4]
  rfl

/-- The location, line and text of a definition are those of the line or the item of a file it comes from, or it is one of the program. -/
theorem definitions_have_origin (hb : Enter.Begun C s0) (h : Enter.run C checked s0 es = some s) {n : String} {k : Option Defs.Ty} {l : Defs.Loc} {src : String}
    (hd : s.defs.entry n k = some (.definition l src)) : Origin C es l src := ((session_from hb h).kept n k l src hd).1

/-- No command is defined for an input type that is named like the text of a built-in type. -/
def Distinct (d : Defs.Defs) : Prop :=
  ∀ n m i, d.entry n (some (.def_ m)) = some i → m ∉ ["Nil", "Bool", "Number", "String", "Table", "TableRow"]

theorem before_antisymm {a b : Row} (h : Before a b) (h' : Before b a) : a.name = b.name ∧ a.input = b.input := by
  rcases h with h | ⟨e, h⟩
  · rcases h' with h' | ⟨e', _⟩
    · have := (Std.OrientedCmp.gt_iff_lt (cmp := (compare : Text → Text → Ordering))).2 h'
      rw [h] at this; cases this
    · rw [e', Std.ReflCmp.compare_self (cmp := (compare : Text → Text → Ordering))] at h; cases h
  · refine ⟨e, ?_⟩
    rcases h' with h' | ⟨_, h'⟩
    · rw [e, Std.ReflCmp.compare_self (cmp := (compare : Text → Text → Ordering))] at h'; cases h'
    · rcases h with h | ⟨x, y, h1, h2, h3⟩
      · rcases h' with h' | ⟨x', y', h4, h5, _⟩
        · rw [h, h']
        · rw [h] at h5; cases h5
      · rcases h' with h' | ⟨x', y', h4, h5, h6⟩
        · rw [h'] at h2; cases h2
        · rw [h1] at h5; cases h5
          rw [h2] at h4; cases h4
          rw [h1, h2]
          congr 1
          refine Std.LawfulEqCmp.eq_of_compare (cmp := (compare : Text → Text → Ordering)) ?_
          cases hc : compare x y with
          | eq => rfl
          | gt => exact absurd hc h3
          | lt => exact absurd ((Std.OrientedCmp.gt_iff_lt (cmp := (compare : Text → Text → Ordering))).2 hc) h6

/-- The list does not depend on the order of the maps. -/
theorem same_list_partial (hb : Enter.Begun C s0) (h : Enter.run C checked s0 es = some s) (hs : Lenient sort) (hd : Distinct s.defs) (hx : All s.defs xs)
    (hy : All s.defs ys) : table sort cat xs = table sort cat ys := by
  have shape : ∀ zs, All s.defs zs → ∃ r : List Row, table sort cat zs = some (header :: r.map Row.cells) ∧ r.Perm (zs.map (theRow cat)) ∧ r.Pairwise Before := by
    intro zs hz
    obtain ⟨h1, h2⟩ := rows_of (cat := cat) hb h hz
    obtain ⟨r1, h3⟩ := hs.ends byInput (zs.map (theRow cat))
    obtain ⟨r2, h4⟩ := hs.ends byName r1
    refine ⟨r2, ?_, (hs.perm _ _ _ h4).trans (hs.perm _ _ _ h3), sorted_before hs h3 h4⟩
    unfold table
    rw [h1]
    dsimp only [Option.bind_some]
    rw [h3]
    dsimp only [Option.bind_some]
    rw [h4]
    rfl
  obtain ⟨r, h1, h2, h3⟩ := shape xs hx
  obtain ⟨r', h1', h2', h3'⟩ := shape ys hy
  rw [h1, h1']
  have hp : r.Perm r' := h2.trans (((all_perm hx hy).map _).trans h2'.symm)
  suffices e : r = r' by rw [e]
  refine hp.eq_of_pairwise ?_ h3 h3'
  intro a b ha hb' hab hba
  obtain ⟨e1, e2⟩ := before_antisymm hab hba
  obtain ⟨x, hx1, rfl⟩ := List.mem_map.1 (h2.subset ha)
  obtain ⟨y, hy1, rfl⟩ := List.mem_map.1 (h2'.subset hb')
  have hs1 := ((rows_of (cat := cat) hb h hx).2 x hx1).1
  have hs2 := ((rows_of (cat := cat) hb h hy).2 y hy1).1
  rw [hs1.name, hs2.name] at e1
  rw [hs1.input, hs2.input] at e2
  obtain ⟨n, k, i⟩ := x
  obtain ⟨m, u, j⟩ := y
  have hi := (hx.all n k i).1 hx1
  have hj := (hy.all m u j).1 hy1
  have e1 : n = m := String.toList_inj.1 e1
  subst e1
  have e3 : k = u := by
    cases k with
    | none =>
      cases u with
      | none => rfl
      | some u => cases e2
    | some k =>
      cases u with
      | none => cases e2
      | some u =>
        have e2 : Help.typeText k = Help.typeText u := Option.some.inj e2
        rw [Help.type_texts_differ_partial e2]
        rintro m (rfl | rfl)
        · exact hd _ _ _ hi
        · exact hd _ _ _ hj
  subst e3
  rw [hi] at hj
  cases hj
  rfl

theorem base_distinct : Distinct Defs.base := by
  have h : ∀ x ∈ items Defs.base, ∀ m ∈ ["Nil", "Bool", "Number", "String", "Table", "TableRow"], x.ty ≠ some (.def_ m) := by decide +kernel
  intro n m i hi hm
  exact h _ ((mem_items Defs.base_wf).2 hi) m hm rfl

/-- After a line that clears the definitions the list is that of the start. -/
theorem list_after_clear_partial (L : Parse.Laws C) (hb : Enter.Begun C s0) (h : Enter.run C checked s0 es = some s)
    (hc : ∀ e ∈ es, ∀ t ∈ e.texts C, ¬ Enter.Takes C t) {text : Text} (files : List (String × Option Text)) (hd : Enter.defWord <+: text)
    (hl : ¬ Enter.loadFlag <:+: text) (hh : ¬ Enter.helpFlag <:+: text) (hli : ¬ Enter.listFlag <:+: text) (hcl : Enter.clearFlag <:+: text) (hs : Lenient sort) :
    ∃ s', Enter.step C checked s (.line text files) = some s' ∧ ∀ xs ys, All s'.defs xs → All s0.defs ys → table sort cat xs = table sort cat ys := by
  obtain ⟨s', h1, h2, _⟩ := Enter.clear_line_restores_partial L hb h hc files hd hl hh hli hcl
  refine ⟨s', h1, fun xs ys hx hy => ?_⟩
  have hx' : All s0.defs xs := ⟨hx.once, fun n k i => by rw [hx.all, h2, hb.defs]⟩
  exact same_list_partial (es := []) (checked := checked) hb rfl hs (by rw [hb.defs]; exact base_distinct) hx' hy

/-! ### Where it goes wrong -/

/-- The first order is none: of two commands for any input each is before the other. There are such from the start. -/
theorem input_order_contradicts : ∃ x ∈ items Defs.base, ∃ y ∈ items Defs.base, x ≠ y ∧ ∀ cat, byInput (theRow cat x) (theRow cat y) = .lt ∧
    byInput (theRow cat y) (theRow cat x) = .lt :=
  ⟨⟨"Ord::Lt", none, .intrinsic .ogma (.ctor "Ord" 0)⟩, (mem_items Defs.base_wf).2 (by decide +kernel),
    ⟨"Ord::Gt", none, .intrinsic .ogma (.ctor "Ord" 2)⟩, (mem_items Defs.base_wf).2 (by decide +kernel), by decide, fun _ => ⟨rfl, rfl⟩⟩

/-- A sort that panics when it is told a contradiction. -/
def strict : Sorter := fun cmp xs => if xs.any fun a => xs.any fun b => cmp a b == .lt && cmp b a == .lt then none else insertion cmp xs

theorem strict_sorts : Sorts strict where
  perm cmp xs ys h := by
    unfold strict at h
    split at h
    · cases h
    · exact insertion_lenient.perm cmp xs ys h
  sorted cmp _ xs := by
    unfold strict
    rw [if_neg]
    · exact insertion_lenient.sorted cmp xs
    · simp only [List.any_eq_true, Bool.and_eq_true, beq_iff_eq, not_exists, not_and]
      intro a _ b _ h1 h2
      rw [(Std.OrientedCmp.gt_iff_lt (cmp := cmp)).2 h2] at h1
      cases h1

/-- So a sort is allowed to panic, and then there is no list, from the start. -/
theorem list_may_panic : Sorts strict ∧ ∀ cat, table strict cat (items Defs.base) = none := by
  refine ⟨strict_sorts, fun cat => ?_⟩
  obtain ⟨x, hx, y, hy, _, h⟩ := input_order_contradicts
  have hr : rows cat (items Defs.base) = some ((items Defs.base).map (theRow cat)) := by
    refine rows_map _ fun x hm => (shows_row fun l src e => ?_).1
    have := (mem_items (n := x.name) (k := x.ty) (i := x.impl) Defs.base_wf).1 hm
    rw [e] at this
    exact (base_kept (C := Lang.asciiEnv) [] _ _ _ _ this).2
  unfold table
  rw [hr]
  dsimp only [Option.bind_some]
  unfold strict
  rw [if_pos]
  · rfl
  · simp only [List.any_eq_true, Bool.and_eq_true, beq_iff_eq]
    exact ⟨_, List.mem_map.2 ⟨x, hx, rfl⟩, _, List.mem_map.2 ⟨y, hy, rfl⟩, (h cat).1, (h cat).2⟩

/-- A type named like the text of another one, and a command for both. -/
def twoNumbers : List Enter.Event :=
  [Enter.line "def-ty Number { x:Num }", Enter.line "def f Num () { + 1 }", Enter.line "def f Number () { get x }"]

def unlike (d : Defs.Defs) : Bool := decide (table insertion (fun _ => []) (items d) ≠ table insertion (fun _ => []) (items d).reverse)

/-- Then the list depends on the order of the maps. -/
theorem list_order_open : ∃ s0 s, Enter.Begun Lang.asciiEnv s0 ∧ Enter.run Lang.asciiEnv false s0 twoNumbers = some s ∧
    ∃ xs ys, All s.defs xs ∧ All s.defs ys ∧ table insertion (fun _ => []) xs ≠ table insertion (fun _ => []) ys := by
  obtain ⟨s0, h0, ha⟩ := Enter.ascii_begun
  have h1 : ((Enter.quick twoNumbers).map fun s => s.defs).map unlike = some true := by decide +kernel
  rw [← Enter.after_defs, ha] at h1
  cases hr : Enter.run Lang.asciiEnv false s0 twoNumbers with
  | none => rw [hr] at h1; cases h1
  | some s =>
    rw [hr] at h1
    refine ⟨s0, s, h0, hr, items s.defs, (items s.defs).reverse, ?_, ?_, of_decide_eq_true (Option.some.inj h1)⟩
    · exact (iteration_complete h0 hr).2 (.refl _)
    · exact (iteration_complete h0 hr).2 (List.reverse_perm _)

/-! ### What is assumed can be met -/

/-- A row of a list with one definition from a file, and the one before it. -/
def rowsShown (d : Defs.Defs) : Bool :=
  match table insertion (fun _ => ['c']) (items d) with
  | some t => decide ([.text "thrice".toList, .text "c".toList, .text "Number".toList, .text "lib.ogma".toList, .num 4, .text "thrice Num () { + { twice } }".toList] ∈ t) &&
      decide ([.text "twice".toList, .text "c".toList, .text "Number".toList, .text "shell".toList, .nil, .text "twice Num () { * 2 }".toList] ∈ t) &&
      decide ([.text "Pt".toList, .text "c".toList, .nil, .text "shell".toList, .nil, .nil] ∈ t) && decide (t.length = (items d).length + 1)
  | none => false

def distinct (d : Defs.Defs) : Bool := (items d).all fun x => ["Nil", "Bool", "Number", "String", "Table", "TableRow"].all fun m => decide (x.ty ≠ some (.def_ m))

theorem distinct_ok {d : Defs.Defs} (hw : d.Wf) (h : distinct d = true) : Distinct d := by
  intro n m i hi hm
  have := List.all_eq_true.1 (List.all_eq_true.1 h _ ((mem_items hw).2 hi)) m hm
  exact of_decide_eq_true this rfl

/-- For C85: the session of lines of C84, with definitions entered and loaded. -/
example : Lenient insertion ∧ ∃ s0 s, Enter.Begun Lang.asciiEnv s0 ∧ Enter.run Lang.asciiEnv false s0 Enter.lines = some s ∧ All s.defs (items s.defs) ∧ Distinct s.defs ∧
    rowsShown s.defs = true := by
  obtain ⟨s0, h0, ha⟩ := Enter.ascii_begun
  have h1 : ((Enter.quick Enter.lines).map fun s => s.defs).map (fun d => rowsShown d && distinct d) = some true := by decide +kernel
  rw [← Enter.after_defs, ha] at h1
  cases hr : Enter.run Lang.asciiEnv false s0 Enter.lines with
  | none => rw [hr] at h1; cases h1
  | some s =>
    rw [hr] at h1
    have h1 := Bool.and_eq_true_iff.1 (Option.some.inj h1)
    have hw := Defs.reach_wf Defs.base_wf (session_from h0 hr).good.reach
    exact ⟨insertion_lenient, s0, s, h0, hr, all_items hw, distinct_ok hw h1.2, h1.1⟩

end Verif.Listing
