import Verif.Spec.Cli
import Verif.Props.Batch
/-! The exit status of the command line (C80). -/
namespace Verif.Cli
open Verif.Batch
variable {Pat Path Item D E : Type}

theorem everything_some {α : Type} : ∀ {rs : List (Option α)} {xs : List α}, everything rs = some xs ↔ rs = xs.map some
  | [], xs => by
    cases xs <;> simp [everything]
  | none :: rs, xs => by
    cases xs <;> simp [everything]
  | some x :: rs, xs => by
    cases xs with
    | nil => simp [everything]
    | cons y ys =>
      simp only [everything, Option.map_eq_some_iff, List.map_cons, List.cons.injEq, Option.some.injEq]
      constructor
      · rintro ⟨zs, h1, h2, h3⟩
        rw [← h3]
        exact ⟨h2, everything_some.1 h1⟩
      · rintro ⟨h1, h2⟩
        exact ⟨ys, everything_some.2 h2, h1, rfl⟩

theorem everything_none {α : Type} : ∀ {rs : List (Option α)}, everything rs = none ↔ none ∈ rs
  | [] => by simp [everything]
  | none :: rs => by simp [everything]
  | some x :: rs => by simp [everything, everything_none]

/-- A pattern is fine. -/
def Fine (w : World Pat Path Item D E) (p : Pat) : Prop := ∃ rs, w.glob p = some rs ∧ none ∉ rs ∧ rs ≠ []

theorem matchesOf_some {w : World Pat Path Item D E} {p : Pat} {xs : List Path} :
    matchesOf w p = some xs ↔ w.glob p = some (xs.map some) ∧ xs ≠ [] := by
  unfold matchesOf
  simp only [Option.bind_eq_some_iff]
  constructor
  · rintro ⟨rs, h1, ps, h2, h3⟩
    split at h3
    · cases h3
    · rename_i hn
      cases h3
      rw [everything_some.1 h2] at h1
      exact ⟨h1, by intro e; simp [e] at hn⟩
  · rintro ⟨h1, h2⟩
    refine ⟨_, h1, xs, everything_some.2 rfl, ?_⟩
    rw [if_neg (by simpa using h2)]

theorem matchesOf_fine {w : World Pat Path Item D E} {p : Pat} : Fine w p ↔ ∃ xs, matchesOf w p = some xs := by
  constructor
  · rintro ⟨rs, h1, h2, h3⟩
    cases he : everything rs with
    | none => exact absurd (everything_none.1 he) h2
    | some xs =>
      have := everything_some.1 he
      refine ⟨xs, matchesOf_some.2 ⟨by rw [h1, this], ?_⟩⟩
      intro e
      rw [e] at this
      exact h3 this
  · rintro ⟨xs, h⟩
    obtain ⟨h1, h2⟩ := matchesOf_some.1 h
    exact ⟨_, h1, by simp, by simpa using h2⟩

theorem gather_some {w : World Pat Path Item D E} : ∀ {ps : List Pat} {xs : List Path}, gather w ps = some xs →
    (∀ p ∈ ps, Fine w p) ∧ ∀ x, x ∈ xs ↔ ∃ p ∈ ps, ∃ rs, w.glob p = some rs ∧ some x ∈ rs
  | [], xs, h => by
    cases h
    simp
  | p :: ps, xs, h => by
    simp only [gather, Option.bind_eq_some_iff, Option.map_eq_some_iff] at h
    obtain ⟨ys, h1, zs, h2, h3⟩ := h
    obtain ⟨h4, h5⟩ := gather_some h2
    refine ⟨?_, ?_⟩
    · intro q hq
      rcases List.mem_cons.1 hq with e | hq
      · rw [e]; exact matchesOf_fine.2 ⟨ys, h1⟩
      · exact h4 q hq
    · intro x
      have hg := (matchesOf_some.1 h1).1
      rw [← h3, List.mem_append, h5]
      constructor
      · rintro (hx | ⟨q, hq, hx⟩)
        · exact ⟨p, List.mem_cons_self, _, hg, List.mem_map.2 ⟨x, hx, rfl⟩⟩
        · exact ⟨q, List.mem_cons_of_mem _ hq, hx⟩
      · rintro ⟨q, hq, rs, h6, h7⟩
        rcases List.mem_cons.1 hq with e | hq
        · left
          rw [e, hg] at h6
          cases h6
          obtain ⟨y, hy, e⟩ := List.mem_map.1 h7
          cases e
          exact hy
        · exact Or.inr ⟨q, hq, rs, h6, h7⟩

theorem gather_fine {w : World Pat Path Item D E} : ∀ {ps : List Pat}, (∀ p ∈ ps, Fine w p) → ∃ xs, gather w ps = some xs
  | [], _ => ⟨[], rfl⟩
  | p :: ps, h => by
    obtain ⟨xs, h1⟩ := matchesOf_fine.1 (h p List.mem_cons_self)
    obtain ⟨ys, h2⟩ := gather_fine (ps := ps) fun q hq => h q (List.mem_cons_of_mem _ hq)
    exact ⟨xs ++ ys, by simp [gather, h1, h2]⟩

theorem insertPath_mem (le : Path → Path → Bool) (x z : Path) : ∀ ys : List Path, z ∈ insertPath le x ys ↔ z = x ∨ z ∈ ys
  | [] => by simp [insertPath]
  | y :: ys => by
    rw [insertPath]
    split
    · simp
    · rw [List.mem_cons, insertPath_mem le x z ys, List.mem_cons, or_left_comm]

theorem sortPaths_mem (le : Path → Path → Bool) (z : Path) : ∀ xs : List Path, z ∈ sortPaths le xs ↔ z ∈ xs
  | [] => by simp [sortPaths]
  | x :: xs => by rw [sortPaths, insertPath_mem, sortPaths_mem le z xs, List.mem_cons]

theorem insertPath_sorted {le : Path → Path → Bool} (o : OrderedPaths le) (x : Path) : ∀ {ys : List Path},
    ys.Pairwise (fun a b => le a b = true) → (insertPath le x ys).Pairwise (fun a b => le a b = true)
  | [], _ => by simp [insertPath]
  | y :: ys, h => by
    rw [List.pairwise_cons] at h
    rw [insertPath]
    split
    · rename_i hxy
      refine List.pairwise_cons.2 ⟨?_, List.pairwise_cons.2 h⟩
      intro z hz
      rcases List.mem_cons.1 hz with e | hz
      · rw [e]; exact hxy
      · exact o.trans _ _ _ hxy (h.1 z hz)
    · rename_i hxy
      refine List.pairwise_cons.2 ⟨?_, insertPath_sorted o x h.2⟩
      intro z hz
      rcases (insertPath_mem le x z ys).1 hz with e | hz
      · rw [e]
        rcases o.total x y with h1 | h1
        · exact absurd h1 hxy
        · exact h1
      · exact h.1 z hz

theorem sortPaths_sorted {le : Path → Path → Bool} (o : OrderedPaths le) : ∀ xs : List Path,
    (sortPaths le xs).Pairwise (fun a b => le a b = true)
  | [] => .nil
  | x :: xs => insertPath_sorted o x (sortPaths_sorted o xs)

section
variable [DecidableEq Path]

theorem dedup_mem (z : Path) : ∀ xs : List Path, z ∈ dedup xs ↔ z ∈ xs
  | [] => by simp [dedup]
  | [x] => by simp [dedup]
  | x :: y :: ys => by
    rw [dedup]
    split
    · rename_i e
      rw [dedup_mem z (y :: ys), e]
      simp
    · rw [List.mem_cons, dedup_mem z (y :: ys), List.mem_cons (a := z) (b := x)]

theorem dedup_fine {le : Path → Path → Bool} (o : OrderedPaths le) : ∀ {xs : List Path}, xs.Pairwise (fun a b => le a b = true) →
    (dedup xs).Pairwise (fun a b => le a b = true) ∧ (dedup xs).Nodup
  | [], _ => by simp [dedup]
  | [x], _ => by simp [dedup]
  | x :: y :: ys, h => by
    have h' := List.pairwise_cons.1 h
    have ih := dedup_fine o h'.2
    rw [dedup]
    split
    · exact ih
    · rename_i hne
      refine ⟨List.pairwise_cons.2 ⟨fun z hz => h'.1 z ((dedup_mem z _).1 hz), ih.1⟩, List.nodup_cons.2 ⟨?_, ih.2⟩⟩
      intro hx
      rw [dedup_mem] at hx
      rcases List.mem_cons.1 hx with e | hx
      · exact hne e
      · have h1 := (List.pairwise_cons.1 h'.2).1 x hx
        exact hne (o.antisymm _ _ (h'.1 y List.mem_cons_self) h1)

/-- Patterns are expanded to their files. -/
theorem expandGlobs_some {w : World Pat Path Item D E} (o : OrderedPaths w.le) {ps : List Pat} {xs : List Path}
    (h : expandGlobs w ps = some xs) : FilesOf w ps xs := by
  unfold expandGlobs at h
  obtain ⟨ys, h1, h2⟩ := Option.map_eq_some_iff.1 h
  obtain ⟨h3, h4⟩ := gather_some h1
  have := dedup_fine o (sortPaths_sorted o ys)
  rw [h2] at this
  refine ⟨h3, ?_, this.2, this.1⟩
  intro x
  rw [← h2, dedup_mem, sortPaths_mem, h4]

theorem expandGlobs_none {w : World Pat Path Item D E} {ps : List Pat} : expandGlobs w ps = none ↔ ¬ ∀ p ∈ ps, Fine w p := by
  unfold expandGlobs
  rw [Option.map_eq_none_iff]
  constructor
  · intro h1 h2
    obtain ⟨xs, h3⟩ := gather_fine h2
    rw [h1] at h3
    cases h3
  · intro h
    cases h1 : gather w ps with
    | none => rfl
    | some xs => exact absurd (gather_some h1).1 h

omit [DecidableEq Path] in
/-- There is one such list. -/
theorem FilesOf.unique {w : World Pat Path Item D E} (o : OrderedPaths w.le) {ps : List Pat} {xs ys : List Path} (hx : FilesOf w ps xs)
    (hy : FilesOf w ps ys) : xs = ys := by
  have hp : xs.Perm ys := (List.perm_ext_iff_of_nodup hx.nodup hy.nodup).2 fun z => by rw [hx.mem, hy.mem]
  exact hp.eq_of_pairwise (fun a b _ _ h1 h2 => o.antisymm a b h1 h2) hx.sorted hy.sorted

theorem expandGlobs_iff {w : World Pat Path Item D E} (o : OrderedPaths w.le) {ps : List Pat} {xs : List Path} :
    expandGlobs w ps = some xs ↔ FilesOf w ps xs := by
  refine ⟨expandGlobs_some o, fun h => ?_⟩
  cases h1 : expandGlobs w ps with
  | none => exact absurd h.good (expandGlobs_none.1 h1)
  | some ys => rw [(expandGlobs_some o h1).unique o h]

omit [DecidableEq Path] in
theorem loadAll_iff {w : World Pat Path Item D E} : ∀ {ps : List Path} {d d2 : D}, loadAll w ps d = some d2 ↔ Loads w ps d d2
  | [], d, d2 => by
    rw [loadAll]
    constructor
    · intro h; cases h; exact .nil
    · intro h; cases h; rfl
  | p :: ps, d, d2 => by
    rw [loadAll, Option.bind_eq_some_iff]
    constructor
    · rintro ⟨d1, h1, h2⟩
      exact .cons h1 (loadAll_iff.1 h2)
    · intro h
      cases h with
      | cons h1 h2 => exact ⟨_, h1, loadAll_iff.2 h2⟩

omit [DecidableEq Path] in
theorem parseAll_iff {w : World Pat Path Item D E} : ∀ {ps : List Path} {cs : List (Cfg Item D E)},
    parseAll w ps = some cs ↔ ps.map w.parse = cs.map some
  | [], cs => by
    cases cs <;> simp [parseAll]
  | p :: ps, cs => by
    cases cs with
    | nil =>
      constructor
      · intro h
        simp only [parseAll, Option.bind_eq_some_iff, Option.map_eq_some_iff] at h
        obtain ⟨_, _, _, _, h⟩ := h
        cases h
      · intro h
        cases h
    | cons c cs =>
      simp only [parseAll, Option.bind_eq_some_iff, Option.map_eq_some_iff, List.map_cons, List.cons.injEq]
      constructor
      · rintro ⟨c', h1, cs', h2, h3, h4⟩
        rw [h3] at h1
        rw [h4] at h2
        exact ⟨h1, parseAll_iff.1 h2⟩
      · rintro ⟨h1, h2⟩
        exact ⟨c, h1, cs, parseAll_iff.2 h2, rfl, rfl⟩

theorem setup_iff {w : World Pat Path Item D E} (o : OrderedPaths w.le) {defs files : List Pat} {d : D} {cs : List (Cfg Item D E)} :
    setup w defs files = some (d, cs) ↔
      ∃ ds fs, FilesOf w defs ds ∧ FilesOf w files fs ∧ Loads w ds w.base d ∧ fs.map w.parse = cs.map some := by
  simp only [setup, Option.bind_eq_some_iff, Option.map_eq_some_iff, expandGlobs_iff o, loadAll_iff, parseAll_iff, Prod.mk.injEq]
  constructor
  · rintro ⟨ds, h1, fs, h2, d', h3, cs', h4, h5, h6⟩
    subst h5; subst h6
    exact ⟨ds, fs, h1, h2, h3, h4⟩
  · rintro ⟨ds, fs, h1, h2, h3, h4⟩
    exact ⟨ds, h1, fs, h2, d, h3, cs, h4, rfl, rfl⟩

end

/-- Nobody has cancelled. -/
theorem not_cancelled {c : Cfg Item D E} : ∀ (as : List Act) {s s' : St D E}, Act.cancel ∉ as → s.cancelled = false → run c s as = some s' →
    s'.cancelled = false
  | [], s, s', _, h, hr => by cases hr; exact h
  | a :: as, s, s', hn, h, hr => by
    simp only [run, Option.bind_eq_some_iff] at hr
    obtain ⟨u, hu, hr⟩ := hr
    refine not_cancelled as (fun hx => hn (List.mem_cons_of_mem _ hx)) ?_ hr
    cases a with
    | cancel => exact absurd List.mem_cons_self hn
    | finish =>
      simp only [step] at hu
      split at hu
      · cases hu; exact h
      · cases hu
    | work i =>
      simp only [step] at hu
      split at hu
      · cases hu
      · unfold work onStop at hu
        split at hu
        · cases hu
        · split at hu <;> (try split at hu) <;> (try split at hu) <;> (try split at hu) <;> (try split at hu) <;> cases hu <;> exact h

/-- An error is seen just if some item fails. -/
theorem errors_iff {c : Cfg Item D E} {d : D} {rs : List (Outcome E)} (h : Processes c d rs) : errorsIn rs = false ↔ Succeeds c d := by
  obtain ⟨as, s, h1, h2, h3, h4⟩ := h
  have hc := not_cancelled as h1 rfl h2
  have hs := outcomes_sound c d as s h2 h3
  rw [← h4] at hs
  unfold errorsIn
  constructor
  · intro he i it hi
    rw [List.any_eq_false] at he
    rcases hs i it hi with h | ⟨_, _, j, e, jt, _, _, h⟩ | ⟨_, _, h⟩
    · rcases trueOutcome_processed c d i it with h5 | ⟨e, h5⟩
      · exact h5
      · rw [h5] at h
        exact absurd rfl (he _ (List.mem_of_getElem? h))
    · exact absurd rfl (he _ (List.mem_of_getElem? h))
    · rw [hc] at h; cases h
  · intro hg
    rw [List.any_eq_false]
    intro o ho hf
    obtain ⟨i, hi⟩ := List.mem_iff_getElem?.1 ho
    have hlt : i < c.items.length := by
      have := (List.getElem?_eq_some_iff.1 hi).1
      rw [h4] at this
      simpa [results] using this
    have hit := List.getElem?_eq_getElem hlt
    rcases hs i _ hit with h | ⟨_, _, j, e, jt, h5, h6, _⟩ | ⟨_, _, h⟩
    · rw [hg i _ hit, hi] at h
      cases h
      cases hf
    · rw [hg j jt h5] at h6
      cases h6
    · rw [hc] at h; cases h

/-- When all items succeed, that is the result. -/
theorem succeeds_results {c : Cfg Item D E} {d : D} {rs : List (Outcome E)} (h : Processes c d rs) (hg : Succeeds c d) :
    rs = c.items.map fun _ => .success := by
  obtain ⟨as, s, h1, h2, h3, h4⟩ := h
  have hc := not_cancelled as h1 rfl h2
  have hs := outcomes_sound c d as s h2 h3
  have hl : (results c s).length = c.items.length := by simp [results]
  rw [h4]
  apply List.ext_getElem?
  intro i
  by_cases hi : i < c.items.length
  · have hit := List.getElem?_eq_getElem hi
    rw [List.getElem?_map, hit]
    rcases hs i _ hit with h | ⟨_, _, j, e, jt, h5, h6, _⟩ | ⟨_, _, h⟩
    · rw [h, hg i _ hit]; rfl
    · rw [hg j jt h5] at h6; cases h6
    · rw [hc] at h; cases h
  · rw [List.getElem?_eq_none (by omega), List.getElem?_eq_none (by simp; omega)]

theorem run_append {c : Cfg Item D E} : ∀ (as bs : List Act) (s : St D E), run c s (as ++ bs) = (run c s as).bind fun t => run c t bs
  | [], _, _ => rfl
  | a :: as, bs, s => by
    simp only [List.cons_append, run]
    cases step c s a with
    | none => rfl
    | some t => exact run_append as bs t

/-- A batch can be processed. -/
theorem processes_some (c : Cfg Item D E) (d : D) : ∃ rs, Processes c d rs := by
  have key : ∀ n as (s : St D E), Act.cancel ∉ as → run c (init d) as = some s → 4 * c.items.length + 2 - as.length ≤ n →
      ∃ as s, Act.cancel ∉ as ∧ run c (init d) as = some s ∧ s.fin.isSome = true := by
    intro n
    induction n with
    | zero =>
      intro as s h1 h2 h3
      by_cases hf : Finished s
      · exact ⟨as, s, h1, h2, hf⟩
      · obtain ⟨a, s', h4, h5⟩ := never_stuck c d as s h2 hf
        have hr : run c (init d) (as ++ [a]) = some s' := by rw [run_append, h2]; simp [run, h5]
        have := schedules_bounded c d _ _ hr
        rw [List.length_append, List.length_singleton] at this
        omega
    | succ n ih =>
      intro as s h1 h2 h3
      by_cases hf : Finished s
      · exact ⟨as, s, h1, h2, hf⟩
      · obtain ⟨a, s', h4, h5⟩ := never_stuck c d as s h2 hf
        have hr : run c (init d) (as ++ [a]) = some s' := by rw [run_append, h2]; simp [run, h5]
        refine ih (as ++ [a]) s' ?_ hr ?_
        · intro hx
          rcases List.mem_append.1 hx with hx | hx
          · exact h1 hx
          · exact h4 (List.mem_singleton.1 hx).symm
        · rw [List.length_append, List.length_singleton]; omega
  obtain ⟨as, s, h1, h2, h3⟩ := key _ [] (init d) (by simp) rfl (Nat.le_refl _)
  exact ⟨_, as, s, h1, h2, h3, rfl⟩

theorem files_some (d : D) : ∀ cs : List (Cfg Item D E), ∃ rss b, Files d cs rss b
  | [] => ⟨[], true, .nil⟩
  | c :: cs => by
    obtain ⟨rs, h⟩ := processes_some c d
    cases he : errorsIn rs with
    | true => exact ⟨_, _, .stop h he⟩
    | false =>
      obtain ⟨rss, b, h2⟩ := files_some d cs
      exact ⟨_, _, .next h he h2⟩

theorem files_fine {d : D} {cs : List (Cfg Item D E)} {rss : List (List (Outcome E))} {b : Bool} (h : Files d cs rss b) :
    b = true ↔ ∀ c ∈ cs, Succeeds c d := by
  induction h with
  | nil => simp
  | stop h1 h2 =>
    simp only [Bool.false_eq_true, false_iff]
    intro hg
    rw [(errors_iff h1).2 (hg _ List.mem_cons_self)] at h2
    cases h2
  | next h1 h2 _ ih =>
    rw [ih, List.forall_mem_cons]
    exact ⟨fun h => ⟨(errors_iff h1).1 h2, h⟩, fun h => h.2⟩

variable [DecidableEq Path]

omit [DecidableEq Path] in
theorem empty_files {w : World Pat Path Item D E} {ps : List Pat} (h : FilesOf w ps []) : ps = [] := by
  cases ps with
  | nil => rfl
  | cons p ps =>
    obtain ⟨rs, h1, h2, h3⟩ := h.good p List.mem_cons_self
    cases rs with
    | nil => exact absurd rfl h3
    | cons r rs =>
      cases r with
      | none => exact absurd List.mem_cons_self h2
      | some x => exact absurd ((h.mem x).2 ⟨p, List.mem_cons_self, _, h1, List.mem_cons_self⟩) (by simp)

/-- **C80**: when there are files to process, the program's status is 0 just if all goes well: every pattern names files, the
definition files load, the batch files parse, and every item of every file succeeds — with the definitions of the definition
files and of its own batch, not those of other batches. This does not depend on how threads are scheduled. -/
theorem exit_status_zero {w : World Pat Path Item D E} (o : OrderedPaths w.le) {defs files : List Pat} {x : End E} (hf : files ≠ [])
    (h : Main w defs files x) : x.code = some 0 ↔ AllWell w defs files := by
  cases h with
  | shell h1 h2 => exact absurd (empty_files ((expandGlobs_iff o).1 h2)) hf
  | globs h1 =>
    refine ⟨fun h => by simp [End.code] at h, ?_⟩
    rintro ⟨ds, fs, d, cs, h2, h3, _⟩
    rw [(expandGlobs_iff o).2 h2, (expandGlobs_iff o).2 h3] at h1
    rcases h1 with h1 | h1 <;> cases h1
  | panicked _ _ _ h1 =>
    refine ⟨fun h => by simp [End.code] at h, ?_⟩
    rintro ⟨ds, fs, d, cs, h2, h3, h4, h5, _⟩
    rw [(setup_iff o).2 ⟨ds, fs, h2, h3, h4, h5⟩] at h1
    cases h1
  | @processed fp d cs rss b h1 h2 h3 h4 =>
    have hb := files_fine h4
    have hcode : (End.processed rss b).code = some 0 ↔ b = true := by cases b <;> simp [End.code]
    rw [hcode, hb]
    constructor
    · intro hg
      obtain ⟨ds, fs, k1, k2, k3, k4⟩ := (setup_iff o).1 h3
      exact ⟨ds, fs, d, cs, k1, k2, k3, k4, hg⟩
    · rintro ⟨ds, fs, d', cs', k1, k2, k3, k4, hg⟩
      have := (setup_iff o).2 ⟨ds, fs, k1, k2, k3, k4⟩
      rw [h3] at this
      cases this
      exact hg

/-- C80: a file that can not be found, loaded or parsed stops the program before any item is processed, and with another status. -/
theorem exit_status_panic {w : World Pat Path Item D E} (o : OrderedPaths w.le) {defs files : List Pat} {x : End E} (hf : files ≠ [])
    (h : Main w defs files x) : x = .panicked ↔
      ¬ ∃ (ds fs : List Path) (d : D) (cs : List (Cfg Item D E)), FilesOf w defs ds ∧ FilesOf w files fs ∧ Loads w ds w.base d ∧ fs.map w.parse = cs.map some := by
  cases h with
  | shell h1 h2 => exact absurd (empty_files ((expandGlobs_iff o).1 h2)) hf
  | globs h1 =>
    refine ⟨fun _ => ?_, fun _ => rfl⟩
    rintro ⟨ds, fs, d, cs, h2, h3, _⟩
    rw [(expandGlobs_iff o).2 h2, (expandGlobs_iff o).2 h3] at h1
    rcases h1 with h1 | h1 <;> cases h1
  | panicked _ _ _ h1 =>
    refine ⟨fun _ => ?_, fun _ => rfl⟩
    rintro ⟨ds, fs, d, cs, h2, h3, h4, h5⟩
    rw [(setup_iff o).2 ⟨ds, fs, h2, h3, h4, h5⟩] at h1
    cases h1
  | @processed fp d cs rss b h1 h2 h3 h4 =>
    obtain ⟨ds, fs, k⟩ := (setup_iff o).1 h3
    exact ⟨fun h => (by cases h), fun h => absurd ⟨ds, fs, d, cs, k⟩ h⟩

/-- C80: with status 1 the files up to some file have been processed with success, that file has a failed item, and the
files after it have not been processed. With status 0 all have been. -/
theorem exit_status_results {w : World Pat Path Item D E} (o : OrderedPaths w.le) {defs files : List Pat} {rss : List (List (Outcome E))} {b : Bool}
    (h : Main w defs files (.processed rss b)) : ∃ (ds fs : List Path) (d : D) (cs : List (Cfg Item D E)), FilesOf w defs ds ∧ FilesOf w files fs ∧ Loads w ds w.base d ∧
      fs.map w.parse = cs.map some ∧
      (b = true → rss = cs.map fun c => c.items.map fun _ => .success) ∧
      (b = false → ∃ (before : List (Cfg Item D E)) (c : Cfg Item D E) (after : List (Cfg Item D E)) (rs : List (Outcome E)),
        cs = before ++ c :: after ∧ rss = (before.map fun c => c.items.map fun _ => .success) ++ [rs] ∧
          rs.length = c.items.length ∧ ∃ e, Outcome.failed e ∈ rs) := by
  cases h with
  | @processed fp d cs rss b h1 h2 h3 h4 =>
    obtain ⟨ds, fs, k1, k2, k3, k4⟩ := (setup_iff o).1 h3
    refine ⟨ds, fs, d, cs, k1, k2, k3, k4, ?_⟩
    clear k4 h3
    induction h4 with
    | nil => exact ⟨fun _ => rfl, fun h => by cases h⟩
    | @stop c cs rs p1 p2 =>
      refine ⟨fun h => (by cases h), fun _ => ⟨[], c, cs, rs, rfl, rfl, ?_, ?_⟩⟩
      · obtain ⟨as, s, _, _, _, h⟩ := p1
        rw [h]; simp [results]
      · unfold errorsIn at p2
        obtain ⟨r, hr, hf⟩ := List.any_eq_true.1 p2
        cases r with
        | failed e => exact ⟨e, hr⟩
        | _ => cases hf
    | @next c cs rs rss b p1 p2 p3 ih =>
      have hs := succeeds_results p1 ((errors_iff p1).1 p2)
      refine ⟨fun h => ?_, fun h => ?_⟩
      · rw [ih.1 h, hs]; rfl
      · obtain ⟨before, c', after, rs', q1, q2, q3, q4⟩ := ih.2 h
        exact ⟨c :: before, c', after, rs', by rw [q1]; rfl, by rw [q2, hs]; rfl, q3, q4⟩

/-- C80: the program ends in some way, and its status is determined. -/
theorem exit_status_determined {w : World Pat Path Item D E} (o : OrderedPaths w.le) (defs files : List Pat) :
    (∃ x, Main w defs files x) ∧ ∀ x y, Main w defs files x → Main w defs files y → x.code = y.code := by
  constructor
  · cases h1 : expandGlobs w defs with
    | none => exact ⟨_, .globs (Or.inl h1)⟩
    | some dp =>
      cases h2 : expandGlobs w files with
      | none => exact ⟨_, .globs (Or.inr h2)⟩
      | some fp =>
        by_cases h3 : fp = []
        · exact ⟨_, .shell h1 (by rw [h2, h3])⟩
        · cases h4 : setup w defs files with
          | none => exact ⟨_, .panicked h1 h2 h3 h4⟩
          | some r =>
            obtain ⟨rss, b, h5⟩ := files_some r.1 r.2
            exact ⟨_, .processed h2 h3 h4 h5⟩
  · intro x y hx hy
    by_cases hf : files = []
    · subst hf
      have h0 : expandGlobs w [] = some [] := by simp [expandGlobs, gather, sortPaths, dedup]
      cases hx with
      | shell h1 h2 =>
        cases hy with
        | shell => rfl
        | globs h => rw [h1, h2] at h; rcases h with h | h <;> cases h
        | panicked _ h4 h5 _ => rw [h2] at h4; cases h4; exact absurd rfl h5
        | processed h4 h5 _ _ => rw [h2] at h4; cases h4; exact absurd rfl h5
      | globs h =>
        cases hy with
        | shell h1 h2 => rw [h1, h2] at h; rcases h with h | h <;> cases h
        | globs => rfl
        | panicked => rfl
        | processed h4 h5 _ _ => rw [h0] at h4; cases h4; exact absurd rfl h5
      | panicked _ h4 h5 _ => rw [h0] at h4; cases h4; exact absurd rfl h5
      | processed h4 h5 _ _ => rw [h0] at h4; cases h4; exact absurd rfl h5
    · have hz := (exit_status_zero o hf hx).trans (exit_status_zero o hf hy).symm
      have hp := (exit_status_panic o hf hx).trans (exit_status_panic o hf hy).symm
      cases hx with
      | shell h1 h2 => exact absurd (empty_files ((expandGlobs_iff o).1 h2)) hf
      | globs _ => rw [hp.1 rfl]
      | panicked _ _ _ _ => rw [hp.1 rfl]
      | @processed _ _ _ rss b _ _ _ _ =>
        cases hy with
        | shell h1 h2 => exact absurd (empty_files ((expandGlobs_iff o).1 h2)) hf
        | globs _ => exact absurd (hp.2 rfl) (by simp)
        | panicked _ _ _ _ => exact absurd (hp.2 rfl) (by simp)
        | @processed _ _ _ rss' b' _ _ _ _ =>
          cases b <;> cases b' <;> simp_all [End.code]

/-! Non-vacuity: three files, of which the second has a failing expression, named by overlapping patterns. -/

/-- Patterns and paths are numbers; pattern 9 names the files 2, 1; others name themselves, up to 3. File 0 holds definitions. -/
def toy : World Nat Nat Nat (List Nat) String where
  glob := fun p => if p = 9 then some [some 2, some 1] else if p ≤ 3 then some [some p] else some []
  le := fun x y => decide (x ≤ y)
  base := []
  load := fun p d => if p = 0 then some (7 :: d) else none
  parse := fun p => if p = 1 then some { demo true false with items := [107, 7] }
    else if p = 2 then some { demo true false with items := [107, 1, 7] }
    else if p = 3 then some { demo true false with items := [7] } else none

theorem toy_ordered : OrderedPaths toy.le :=
  ⟨fun x y => by simpa [toy] using Nat.le_total x y,
   fun x y z h1 h2 => by
    simp only [toy, decide_eq_true_eq] at *
    omega,
   fun x y h1 h2 => by
    simp only [toy, decide_eq_true_eq] at *
    omega⟩

example : expandGlobs toy [3, 9, 2] = some [1, 2, 3] := by decide
example : expandGlobs toy [3, 8] = none := by decide

/-- The third file is not processed. -/
example : Main toy [0] [3, 9, 2] (.processed [[.success, .success], [.success, .failed "undefined", .success]] false) := by
  have hp : ∀ (c : Cfg Nat (List Nat) String) (d : List Nat) (as : List Act) (rs : List (Outcome String)), Act.cancel ∉ as →
      (run c (init d) as).map (fun s => (s.fin.isSome, results c s)) = some (true, rs) → Processes c d rs := by
    intro c d as rs h1 h2
    obtain ⟨s, h3, h4⟩ := Option.map_eq_some_iff.1 h2
    cases h4' : s.fin.isSome <;> rw [h4'] at h4 <;> cases h4
    exact ⟨as, s, h1, h3, h4', rfl⟩
  refine .processed (fp := [1, 2, 3]) (by decide) (by decide) (show setup toy [0] [3, 9, 2] = some _ from rfl) (.next ?_ ?_ (.stop ?_ ?_))
  · exact hp _ _ [.work 0, .work 0, .work 0, .work 1, .work 1, .work 1, .finish] _ (by decide) (by decide)
  · decide
  · exact hp _ _ [.work 0, .work 0, .work 0, .work 1, .work 2, .work 2, .work 1, .work 1, .work 2, .finish] _ (by decide) (by decide)
  · decide

/-- Without that file all goes well. -/
example : AllWell toy [0] [1, 3] := by
  refine ⟨[0], [1, 3], [7], [{ demo true false with items := [107, 7] }, { demo true false with items := [7] }],
    (expandGlobs_iff toy_ordered).1 (by decide), (expandGlobs_iff toy_ordered).1 (by decide), .cons rfl .nil, rfl, ?_⟩
  intro c hc i it hi
  rcases List.mem_cons.1 hc with e | hc
  · subst e
    match i, hi with
    | 0, hi => cases hi; rfl
    | 1, hi => cases hi; decide
  · rw [List.mem_singleton.1 hc] at hi ⊢
    match i, hi with
    | 0, hi => cases hi; decide

/-- But not without the definition file. -/
example : ¬ AllWell toy [] [3] := by
  intro h
  have : ∃ x, Main toy [] [3] x ∧ x.code = some 1 := by
    refine ⟨.processed [[.failed "undefined"]] false, .processed (fp := [3]) (by decide) (by decide) (show setup toy [] [3] = some _ from rfl) (.stop ?_ ?_), rfl⟩
    · exact ⟨[.work 0, .work 0, .work 0, .finish], _, by decide, rfl, rfl, rfl⟩
    · decide
  obtain ⟨x, h1, h2⟩ := this
  rw [(exit_status_zero toy_ordered (by decide) h1).2 h] at h2
  cases h2

end Verif.Cli
