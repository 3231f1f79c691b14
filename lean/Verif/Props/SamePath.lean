import Verif.Model.SamePath
import Verif.Props.IoPath
/-! C109: a path means the same place for `open`, `save` and `ls`. -/
namespace Verif.Io

theorem isAbs_names (rel : List String) : isAbs (names rel) = false := by
  cases rel <;> rfl

theorem cds_relative (fs : FS) (cwd : List String) (root : Path) (hroot : isAbs root = false) (l : List (Nat × Path)) : ∀ tabs : Tabs,
    (∀ t w, tabs t = some w → isAbs w = false) →
    ∀ t w, (l.foldl (fun tabs c => cd fs cwd root tabs c.1 c.2) tabs) t = some w → isAbs w = false := by
  induction l with
  | nil => intro tabs h; exact h
  | cons c l ih =>
    intro tabs h
    rw [List.foldl_cons]
    refine ih _ ?_
    intro t w hw
    by_cases ht : t = c.1
    · subst ht
      simp only [cd] at hw
      generalize scrub fs cwd root _ c.2 = x at hw
      cases x with
      | ok rel =>
        simp only [if_true, Option.some.injEq] at hw
        rw [← hw]
        exact isAbs_names _
      | error e =>
        simp only [if_true, Option.some.injEq] at hw
        rw [← hw]
        unfold tabWd
        cases ht : tabs c.1 with
        | none => exact hroot
        | some w => exact h _ _ ht
    · rw [cd_other _ _ _ _ _ _ _ ht] at hw
      exact h t w hw

/-- C109. In the shell as it is started (its root is the directory it is started in), in every tab and after all `cd` commands: if a path
can be opened, then what is read is at the place where `save` would write and which `ls` would list; so are the two others for
every path, absolute ones and those with links too. If the path is not empty, or the tab's directory is not, `ls` finds it.
Partial: other roots (`places_differ`), and `ls` in the root directory (`ls_fails_in_the_root`). -/
theorem same_place_partial (checked : Bool) (fs : FS) (hs : Sane fs) (cwd : List String) (hc : LinkFree fs cwd) (l : List (Nat × Path)) (t : Nat)
    (path : Path) (hp : path ≠ []) :
    ∃ place, lsDir fs cwd (wdOf fs cwd [.cur] l t) (some path) = some place ∧
      (∀ q, save checked [.cur] (wdOf fs cwd [.cur] l t) path = some (.ok q) → resolve fs cwd q = place) ∧
      (∀ read, openReads fs cwd [.cur] (wdOf fs cwd [.cur] l t) path = .ok read → read = place) := by
  have hw : isAbs (wdOf fs cwd [.cur] l t) = false := by
    unfold wdOf tabWd
    cases h : cds fs cwd [.cur] l t with
    | none => rfl
    | some w => exact cds_relative fs cwd [.cur] rfl l (fun _ => none) (by simp) t w h
  generalize wdOf fs cwd [.cur] l t = wd at hw
  have hsame : resolve fs cwd (join (join [.cur] wd) path) = resolve fs cwd (join wd path) := by
    cases ha : isAbs path with
    | true => simp [join, ha]
    | false => rw [resolve_join _ _ _ _ ha, resolve_join _ _ _ _ ha, resolve_join _ _ _ _ hw]; rfl
  have hne : join wd path ≠ [] := by
    unfold join
    split
    · exact hp
    · split
      · exact hp
      · rename_i h
        simp [h]
  refine ⟨resolve fs cwd (join wd path), by simp [lsDir, find, hne], ?_, ?_⟩
  · intro q h
    have : q = join (join [.cur] wd) path := by
      unfold save at h
      dsimp only at h
      cases hd : depth checked (join (join [.cur] wd) path) 0 with
      | none => rw [hd] at h; cases h
      | some x =>
        rw [hd] at h
        simp only [Option.map_some, Option.some.injEq] at h
        split at h <;> cases h
        rfl
    rw [this, hsame]
  · intro read h
    rw [(open_inside_partial fs hs cwd hc [.cur] wd path rfl read h).1, hsame]

/-- **The code violates C109**: a user who goes to a directory and back to the root directory gets an error from `ls`, as the path of
the root is then empty; `open` works. -/
theorem ls_fails_in_the_root :
    wdOf noLinks ["home"] [.cur] [(0, [.name "d"]), (0, [.up])] 0 = [] ∧
    lsDir noLinks ["home"] (wdOf noLinks ["home"] [.cur] [(0, [.name "d"]), (0, [.up])] 0) none = none ∧
    openReads noLinks ["home"] [.cur] (wdOf noLinks ["home"] [.cur] [(0, [.name "d"]), (0, [.up])] 0) [.name "f"] = .ok ["home", "f"] := by decide

/-- C109. In every other directory `ls` without a path lists the directory of the tab. -/
theorem ls_lists_the_directory (fs : FS) (cwd : List String) (l : List (Nat × Path)) (t : Nat) (h : wdOf fs cwd [.cur] l t ≠ []) :
    lsDir fs cwd (wdOf fs cwd [.cur] l t) none = some (resolve fs cwd (join [.cur] (wdOf fs cwd [.cur] l t))) := by
  have hw : isAbs (wdOf fs cwd [.cur] l t) = false := by
    unfold wdOf tabWd
    cases h : cds fs cwd [.cur] l t with
    | none => rfl
    | some w => exact cds_relative fs cwd [.cur] rfl l (fun _ => none) (by simp) t w h
  rw [resolve_join _ _ _ _ hw]
  simp [lsDir, find, h, resolve, stepDir]

/-- C109. `cd` changes the directory of its tab only: to the place of the path that was given, or not at all. -/
theorem cd_moves_its_tab (fs : FS) (hs : Sane fs) (cwd : List String) (hc : LinkFree fs cwd) (l : List (Nat × Path)) (t : Nat) (path : Path)
    (hp : path ≠ []) :
    (∀ u, u ≠ t → wdOf fs cwd [.cur] (l ++ [(t, path)]) u = wdOf fs cwd [.cur] l u) ∧
    (wdOf fs cwd [.cur] (l ++ [(t, path)]) t = wdOf fs cwd [.cur] l t ∨
      lsDir fs cwd (wdOf fs cwd [.cur] l t) (some path) =
        some (resolve fs cwd (join [.cur] (wdOf fs cwd [.cur] (l ++ [(t, path)]) t)))) ∧
    ((∃ rel, fs.exist (cwd ++ rel) = true ∧ fs.exist cwd = true ∧
        lsDir fs cwd (wdOf fs cwd [.cur] l t) (some path) = some (cwd ++ rel)) →
      lsDir fs cwd (wdOf fs cwd [.cur] l t) (some path) =
        some (resolve fs cwd (join [.cur] (wdOf fs cwd [.cur] (l ++ [(t, path)]) t)))) := by
  have hcds : cds fs cwd [.cur] (l ++ [(t, path)]) = cd fs cwd [.cur] (cds fs cwd [.cur] l) t path := by
    simp [cds, List.foldl_append]
  have hrel : ∀ w, cds fs cwd [.cur] l t = some w → isAbs w = false :=
    fun w h => cds_relative fs cwd [.cur] rfl l (fun _ => none) (by simp) t w h
  unfold wdOf
  rw [hcds]
  generalize cds fs cwd [.cur] l = tabs at hrel
  have hjoin : join [.cur] ((tabs t).getD []) = join [.cur] (tabWd [.cur] tabs t) := by
    unfold tabWd
    cases tabs t <;> rfl
  have hw : isAbs (tabWd [.cur] tabs t) = false := by
    unfold tabWd
    cases h : tabs t with
    | none => rfl
    | some w => exact hrel w h
  have hsame : resolve fs cwd (join (join [.cur] (tabWd [.cur] tabs t)) path) = resolve fs cwd (join (tabWd [.cur] tabs t) path) := by
    cases ha : isAbs path with
    | true => simp [join, ha]
    | false => rw [resolve_join _ _ _ _ ha, resolve_join _ _ _ _ ha, resolve_join _ _ _ _ hw]; rfl
  have hscrub : scrub fs cwd [.cur] ((tabs t).getD []) path = scrub fs cwd [.cur] (tabWd [.cur] tabs t) path := by
    unfold scrub
    rw [hjoin]
  refine ⟨?_, ?_⟩
  · intro u hu
    unfold tabWd
    rw [cd_other _ _ _ _ _ _ _ hu]
  have key : (∀ rel, scrub fs cwd [.cur] ((tabs t).getD []) path = .ok rel →
      resolve fs cwd (join (tabWd [.cur] tabs t) path) = resolve fs cwd (join [.cur] (tabWd [.cur] (cd fs cwd [.cur] tabs t path) t))) := by
    intro rel h
    obtain ⟨h1, h2, _⟩ := cd_accepted fs hs cwd hc [.cur] tabs t path rel h
    have : tabWd [.cur] (cd fs cwd [.cur] tabs t path) t = names rel := by simp [tabWd, h1]
    rw [this, h2, hjoin, hsame]
  refine ⟨?_, ?_⟩
  · cases h : scrub fs cwd [.cur] ((tabs t).getD []) path with
    | error e =>
      left
      have hcd : cd fs cwd [.cur] tabs t path t = some (tabWd [.cur] tabs t) := by
        cases ht : tabs t with
        | none =>
          rw [ht] at h
          simp only [Option.getD_none] at h
          simp only [cd, ht, h, if_true]
        | some w =>
          rw [ht] at h
          simp only [Option.getD_some] at h
          simp only [cd, ht, h, if_true]
      simp [tabWd, hcd]
    | ok rel =>
      right
      have hne : join (tabWd [.cur] tabs t) path ≠ [] := by
        unfold join
        split
        · exact hp
        · split
          · exact hp
          · rename_i h
            simp [h]
      simp only [lsDir, find, hne, if_false]
      rw [key rel h]
  · intro ⟨rel, he1, he2, hl⟩
    have hne : join (tabWd [.cur] tabs t) path ≠ [] := by
      intro e
      simp [lsDir, find, e] at hl
    simp only [lsDir, find, hne, if_false, Option.some.injEq] at hl ⊢
    refine key rel ?_
    rw [hscrub, scrub_iff]
    refine ⟨he2, ?_, ?_⟩
    · rw [hsame, hl]; exact he1
    · rw [hsame, hl]; rfl

/-- **The code violates C109**: with a root that is not the directory of the process, `save` writes below the root, while `open` reads
and `ls` lists below the directory of the process. With an absolute root `save` refuses all paths. -/
theorem places_differ :
    wdOf noLinks ["home"] [.root, .name "data"] [(0, [.name "d"])] 0 = [.name "d"] ∧
    save true [.root, .name "data"] [] [.name "f"] = some (.error .aboveRoot) ∧
    save true [.name "data"] [.name "d"] [.name "f"] = some (.ok [.name "data", .name "d", .name "f"]) ∧
    openReads noLinks ["home"] [.name "data"] [.name "d"] [.name "f"] = .ok ["home", "d", "f"] ∧
    lsDir noLinks ["home"] [.name "d"] (some [.name "f"]) = some ["home", "d", "f"] ∧
    resolve noLinks ["home"] [.name "data", .name "d", .name "f"] = ["home", "data", "d", "f"] := by decide

-- the hypotheses can be met
example : ∃ rel, noLinks.exist (["home"] ++ rel) = true ∧ noLinks.exist ["home"] = true ∧
    lsDir noLinks ["home"] (wdOf noLinks ["home"] [.cur] [(0, [.name "d"])] 0) (some [.up, .name "e"]) = some (["home"] ++ rel) :=
  ⟨["e"], rfl, rfl, by decide⟩

example : Sane noLinks ∧ LinkFree noLinks ["home"] ∧ wdOf noLinks ["home"] [.cur] [(0, [.name "d"]), (1, [.name "e"]), (0, [.name "g"])] 0 = [.name "d", .name "g"] ∧
    save true [.cur] [.name "d", .name "g"] [.up, .name "f"] = some (.ok [.cur, .name "d", .name "g", .up, .name "f"]) ∧
    openReads noLinks ["home"] [.cur] [.name "d", .name "g"] [.up, .name "f"] = .ok ["home", "d", "f"] ∧
    lsDir noLinks ["home"] [.name "d", .name "g"] (some [.up, .name "f"]) = some ["home", "d", "f"] := by
  refine ⟨fun l t h => by simp [noLinks] at h, fun p _ _ => rfl, by decide, by decide, by decide, by decide⟩

end Verif.Io
