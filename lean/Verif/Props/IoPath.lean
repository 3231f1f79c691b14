import Verif.Model.Io
import Verif.Model.Nom
/-! Properties of paths in `open`, `save` and `cd` (C42, C43). -/
namespace Verif.Io

/-! ### What paths denote -/

theorem resolve_append (fs : FS) (d : List String) (p q : Path) : resolve fs d (p ++ q) = resolve fs (resolve fs d p) q :=
  List.foldl_append

theorem resolve_filter (fs : FS) : ∀ (q : Path) (d : List String), resolve fs d (q.filter (· ≠ .cur)) = resolve fs d q
  | [], _ => rfl
  | c :: q, d => by
    by_cases h : c = .cur
    · subst h
      simp only [List.filter_cons, ne_eq, not_true_eq_false, decide_false, Bool.false_eq_true, if_false]
      exact resolve_filter fs q d
    · rw [List.filter_cons, if_pos (by simpa using h)]
      exact resolve_filter fs q (stepDir fs d c)

/-- Joining a relative path: it is taken from the place the first path denotes. -/
theorem resolve_join (fs : FS) (d : List String) (p q : Path) (hq : isAbs q = false) :
    resolve fs d (join p q) = resolve fs (resolve fs d p) q := by
  simp only [join, hq, Bool.false_eq_true, if_false]
  by_cases hp : p = []
  · rw [if_pos hp, hp]; rfl
  · rw [if_neg hp, resolve_append, resolve_filter]

theorem isAbs_join (p q : Path) (hp : isAbs p = false) (hq : isAbs q = false) : isAbs (join p q) = false := by
  simp only [join, hq, Bool.false_eq_true, if_false]
  by_cases h : p = []
  · rw [if_pos h]; exact hq
  · rw [if_neg h]
    cases p with
    | nil => exact absurd rfl h
    | cons c p => cases c <;> first | rfl | exact hp

/-- No part of the way to `t` is a link. -/
def LinkFree (fs : FS) (t : List String) : Prop := ∀ p, p <+: t → p ≠ [] → fs.link p = none

/-- Links lead to link-free places (a chain of links counts as one link). -/
def Sane (fs : FS) : Prop := ∀ l t, fs.link l = some t → LinkFree fs t

theorem resolve_linkFree (fs : FS) (hs : Sane fs) : ∀ (p : Path) (d : List String), LinkFree fs d → LinkFree fs (resolve fs d p)
  | [], _, h => h
  | c :: p, d, h => by
    refine resolve_linkFree fs hs p (stepDir fs d c) ?_
    cases c with
    | root => intro q hq hne; exact absurd (List.prefix_nil.1 hq) hne
    | cur => exact h
    | up => exact fun q hq hne => h q (hq.trans (List.dropLast_prefix d)) hne
    | name s =>
      simp only [stepDir]
      cases hl : fs.link (d ++ [s]) with
      | some t => exact hs _ _ hl
      | none =>
        intro q hq hne
        rcases List.prefix_concat_iff.1 hq with rfl | hq
        · exact hl
        · exact h q hq hne

theorem resolve_names (fs : FS) : ∀ (rel d : List String), LinkFree fs (d ++ rel) → resolve fs d (names rel) = d ++ rel
  | [], d, _ => by simp [names, resolve]
  | s :: rel, d, h => by
    have h1 : fs.link (d ++ [s]) = none := h (d ++ [s]) ⟨rel, by simp⟩ (by simp)
    have h2 := resolve_names fs rel (d ++ [s]) (by simpa using h)
    simp only [names, List.map_cons, resolve, List.foldl_cons, stepDir, h1, Option.getD_none]
    simpa [resolve, names] using h2

/-! ### `open` and `cd` -/

theorem strip_iff : ∀ (r t rel : List String), strip r t = some rel ↔ t = r ++ rel
  | [], t, rel => by simp [strip]
  | r :: rs, [], rel => by simp [strip]
  | r :: rs, t :: ts, rel => by
    simp only [strip]
    by_cases h : r = t
    · rw [if_pos h, strip_iff rs ts rel, h]; simp
    · rw [if_neg h]; simp; intro e; exact absurd e.symm h

/-- C43. A path is accepted exactly when the place it denotes exists and lies in the root directory; the result is its
place relative to the root. Links and `..` are taken into account. -/
theorem scrub_iff (fs : FS) (cwd : List String) (root wd path : Path) (rel : List String) :
    scrub fs cwd root wd path = .ok rel ↔
      fs.exist (resolve fs cwd root) = true ∧ fs.exist (resolve fs cwd (join (join root wd) path)) = true ∧
        resolve fs cwd (join (join root wd) path) = resolve fs cwd root ++ rel := by
  unfold scrub canon
  by_cases h1 : fs.exist (resolve fs cwd (join (join root wd) path)) = true
  · simp only [h1, if_true]
    by_cases h2 : fs.exist (resolve fs cwd root) = true
    · simp only [h2, if_true, true_and]
      cases hs : strip (resolve fs cwd root) (resolve fs cwd (join (join root wd) path)) with
      | none =>
        simp only [reduceCtorEq, false_iff]
        intro h
        rw [(strip_iff _ _ _).2 h] at hs
        cases hs
      | some rel' =>
        simp only [Except.ok.injEq]
        have := (strip_iff _ _ _).1 hs
        rw [this]
        simp
    · simp [h2]
  · simp [h1]

/-- C43. What `open` reads is the place that was checked, inside the root directory, when the process runs in the root
directory, as all programs of the repository do. -/
theorem open_inside_partial (fs : FS) (hs : Sane fs) (cwd : List String) (hc : LinkFree fs cwd) (root wd path : Path)
    (hroot : resolve fs cwd root = cwd) (t : List String) (h : openReads fs cwd root wd path = .ok t) :
    t = resolve fs cwd (join (join root wd) path) ∧ cwd <+: t := by
  unfold openReads at h
  cases hs' : scrub fs cwd root wd path with
  | error e => rw [hs'] at h; cases h
  | ok rel =>
    rw [hs'] at h
    obtain ⟨-, -, h3⟩ := (scrub_iff fs cwd root wd path rel).1 hs'
    rw [hroot] at h3
    have hl := resolve_linkFree fs hs (join (join root wd) path) cwd hc
    rw [h3] at hl
    have := resolve_names fs rel cwd hl
    simp only [Except.map] at h
    cases h
    exact ⟨by rw [this, h3], by rw [this]; exact List.prefix_append _ _⟩

/-- C43, and the file is the right one, is false when the process does not run in the root directory: `open f` reads a
file outside the root. -/
theorem open_outside_cwd : ∃ (fs : FS) (cwd : List String) (root : Path), Sane fs ∧
    scrub fs cwd root [] [.name "f"] = .ok ["f"] ∧ openReads fs cwd root [] [.name "f"] = .ok ["home", "f"] ∧
    resolve fs cwd root = ["data"] :=
  ⟨⟨fun _ => none, fun _ => true⟩, ["home"], [.root, .name "data"], fun _ _ h => by simp at h, by rfl, by rfl, by rfl⟩

/-- C43. After an accepted `cd` the tab's directory, taken from the root, denotes the place that was checked: inside the
root directory. -/
theorem cd_accepted (fs : FS) (hs : Sane fs) (cwd : List String) (hc : LinkFree fs cwd) (root : Path) (tabs : Tabs) (t : Nat)
    (path : Path) (rel : List String) (h : scrub fs cwd root ((tabs t).getD []) path = .ok rel) :
    cd fs cwd root tabs t path t = some (names rel) ∧
      resolve fs cwd (join root (names rel)) = resolve fs cwd (join (join root ((tabs t).getD [])) path) ∧
      resolve fs cwd root <+: resolve fs cwd (join root (names rel)) := by
  have hcd : cd fs cwd root tabs t path t = some (names rel) := by
    unfold cd
    cases ht : tabs t with
    | none => rw [ht] at h; simp only [Option.getD_none] at h; simp [h]
    | some w => rw [ht] at h; simp only [Option.getD_some] at h; simp [h]
  obtain ⟨-, -, h3⟩ := (scrub_iff _ _ _ _ _ _).1 h
  have hl := resolve_linkFree fs hs (join (join root ((tabs t).getD [])) path) cwd hc
  rw [h3] at hl
  have habs : isAbs (names rel) = false := by cases rel <;> rfl
  have := resolve_names fs rel (resolve fs cwd root) hl
  rw [resolve_join fs cwd root _ habs, this]
  exact ⟨hcd, h3.symm, List.prefix_append _ _⟩

theorem cd_other (fs : FS) (cwd : List String) (root : Path) (tabs : Tabs) (t u : Nat) (p : Path) (hu : ¬ u = t) :
    cd fs cwd root tabs t p u = tabs u := by
  simp only [cd]
  generalize scrub fs cwd root _ p = r
  cases r <;> simp [hu]

/-- Every tab's directory lies in the root directory. -/
def TabsInside (fs : FS) (cwd : List String) (root : Path) (tabs : Tabs) : Prop :=
  ∀ u, resolve fs cwd root <+: resolve fs cwd (join root ((tabs u).getD []))

/-- C43. Whatever `cd` commands are given, in whatever tabs, every tab stays inside the root directory. -/
theorem cds_inside (fs : FS) (hs : Sane fs) (cwd : List String) (hc : LinkFree fs cwd) (root : Path)
    (hroot : resolve fs cwd (join root root) = resolve fs cwd root) : ∀ (cds : List (Nat × Path)) (tabs : Tabs),
    TabsInside fs cwd root tabs → TabsInside fs cwd root (cds.foldl (fun tabs c => cd fs cwd root tabs c.1 c.2) tabs)
  | [], _, h => h
  | (t, p) :: cds, tabs, h => by
    refine cds_inside fs hs cwd hc root hroot cds _ ?_
    intro u
    dsimp only
    cases hsc : scrub fs cwd root ((tabs t).getD []) p with
    | ok rel =>
      obtain ⟨h1, -, h3⟩ := cd_accepted fs hs cwd hc root tabs t p rel hsc
      by_cases hu : u = t
      · subst hu; rw [h1]; exact h3
      · have := cd_other fs cwd root tabs t u p hu
        rw [this]; exact h u
    | error e =>
      by_cases hu : u = t
      · subst hu
        have : cd fs cwd root tabs u p u = some (tabWd root tabs u) := by
          unfold cd
          cases ht : tabs u with
          | none => rw [ht] at hsc; simp only [Option.getD_none] at hsc; simp [hsc]
          | some w => rw [ht] at hsc; simp only [Option.getD_some] at hsc; simp [hsc]
        rw [this]
        simp only [Option.getD_some, tabWd]
        cases ht : tabs u with
        | none => simp only [Option.getD_none]; rw [hroot]; exact List.prefix_refl _
        | some w => have := h u; rw [ht] at this; exact this
      · have := cd_other fs cwd root tabs t u p hu
        rw [this]; exact h u

/-- The shell is started with the root `.`, which meets the condition of `cds_inside`; so does any absolute root. -/
theorem dot_root (fs : FS) (cwd : List String) : resolve fs cwd (join [.cur] [.cur]) = resolve fs cwd [.cur] ∧
    resolve fs cwd [.cur] = cwd ∧ ∀ root, isAbs root = true → resolve fs cwd (join root root) = resolve fs cwd root :=
  ⟨by rfl, rfl, fun root h => by simp [join, h]⟩

/-- With the relative root `a` the shell starts in `a/a`. -/
theorem relative_root_doubled : resolve ⟨fun _ => none, fun _ => true⟩ ["home"] (join [.name "a"] (tabWd [.name "a"] (fun _ => none) 0)) =
    ["home", "a", "a"] := by rfl

/-- `ls` looks outside the root directory. -/
theorem ls_outside : lsReads ⟨fun _ => none, fun _ => true⟩ ["home", "u"] [.cur] [.up] = ["home"] := by rfl

/-- `cd ..` at the root is refused, `cd a`, `cd ..` is fine, and a link out of the root is refused. -/
example :
    let fs : FS := ⟨fun l => if l = ["r", "out"] then some ["etc"] else none, fun _ => true⟩
    scrub fs ["r"] [.cur] [] [.up] = .error .aboveRoot ∧ scrub fs ["r"] [.cur] [.name "a"] [.up] = .ok [] ∧
      scrub fs ["r"] [.cur] [.name "a"] [.up, .name "out"] = .error .aboveRoot ∧
      scrub fs ["r"] [.cur] [] [.name "a", .name "b"] = .ok ["a", "b"] ∧
      Sane fs ∧ LinkFree fs ["r"] := by
  refine ⟨by decide +kernel, by decide +kernel, by decide +kernel, by decide +kernel, ?_, ?_⟩
  · intro l t h p hp hne
    dsimp only at h ⊢
    split at h
    · cases h
      rw [if_neg]
      rintro rfl
      have := hp.length_le
      simp at this
    · cases h
  · intro p hp hne
    dsimp only
    rw [if_neg]
    rintro rfl
    have := hp.length_le
    simp at this

/-! ### `save` -/

def noLinks : FS := ⟨fun _ => none, fun _ => true⟩

/-- A relative path that at no point goes above where it starts; `k`: the depth reached so far. -/
def staysBelow : Nat → Path → Bool
  | _, [] => true
  | _, .root :: _ => false
  | k, .cur :: p => staysBelow k p
  | k, .name _ :: p => staysBelow (k + 1) p
  | 0, .up :: _ => false
  | k + 1, .up :: p => staysBelow k p

theorem resolve_below : ∀ (p : Path) (r d : List String), staysBelow d.length p = true →
    ∃ d', resolve noLinks (r ++ d) p = r ++ d'
  | [], r, d, _ => ⟨d, rfl⟩
  | .root :: p, r, d, h => by simp [staysBelow] at h
  | .cur :: p, r, d, h => resolve_below p r d (by simpa [staysBelow] using h)
  | .name s :: p, r, d, h => by
    have := resolve_below p r (d ++ [s]) (by simpa [staysBelow] using h)
    simpa [resolve, stepDir, noLinks] using this
  | .up :: p, r, d, h => by
    rcases List.eq_nil_or_concat d with rfl | ⟨d', s, rfl⟩
    · simp [staysBelow] at h
    · simp only [List.concat_eq_append, List.length_append, List.length_cons, List.length_nil, staysBelow] at h
      have := resolve_below p r d' h
      simp only [resolve, List.foldl_cons, stepDir, List.concat_eq_append] at this ⊢
      rw [← List.append_assoc, List.dropLast_concat]
      exact this

theorem staysBelow_append : ∀ (p q : Path) (k : Nat), (∀ c ∈ p, c ≠ .up ∧ c ≠ .root) → (∀ c ∈ q, c ≠ .up ∧ c ≠ .root) →
    staysBelow k (p ++ q) = true
  | [], [], _, _, _ => rfl
  | [], c :: q, k, _, hq => by
    have hc := hq c (by simp)
    have := fun k => staysBelow_append [] q k (by simp) fun x hx => hq x (by simp [hx])
    simp only [List.nil_append] at this ⊢
    cases c with
    | root => exact absurd rfl hc.2
    | up => exact absurd rfl hc.1
    | cur => exact this k
    | name s => exact this (k + 1)
  | c :: p, q, k, hp, hq => by
    have hc := hp c (by simp)
    have := fun k => staysBelow_append p q k (fun x hx => hp x (by simp [hx])) hq
    simp only [List.cons_append]
    cases c with
    | root => exact absurd rfl hc.2
    | up => exact absurd rfl hc.1
    | cur => exact this k
    | name s => exact this (k + 1)

/-- C42, for a file system without links and a path that at no point climbs above the root: `save` writes inside the
root. Missing: paths that climb above the root and come back down (`save_escapes`), links (`save_follows_links`), absolute
paths in a build without overflow checks (`save_wraps`). -/
theorem save_inside_partial (checked : Bool) (cwd : List String) (root wd arg p : Path) (hw : isAbs wd = false)
    (ha : isAbs arg = false) (hb : staysBelow 0 (wd ++ arg) = true) (h : save checked root wd arg = some (.ok p)) :
    ∃ rel, resolve noLinks cwd p = resolve noLinks cwd root ++ rel := by
  have hp : p = join (join root wd) arg := by
    simp only [save] at h
    cases hd : depth checked (join (join root wd) arg) 0 with
    | none => rw [hd] at h; cases h
    | some x =>
      rw [hd] at h
      simp only [Option.map_some, Option.some.injEq] at h
      split at h
      · cases h
      · cases h; rfl
  rw [hp, resolve_join _ _ _ _ ha, resolve_join _ _ _ _ hw, ← resolve_append]
  have := resolve_below (wd ++ arg) (resolve noLinks cwd root) [] hb
  simpa using this

/-- C42 for relative paths without `..`. -/
theorem save_no_dotdot_partial (checked : Bool) (cwd : List String) (root wd arg p : Path)
    (hw : ∀ c ∈ wd, c ≠ .up ∧ c ≠ .root) (ha : ∀ c ∈ arg, c ≠ .up ∧ c ≠ .root) (h : save checked root wd arg = some (.ok p)) :
    ∃ rel, resolve noLinks cwd p = resolve noLinks cwd root ++ rel := by
  have habs : ∀ q : Path, (∀ c ∈ q, c ≠ .up ∧ c ≠ .root) → isAbs q = false := by
    intro q hq
    cases q with
    | nil => rfl
    | cons c q => cases c <;> first | rfl | exact absurd rfl (hq _ (by simp)).2
  exact save_inside_partial checked cwd root wd arg p (habs wd hw) (habs arg ha) (staysBelow_append wd arg 0 hw ha) h

def ups (p : Path) : Nat := p.countP (· == .up)
def downs (p : Path) : Nat := p.countP fun c => match c with | .name _ => true | _ => false

theorem depth_rel (checked : Bool) : ∀ (p : Path) (x : Int), (∀ c ∈ p, c ≠ .root) → -2147483648 + p.length ≤ x →
    x + p.length ≤ 2147483647 → depth checked p x = some (x + downs p - ups p)
  | [], x, _, _, _ => by simp [depth, downs, ups]
  | c :: p, x, hr, h1, h2 => by
    simp only [List.length_cons] at h1 h2
    have hc := hr c (by simp)
    have ih := fun y => depth_rel checked p y fun c hc => hr c (by simp [hc])
    have hadd : ∀ v : Int, -1 ≤ v → v ≤ 1 → addI32 checked x v = some (x + v) := by
      intro v hv1 hv2
      simp only [addI32]
      rw [if_pos (by omega)]
    cases c with
    | root => exact absurd rfl hc
    | cur =>
      simp only [depth, compVal, hadd 0 (by omega) (by omega), Option.bind_some]
      rw [ih _ (by omega) (by omega)]
      simp [downs, ups]
    | up =>
      simp only [depth, compVal, hadd (-1) (by omega) (by omega), Option.bind_some]
      rw [ih _ (by omega) (by omega)]
      simp [downs, ups]
      omega
    | name s =>
      simp only [depth, compVal, hadd 1 (by omega) (by omega), Option.bind_some]
      rw [ih _ (by omega) (by omega)]
      simp [downs, ups]
      omega

/-- C42. What `save` decides on a relative path: there are more names than `..` in it, whatever their order. -/
theorem save_decides (checked : Bool) (root wd arg : Path) (hr : ∀ c ∈ join (join root wd) arg, c ≠ .root)
    (hl : (join (join root wd) arg).length < 2147483648) :
    save checked root wd arg = some (if downs (join (join root wd) arg) ≤ ups (join (join root wd) arg) then .error .aboveRoot
      else .ok (join (join root wd) arg)) := by
  simp only [save]
  rw [depth_rel checked _ 0 hr (by omega) (by omega)]
  simp only [Option.map_some]
  by_cases h : downs (join (join root wd) arg) ≤ ups (join (join root wd) arg)
  · rw [if_pos h, if_pos (by omega)]
  · rw [if_neg h, if_neg (by omega)]

theorem addI32_in (checked : Bool) (x y : Int) (h1 : -2147483648 ≤ x + y) (h2 : x + y ≤ 2147483647) :
    addI32 checked x y = some (x + y) := by
  simp only [addI32]
  rw [if_pos ⟨h1, h2⟩]

theorem depth_abs (checked : Bool) (p : Path) (hp : ∀ c ∈ p, c ≠ .root ∧ c ≠ .up) (hl : p.length < 2147483648) :
    ∃ x, depth checked (.root :: p) 0 = some x ∧ x ≤ 0 := by
  have key : ∀ (p : Path) (x : Int), (∀ c ∈ p, c ≠ .root ∧ c ≠ .up) → -2147483648 ≤ x → x + p.length ≤ 0 →
      ∃ y, depth checked p x = some y ∧ y ≤ 0 := by
    intro p
    induction p with
    | nil => intro x _ _ h; exact ⟨x, rfl, by simpa using h⟩
    | cons c p ih =>
      intro x hp h1 h2
      simp only [List.length_cons] at h2
      have hc := hp c (by simp)
      cases c with
      | root => exact absurd rfl hc.1
      | up => exact absurd rfl hc.2
      | cur =>
        simp only [depth, compVal]
        rw [addI32_in _ _ _ (by omega) (by omega)]
        exact ih _ (fun c hc => hp c (by simp [hc])) (by omega) (by omega)
      | name s =>
        simp only [depth, compVal]
        rw [addI32_in _ _ _ (by omega) (by omega)]
        exact ih _ (fun c hc => hp c (by simp [hc])) (by omega) (by omega)
  simp only [depth, compVal]
  rw [addI32_in _ _ _ (by omega) (by omega)]
  exact key p _ hp (by omega) (by omega)

/-- C42. Absolute paths without `..` are refused. -/
theorem save_absolute_refused (checked : Bool) (root wd : Path) (p : Path) (hp : ∀ c ∈ p, c ≠ .root ∧ c ≠ .up)
    (hl : p.length < 2147483648) : save checked root wd (.root :: p) = some (.error .aboveRoot) := by
  obtain ⟨x, h1, h2⟩ := depth_abs checked p hp hl
  simp only [save, join, isAbs, if_true, h1, Option.map_some, if_pos h2]

/-- C42 is false: `save ../x/y` is accepted and writes outside the root. -/
theorem save_escapes : save true [.cur] [.cur] [.up, .name "x", .name "y"] = some (.ok [.cur, .up, .name "x", .name "y"]) ∧
    resolve noLinks ["home", "u"] [.cur, .up, .name "x", .name "y"] = ["home", "x", "y"] ∧
    resolve noLinks ["home", "u"] [.cur] = ["home", "u"] := by
  refine ⟨by decide +kernel, by rfl, by rfl⟩

/-- C42 is false of a root with names in it: `save ../z` leaves the root `a/b`. -/
theorem save_escapes_named_root : save true [.name "a", .name "b"] [] [.up, .name "z"] =
      some (.ok [.name "a", .name "b", .up, .name "z"]) ∧
    resolve noLinks ["h"] [.name "a", .name "b", .up, .name "z"] = ["h", "a", "z"] := by
  refine ⟨by decide +kernel, by rfl⟩

/-- C42 is false of a build without overflow checks: `save /../../x` writes to `/x`. With checks it panics. -/
theorem save_wraps : save false [.cur] [.cur] [.root, .up, .up, .name "x"] = some (.ok [.root, .up, .up, .name "x"]) ∧
    resolve noLinks ["home", "u"] [.root, .up, .up, .name "x"] = ["x"] ∧
    save true [.cur] [.cur] [.root, .up, .up, .name "x"] = none := by
  refine ⟨by decide +kernel, by rfl, by decide +kernel⟩

/-- C42 is false when a directory in the root is a link out of it. -/
theorem save_follows_links : save true [.cur] [.cur] [.name "out", .name "x"] = some (.ok [.cur, .name "out", .name "x"]) ∧
    resolve ⟨fun l => if l = ["r", "out"] then some ["etc"] else none, fun _ => true⟩ ["r"] [.cur, .name "out", .name "x"] =
      ["etc", "x"] := by
  refine ⟨by decide +kernel, by rfl⟩

/-- With an absolute root nothing can be saved. -/
theorem save_absolute_root (wd arg : List String) (root : List String) (h : (root ++ wd ++ arg).length < 2147483648) :
    save true (.root :: names root) (names wd) (names arg) = some (.error .aboveRoot) := by
  have hj : ∀ (p : Path) (l : List String), p ≠ [] → join p (names l) = p ++ names l := by
    intro p l hp
    have : isAbs (names l) = false := by cases l <;> rfl
    simp only [join, this, Bool.false_eq_true, if_false, if_neg hp]
    congr 1
    rw [List.filter_eq_self]
    intro c hc
    simp only [names, List.mem_map] at hc
    obtain ⟨s, -, rfl⟩ := hc
    simp
  obtain ⟨x, h1, h2⟩ := depth_abs true (names (root ++ wd ++ arg)) (by
    intro c hc
    simp only [names, List.mem_map] at hc
    obtain ⟨s, -, rfl⟩ := hc
    simp) (by simpa [names] using h)
  simp only [save]
  rw [hj (.root :: names root) wd (by simp), hj _ arg (by simp)]
  have : (Comp.root :: names root) ++ names wd ++ names arg = .root :: names (root ++ wd ++ arg) := by simp [names]
  rw [this, h1]
  simp [h2]

example : save true [.cur] [.name "d"] [.name "x", .name "f.csv"] = some (.ok [.cur, .name "d", .name "x", .name "f.csv"]) ∧
    save true [.cur] [.cur] [.up, .name "f.csv"] = some (.error .aboveRoot) ∧
    staysBelow 0 [.name "d", .up, .name "x"] = true := by
  refine ⟨by decide +kernel, by decide +kernel, by rfl⟩

end Verif.Io
