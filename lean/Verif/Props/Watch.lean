import Verif.Model.Watch
/-! C98: `open` gives what the file holds. -/
namespace Verif.Watch
open Verif.Io
variable {C V : Type}

/-- Specification. The files an event is about. -/
def About : Event → Abs → Prop
  | .write p, q => q = p
  | .create p, q => q = p
  | .remove p, q => q = p
  | .rename a b, q => q = a ∨ q = b
  | .other, _ => False

theorem mem_paths (evs : List Event) (q : Abs) : q ∈ evs.flatMap Event.paths ↔ ∃ e ∈ evs, About e q := by
  rw [List.mem_flatMap]
  refine ⟨fun ⟨e, he, hq⟩ => ⟨e, he, ?_⟩, fun ⟨e, he, hq⟩ => ⟨e, he, ?_⟩⟩ <;> cases e <;> simp_all [Event.paths, About]

/-- Specification. A history in which `open` always works below the root `r`, and every change below it is reported: of
each file that changes there is an event (a file, not a directory it is in), and there are events of nothing else. -/
def Reported (ways : Ways C V) (r : Abs) : World C V → List (Op C) → Prop
  | _, [] => True
  | w, o :: os => (match o with
      | .openFile r' _ _ => r' = r
      | .change d evs => w.watching = true ∧ (∀ p, d (r ++ p) ≠ w.disk (r ++ p) → ∃ e ∈ evs, About e (r ++ p)) ∧
          ∀ q, (∃ e ∈ evs, About e q) → ∃ p, q = r ++ p
      | _ => True) ∧ Reported ways r (step ways w o) os

/-- The paths that were opened. -/
def opened : List (Op C) → List (List String)
  | [] => []
  | .openFile _ p _ :: os => p :: opened os
  | _ :: os => opened os

theorem strip_append (r : Abs) : ∀ p, strip r (r ++ p) = some p := by
  induction r with
  | nil => intro p; cases p <;> rfl
  | cons a r ih => intro p; simp [strip, ih]

theorem strip_some {r q p : Abs} (h : strip r q = some p) : q = r ++ p := by
  induction r generalizing q with
  | nil => simp [strip] at h; simp [h]
  | cons a r ih =>
    cases q with
    | nil => simp [strip] at h
    | cons b q =>
      simp only [strip] at h
      split at h
      · rename_i e; subst e; simp [ih h]
      · cases h

/-- Every entry is of a path that was opened, and is what the file holds, if no event for it is waiting. -/
structure Inv (ways : Ways C V) (r : Abs) (ps : List (List String)) (w : World C V) : Prop where
  root : ∀ r', w.root = some r' → r' = r
  init : w.cache ≠ [] ∨ w.watching = true → w.root = some r
  alive : w.alive = true
  queue : ∀ q ∈ w.queue.flatMap Event.paths, ∃ p, q = r ++ p
  entry : ∀ e ∈ w.cache, e.valTy = e.ty ∧ ∃ p ∈ ps, e.key = ways.lower (ways.text p) ∧
    (r ++ p ∈ w.queue.flatMap Event.paths ∨ ∃ c, w.disk (r ++ p) = some c ∧ e.val = ways.parse e.ty c)

theorem Inv.mono {ways : Ways C V} {r : Abs} {ps ps' : List (List String)} {w : World C V} (h : Inv ways r ps w)
    (hs : ∀ p ∈ ps, p ∈ ps') : Inv ways r ps' w :=
  ⟨h.root, h.init, h.alive, h.queue, fun e he => by
    obtain ⟨h1, p, hp, h2⟩ := h.entry e he
    exact ⟨h1, p, hs p hp, h2⟩⟩

theorem inv_openFile {ways : Ways C V} {r : Abs} {ps : List (List String)} {w : World C V} (h : Inv ways r ps w)
    (p : List String) (hp : p ∈ ps) (ty : Ty) : Inv ways r ps (openFile ways w r p ty).1 := by
  have hroot : some (w.root.getD r) = some r := by
    cases hr : w.root with
    | none => rfl
    | some r' => rw [h.root r' hr]; rfl
  have base : ∀ cache : Cache V, (∀ e ∈ cache, e.valTy = e.ty ∧ ∃ p ∈ ps, e.key = ways.lower (ways.text p) ∧
      (r ++ p ∈ w.queue.flatMap Event.paths ∨ ∃ c, w.disk (r ++ p) = some c ∧ e.val = ways.parse e.ty c)) →
      Inv ways r ps { ensureInit w r with cache := cache } := by
    intro cache hc
    exact ⟨fun r' hr' => by simp only [ensureInit, hroot] at hr'; exact (Option.some.inj hr').symm, fun _ => hroot, h.alive, h.queue, hc⟩
  -- a lookup only changes times
  have hg : ∀ e ∈ (cget ways.lower w.cache w.now (ways.text p) ty).1, e.valTy = e.ty ∧ ∃ p ∈ ps, e.key = ways.lower (ways.text p) ∧
      (r ++ p ∈ w.queue.flatMap Event.paths ∨ ∃ c, w.disk (r ++ p) = some c ∧ e.val = ways.parse e.ty c) := by
    intro e he
    unfold cget at he
    split at he
    · dsimp only at he
      rw [List.mem_map] at he
      obtain ⟨e', he', rfl⟩ := he
      split <;> exact h.entry e' he'
    · exact h.entry e he
  unfold openFile
  dsimp only
  have hd : (ensureInit w r).disk = w.disk := rfl
  have hcache : (ensureInit w r).cache = w.cache := rfl
  have hnow : (ensureInit w r).now = w.now := rfl
  rw [hd, hcache, hnow]
  split
  · exact base w.cache h.entry
  · rename_i c hdisk
    split
    · exact base _ hg
    · refine base _ ?_
      intro e he
      rcases List.mem_cons.1 he with rfl | he
      · exact ⟨rfl, p, hp, rfl, .inr ⟨c, hdisk, rfl⟩⟩
      · exact hg e (List.mem_filter.1 he).1

theorem inv_step {ways : Ways C V} {r : Abs} {ps : List (List String)} {w : World C V} (h : Inv ways r ps w) (o : Op C)
    (ho : ∀ p ∈ opened [o], p ∈ ps) (hr : Reported ways r w [o]) : Inv ways r ps (step ways w o) := by
  cases o with
  | openFile r' p ty =>
    have : r' = r := hr.1
    subst this
    exact inv_openFile h p (ho p (by simp [opened])) ty
  | watch =>
    simp only [step]
    split
    · rename_i hs
      obtain ⟨r', hr'⟩ := Option.isSome_iff_exists.1 hs
      exact ⟨h.root, fun _ => by rw [hr', h.root r' hr'], h.alive, h.queue, h.entry⟩
    · exact h
  | turn =>
    simp only [step]
    unfold turn
    split
    · exact h
    · rename_i r' hr'
      have := h.root r' hr'
      subst this
      split
      · rename_i haw
        dsimp only
        have hall : ((w.queue.flatMap Event.paths).all fun p => (strip r' p).isSome) = true := by
          rw [List.all_eq_true]
          intro q hq
          obtain ⟨p, rfl⟩ := h.queue q hq
          simp [strip_append]
        rw [if_pos hall]
        refine ⟨h.root, fun _ => hr', h.alive, (by simp), ?_⟩
        intro e he
        have hk : e ∈ w.cache ∧ ∀ q ∈ ((w.queue.flatMap Event.paths).filterMap (strip r')).map ways.text, e.key ≠ ways.lower q := by
          unfold cremove at he
          split at he
          · rename_i hnil; rw [hnil]; exact ⟨he, fun _ hq => (by cases hq)⟩
          · rw [List.mem_filter] at he
            refine ⟨he.1, fun q hq hke => ?_⟩
            have := he.2
            simp only [List.contains_eq_mem, Bool.not_eq_true', decide_eq_false_iff_not] at this
            exact this (List.mem_map.2 ⟨q, hq, hke.symm⟩)
        obtain ⟨h1, p, hp, hkey, hv⟩ := h.entry e hk.1
        refine ⟨h1, p, hp, hkey, .inr ?_⟩
        rcases hv with hq | hv
        · exact absurd hkey (hk.2 _ (List.mem_map.2 ⟨p, List.mem_filterMap.2 ⟨_, hq, strip_append r' p⟩, rfl⟩))
        · exact hv
      · exact h
  | change d evs =>
    obtain ⟨⟨hwatch, hch, hev⟩, -⟩ := hr
    simp only [← mem_paths] at hch hev
    simp only [step, hwatch, if_true]
    refine ⟨h.root, fun _ => h.init (.inr hwatch), h.alive, ?_, ?_⟩
    · intro q hq
      rw [List.flatMap_append] at hq
      rcases List.mem_append.1 hq with hq | hq
      · exact h.queue q hq
      · exact hev q hq
    · intro e he
      obtain ⟨h1, p, hp, hkey, hv⟩ := h.entry e he
      refine ⟨h1, p, hp, hkey, ?_⟩
      rw [List.flatMap_append]
      rcases hv with hq | ⟨c, hc, hv⟩
      · exact .inl (List.mem_append.2 (.inl hq))
      · by_cases hsame : r ++ p ∈ evs.flatMap Event.paths
        · exact .inl (List.mem_append.2 (.inr hsame))
        · have hd : d (r ++ p) = w.disk (r ++ p) := Classical.byContradiction fun hne => hsame (hch p hne)
          exact .inr ⟨c, by rw [← hc]; exact hd, hv⟩
  | expire age =>
    refine ⟨h.root, fun hh => h.init ?_, h.alive, h.queue, fun e he => h.entry e (List.mem_filter.1 he).1⟩
    rcases hh with hh | hh
    · left
      intro hnil
      exact hh (by simp [step, cexpire, hnil])
    · exact .inr hh
  | tick => exact ⟨h.root, h.init, h.alive, h.queue, h.entry⟩

theorem inv_run {ways : Ways C V} {r : Abs} {ps : List (List String)} (ops : List (Op C)) : ∀ {w : World C V}, Inv ways r ps w →
    (∀ p ∈ opened ops, p ∈ ps) → Reported ways r w ops → Inv ways r ps (run ways w ops) := by
  induction ops with
  | nil => intro w h _ _; exact h
  | cons o ops ih =>
    intro w h ho hr
    refine ih (w := step ways w o) (inv_step h o ?_ ⟨hr.1, trivial⟩) ?_ hr.2
    · intro p hp
      refine ho p ?_
      cases o <;> simp [opened] at hp ⊢
      exact .inl hp
    · intro p hp
      refine ho p ?_
      cases o <;> simp [opened] <;> first | exact hp | exact .inr hp

/-- C98. After any history in which `open` works below one root and changes are reported, `open` gives what the file holds
now, if no report of a change to it is waiting. Partial: the names of different files that were opened must differ in
lower case, as in C41. -/
theorem open_gives_what_the_file_holds_partial (ways : Ways C V) (r : Abs) (disk : Abs → Option C) (ops : List (Op C))
    (hrep : Reported ways r (start disk) ops) (p : List String) (ty : Ty)
    (hcase : ∀ q ∈ opened ops, ways.lower (ways.text q) = ways.lower (ways.text p) → q = p)
    (hseen : ¬ ∃ e ∈ (run ways (start disk) ops).queue, About e (r ++ p)) :
    (openFile ways (run ways (start disk) ops) r p ty).2 =
      ((run ways (start disk) ops).disk (r ++ p)).map (ways.parse ty) := by
  have h0 : Inv ways r (opened ops) (start disk : World C V) :=
    ⟨fun _ h => (by cases h), fun h => by rcases h with h | h <;> simp [start] at h, rfl, (by simp [start]), (by simp [start])⟩
  have h := inv_run ops h0 (fun _ hp => hp) hrep
  generalize run ways (start disk) ops = w at h hseen
  unfold openFile
  dsimp only
  have hd : (ensureInit w r).disk = w.disk := rfl
  rw [hd]
  cases hdisk : w.disk (r ++ p) with
  | none => rfl
  | some c =>
    dsimp only
    have hcache : (ensureInit w r).cache = w.cache := rfl
    rw [hcache]
    cases hg : (cget ways.lower w.cache (ensureInit w r).now (ways.text p) ty).2 with
    | none => rfl
    | some v =>
      dsimp only
      unfold cget at hg
      split at hg
      · rename_i e hf
        have he := List.mem_of_find?_eq_some hf
        have hk := List.find?_some hf
        simp only [Bool.and_eq_true, beq_iff_eq] at hk
        obtain ⟨h1, q, hq, hkey, hv⟩ := h.entry e he
        have hqp : q = p := hcase q hq (by rw [← hkey, hk.1])
        subst hqp
        dsimp only at hg
        rw [if_pos (by rw [h1, hk.2])] at hg
        cases hg
        rcases hv with hv | ⟨c', hc', hv⟩
        · exact absurd ((mem_paths _ _).1 hv) hseen
        · rw [hdisk] at hc'
          cases hc'
          rw [hv, hk.2]
          rfl
      · cases hg

/-! ### Where it fails -/

theorem reported_append (ways : Ways C V) (r : Abs) (ops : List (Op C)) (o : Op C) : ∀ w : World C V, Reported ways r w ops →
    Reported ways r (run ways w ops) [o] → Reported ways r w (ops ++ [o]) := by
  induction ops with
  | nil => intro w _ h; exact h
  | cons a ops ih => intro w h h'; exact ⟨h.1, ih _ h.2 h'⟩

theorem opened_append (ops : List (Op C)) : opened (ops ++ [.turn]) = opened ops := by
  induction ops with
  | nil => rfl
  | cons a ops ih => cases a <;> simp [opened, ih]

/-- C98. After one turn of the watcher all changes have been seen: `open` gives what each file holds. -/
theorem open_after_a_turn_partial (ways : Ways C V) (r : Abs) (disk : Abs → Option C) (ops : List (Op C))
    (hrep : Reported ways r (start disk) ops) (hw : (run ways (start disk) ops).watching = true) (p : List String) (ty : Ty)
    (hcase : ∀ q ∈ opened ops, ways.lower (ways.text q) = ways.lower (ways.text p) → q = p) :
    (openFile ways (run ways (start disk) (ops ++ [.turn])) r p ty).2 =
      ((run ways (start disk) ops).disk (r ++ p)).map (ways.parse ty) := by
  have h0 : Inv ways r (opened ops) (start disk : World C V) :=
    ⟨fun _ h => (by cases h), fun h => by rcases h with h | h <;> simp [start] at h, rfl, (by simp [start]), (by simp [start])⟩
  have h := inv_run ops h0 (fun _ hp => hp) hrep
  have hrun : run ways (start disk) (ops ++ [.turn]) = turn ways (run ways (start disk) ops) := by
    simp [run, step]
  have hq : (turn ways (run ways (start disk) ops)).queue = [] ∧
      (turn ways (run ways (start disk) ops)).disk = (run ways (start disk) ops).disk := by
    unfold turn
    rw [h.init (.inr hw)]
    dsimp only
    rw [h.alive, hw]
    simp only [Bool.and_true, if_true]
    split <;> exact ⟨rfl, rfl⟩
  have := open_gives_what_the_file_holds_partial ways r disk (ops ++ [.turn]) (reported_append ways r ops .turn _ hrep ⟨trivial, trivial⟩)
    p ty (by rw [opened_append]; exact hcase) (by rw [hrun, hq.1]; simp)
  rw [this, hrun, hq.2]

/-- Files are texts, read as they are. -/
def plain : Ways String String := ⟨fun p => "/".intercalate p, id, fun _ c => c⟩

/-- C98. Two roots in one process: the file of the first is shown for the second. -/
theorem roots_are_confused : ∃ (disk : Abs → Option String) (w : World String String),
    w = run plain (start disk) [.openFile ["a"] ["f"] .str] ∧
    w.disk ["b", "f"] = some "of b" ∧ (openFile plain w ["b"] ["f"] .str).2 = some "of a" :=
  ⟨fun p => if p = ["a", "f"] then some "of a" else if p = ["b", "f"] then some "of b" else none, _, rfl, by decide +kernel, by decide +kernel⟩

/-- C98. Only the first root is watched: a change below the second is not seen, however long one waits. -/
theorem second_root_is_not_watched : ∃ (disk disk' : Abs → Option String) (evs : List Event),
    (∀ p, (∃ e ∈ evs, About e p) → strip ["a"] p ≠ none) ∧ disk' ["b", "f"] = some "new" ∧
    ∀ n, (openFile plain (run plain (start disk) ([.openFile ["a"] ["g"] .str, .watch, .openFile ["b"] ["f"] .str, .change disk' evs] ++
      List.replicate n .turn)) ["b"] ["f"] .str).2 = some "old" := by
  refine ⟨fun p => if p = ["b", "f"] then some "old" else none, fun p => if p = ["b", "f"] then some "new" else none, [],
    by simp, by decide +kernel, fun n => ?_⟩
  rw [run, List.foldl_append]
  generalize hw : List.foldl (step plain) _ [Op.openFile ["a"] ["g"] .str, .watch, .openFile ["b"] ["f"] .str, .change _ _] = w
  have hfix : step plain w .turn = w := by subst hw; rfl
  have hn : List.foldl (step plain) w (List.replicate n .turn) = w := by
    induction n with
    | zero => rfl
    | succ n ih => rw [List.replicate_succ, List.foldl_cons, hfix, ih]
  rw [hn]
  subst hw
  decide +kernel

/-- C98. The watcher starts at the side: a change before it is set up is not seen. -/
theorem change_before_watching : ∃ disk disk' : Abs → Option String, disk' ["a", "f"] = some "new" ∧
    (openFile plain (run plain (start disk) [.openFile ["a"] ["f"] .str, .change disk' [.write ["a", "f"]], .watch, .turn]) ["a"] ["f"] .str).2 = some "old" :=
  ⟨fun p => if p = ["a", "f"] then some "old" else none, fun p => if p = ["a", "f"] then some "new" else none,
    by decide +kernel, by decide +kernel⟩

/-- C98. A directory takes the name of another: the report is about the directories, and the files in them are not read
again. -/
theorem renamed_directories_are_not_seen : ∃ disk disk' : Abs → Option String, disk' ["a", "d", "f"] = some "new" ∧
    (openFile plain (run plain (start disk) [.openFile ["a"] ["d", "f"] .str, .watch,
      .change disk' [.rename ["a", "d"] ["a", "x"], .rename ["a", "e"] ["a", "d"]], .turn]) ["a"] ["d", "f"] .str).2 = some "old" :=
  ⟨fun p => if p = ["a", "d", "f"] then some "old" else if p = ["a", "e", "f"] then some "new" else none,
    fun p => if p = ["a", "x", "f"] then some "old" else if p = ["a", "d", "f"] then some "new" else none,
    by decide +kernel, by decide +kernel⟩

/-- C98. A report of a path outside the root ends the watcher: no change is seen from then on. -/
theorem watcher_dies : ∃ disk disk' : Abs → Option String, disk' ["a", "f"] = some "new" ∧
    (openFile plain (run plain (start disk) [.openFile ["a"] ["f"] .str, .watch, .change disk [.write ["b"]], .turn,
      .change disk' [.write ["a", "f"]], .turn]) ["a"] ["f"] .str).2 = some "old" :=
  ⟨fun p => if p = ["a", "f"] then some "old" else none, fun p => if p = ["a", "f"] then some "new" else none,
    by decide +kernel, by decide +kernel⟩

/-! ### A history -/

/-- A file is opened, changes, and is opened again once the watcher has seen it. -/
def history : List (Op String) := [.openFile ["a"] ["f"] .str, .watch,
  .change (fun p => if p = ["a", "f"] then some "new" else none) [.write ["a", "f"], .other], .turn, .tick]

def old : Abs → Option String := fun p => if p = ["a", "f"] then some "old" else none

example : Reported plain ["a"] (start old) history := by
  refine ⟨rfl, trivial, ⟨rfl, ?_, ?_⟩, trivial, trivial, trivial⟩
  · intro p hne
    by_cases hp : p = ["f"]
    · subst hp; simp [About]
    · exfalso; apply hne
      have hp' : ["a"] ++ p ≠ ["a", "f"] := by intro h; exact hp (by simpa using h)
      have hd : (step plain (step plain (start old) (.openFile ["a"] ["f"] .str)) .watch).disk = old := rfl
      rw [hd]
      unfold old
      dsimp only
      rw [if_neg hp', if_neg hp']
  · intro q hq; simp [About] at hq; exact ⟨["f"], hq⟩
example : (run plain (start old) [.openFile ["a"] ["f"] .str]).cache.map (·.val) = ["old"] := by decide +kernel
example : (openFile plain (run plain (start old) history) ["a"] ["f"] .str).2 = some "new" := by decide +kernel

end Verif.Watch
