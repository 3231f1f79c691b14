import Verif.Model.ParSave
/-! C107: items that save different files do not disturb each other. -/
namespace Verif.ParSave

variable {B : Type}

/-- Some order of the calls of all items: each call is one of an item, and those of each item come in its order. -/
def Interleaves (sched : List (Nat × Op B)) (items : Nat → List (Save B)) : Prop :=
  ∀ i, (sched.filter fun c => c.1 == i).map (·.2) = opsOf (items i)

/-- What a file holds if the item were alone: what was saved last, or what was there. -/
def alone (p : Nat) (old : Option (List B)) (ss : List (Save B)) : Option (List B) :=
  ss.foldl (fun c s => if s.path = p then some s.pieces.flatten else c) old

/-- Only calls about a file change it. -/
theorem foldl_at (zero : B) (p : Nat) : ∀ (ops : List (Op B)) (d d' : Disk B), d p = d' p →
    (ops.foldl (call zero) d) p = ((ops.filter fun o => o.path == p).foldl (call zero) d') p := by
  intro ops
  induction ops with
  | nil => intro d d' h; exact h
  | cons o ops ih =>
    intro d d' h
    by_cases hp : o.path = p
    · have : (o.path == p) = true := by simp [hp]
      rw [List.filter_cons_of_pos (by simpa using hp), List.foldl_cons, List.foldl_cons]
      refine ih _ _ ?_
      cases o <;> simp only [call, h]
    · rw [List.filter_cons_of_neg (by simpa using hp), List.foldl_cons]
      refine ih _ _ ?_
      cases o with
      | create q =>
        have : p ≠ q := fun e => hp e.symm
        simp [call, this, h]
      | write q off x =>
        have : p ≠ q := fun e => hp e.symm
        simp [call, this, h]

theorem writes_path (p : Nat) : ∀ (ds : List (List B)) (off : Nat), ∀ o ∈ writes p off ds, o.path = p := by
  intro ds
  induction ds with
  | nil => intro off o h; simp [writes] at h
  | cons d ds ih =>
    intro off o h
    simp only [writes, List.mem_cons] at h
    rcases h with rfl | h
    · rfl
    · exact ih _ o h

theorem ops_path (s : Save B) : ∀ o ∈ s.ops, o.path = s.path := by
  intro o h
  simp only [Save.ops, List.mem_cons] at h
  rcases h with rfl | h
  · rfl
  · exact writes_path _ _ _ o h

theorem writes_append (zero : B) (p : Nat) : ∀ (ds : List (List B)) (c : List B) (d : Disk B), d p = some c →
    ((writes p c.length ds).foldl (call zero) d) p = some (c ++ ds.flatten) := by
  intro ds
  induction ds with
  | nil => intro c d h; simpa [writes] using h
  | cons x ds ih =>
    intro c d h
    have h1 : call zero d (.write p c.length x) p = some (c ++ x) := by
      simp [call, h, put]
    have := ih (c ++ x) _ h1
    simp only [writes, List.foldl_cons]
    simpa using this

theorem save_alone (zero : B) (p : Nat) (ss : List (Save B)) : ∀ d : Disk B,
    ((opsOf ss).foldl (call zero) d) p = alone p (d p) ss := by
  induction ss with
  | nil => intro d; rfl
  | cons s ss ih =>
    intro d
    have : opsOf (s :: ss) = s.ops ++ opsOf ss := by simp [opsOf]
    rw [this, List.foldl_append, ih]
    simp only [alone, List.foldl_cons]
    congr 1
    split
    · rename_i hp
      subst hp
      simp only [Save.ops, List.foldl_cons]
      have := writes_append zero s.path s.pieces [] (call zero d (.create s.path)) (by simp [call])
      simpa using this
    · rename_i hp
      rw [foldl_at zero p s.ops d d rfl, List.filter_eq_nil_iff.2]
      · rfl
      · intro o ho
        rw [ops_path s o ho]
        simpa using hp

/-- C107. Whatever the order of the calls of items that run at the same time: a file to which at most one item saves holds
at the end what it would hold if this item had run alone, which is what it saved last; and if none saves to it, what it held before.
Partial: not if two items save to the same file (`same_file_is_mixed`). -/
theorem saves_do_not_disturb_partial (zero : B) (items : Nat → List (Save B)) (sched : List (Nat × Op B)) (hs : Interleaves sched items)
    (disk : Disk B) (p i : Nat) (honly : ∀ j, j ≠ i → ∀ s ∈ items j, s.path ≠ p) :
    ((sched.map (·.2)).foldl (call zero) disk) p = alone p (disk p) (items i) := by
  have hf : (sched.map (·.2)).filter (fun o => o.path == p) = (opsOf (items i)).filter (fun o => o.path == p) := by
    rw [← hs i, List.filter_map, List.filter_map, List.filter_filter]
    congr 1
    refine List.filter_congr ?_
    rintro ⟨j, o⟩ hm
    by_cases hj : j = i
    · simp [hj]
    · have ho : o ∈ opsOf (items j) := by
        rw [← hs j]
        exact List.mem_map.2 ⟨(j, o), List.mem_filter.2 ⟨hm, by simp⟩, rfl⟩
      obtain ⟨s, hsm, hos⟩ := List.mem_flatMap.1 ho
      have := honly j hj s hsm
      rw [← ops_path s o hos] at this
      simp [this, hj]
  rw [foldl_at zero p _ disk disk rfl, hf, ← foldl_at zero p _ disk disk rfl, save_alone]

/-- Two items that save to the same file. -/
def two : Nat → List (Save Nat)
  | 0 => [⟨5, [[1, 1], [1]]⟩]
  | 1 => [⟨5, [[2]]⟩]
  | _ => []

def mixed : List (Nat × Op Nat) :=
  [(0, .create 5), (1, .create 5), (0, .write 5 0 [1, 1]), (1, .write 5 0 [2]), (0, .write 5 2 [1])]

/-- **The code violates C107**: if two items save to the same file, it may hold a mixture, which none of them saved. -/
theorem same_file_is_mixed : Interleaves mixed two ∧ ((mixed.map (·.2)).foldl (call 0) (fun _ => none)) 5 = some [2, 1, 1] := by
  refine ⟨?_, by decide⟩
  intro i
  match i with
  | 0 => decide
  | 1 => decide
  | n + 2 => simp [mixed, two, opsOf]

/-- Two items that save to different files, one of them twice. -/
def apart : Nat → List (Save Nat)
  | 0 => [⟨5, [[1, 1], [1]]⟩, ⟨5, [[3]]⟩]
  | 1 => [⟨6, [[2], [4]]⟩]
  | _ => []

-- the hypotheses can be met
example : Interleaves [(0, .create 5), (1, .create 6), (0, .write 5 0 [1, 1]), (1, .write 6 0 [2]), (0, .write 5 2 [1]), (0, .create 5),
      (1, .write 6 1 [4]), (0, .write 5 0 [3])] apart ∧
    (∀ j, j ≠ 0 → ∀ s ∈ apart j, s.path ≠ 5) ∧ alone 5 (some [9]) (apart 0) = some [3] := by
  refine ⟨?_, ?_, by decide⟩
  · intro i
    match i with
    | 0 => decide
    | 1 => decide
    | n + 2 => simp [apart, opsOf]
  · intro j hj
    match j with
    | 0 => exact absurd rfl hj
    | 1 => simp [apart]
    | n + 2 => simp [apart]

end Verif.ParSave
