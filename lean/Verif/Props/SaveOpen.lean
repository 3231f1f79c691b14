import Verif.Model.SaveOpen
import Verif.Props.Watch
/-! C108: what was saved is what `open` gives. -/
namespace Verif.Watch
open Verif.Io

variable {C V : Type}

/-- Entries of the cache are of files that were opened, as the type they were opened as. -/
theorem keys_were_opened (ways : Ways C V) (ops : List (Op C)) : ∀ (w : World C V),
    ∀ e ∈ (run ways w ops).cache, (∃ e' ∈ w.cache, e'.key = e.key ∧ e'.ty = e.ty) ∨
      ∃ r p ty, Op.openFile r p ty ∈ ops ∧ e.key = ways.lower (ways.text p) ∧ e.ty = ty := by
  induction ops with
  | nil => intro w e he; exact Or.inl ⟨e, he, rfl, rfl⟩
  | cons o ops ih =>
    intro w e he
    have he' : e ∈ (run ways (step ways w o) ops).cache := he
    rcases ih _ e he' with ⟨e', h', hk, ht⟩ | ⟨r, p, ty, hm, h⟩
    · have key : (∃ e'' ∈ w.cache, e''.key = e'.key ∧ e''.ty = e'.ty) ∨
          ∃ r p ty, o = Op.openFile r p ty ∧ e'.key = ways.lower (ways.text p) ∧ e'.ty = ty := by
        have hget : ∀ (p : List String) (ty : Ty), ∀ x ∈ (cget ways.lower w.cache w.now (ways.text p) ty).1,
            ∃ e'' ∈ w.cache, e''.key = x.key ∧ e''.ty = x.ty := by
          intro p ty x hx
          unfold cget at hx
          split at hx
          · obtain ⟨y, hy, rfl⟩ := List.mem_map.1 hx
            refine ⟨y, hy, ?_⟩
            split <;> exact ⟨rfl, rfl⟩
          · exact ⟨x, hx, rfl, rfl⟩
        cases o with
        | openFile r p ty =>
          simp only [step, openFile] at h'
          split at h'
          · exact Or.inl ⟨e', h', rfl, rfl⟩
          · split at h'
            · exact Or.inl (hget p ty _ h')
            · simp only [cinsert, List.mem_cons] at h'
              rcases h' with rfl | h'
              · exact Or.inr ⟨r, p, ty, rfl, rfl, rfl⟩
              · exact Or.inl (hget p ty _ (List.mem_filter.1 h').1)
        | watch =>
          simp only [step] at h'
          split at h' <;> exact Or.inl ⟨e', h', rfl, rfl⟩
        | turn =>
          simp only [step, turn] at h'
          split at h'
          · exact Or.inl ⟨e', h', rfl, rfl⟩
          · split at h'
            · split at h'
              · simp only [cremove] at h'
                split at h'
                · exact Or.inl ⟨e', h', rfl, rfl⟩
                · exact Or.inl ⟨e', (List.mem_filter.1 h').1, rfl, rfl⟩
              · exact Or.inl ⟨e', h', rfl, rfl⟩
            · exact Or.inl ⟨e', h', rfl, rfl⟩
        | change d evs => exact Or.inl ⟨e', h', rfl, rfl⟩
        | expire age => exact Or.inl ⟨e', (List.mem_filter.1 h').1, rfl, rfl⟩
        | tick => exact Or.inl ⟨e', h', rfl, rfl⟩
      rcases key with ⟨e'', h'', hk', ht'⟩ | ⟨r, p, ty, rfl, hk', ht'⟩
      · exact Or.inl ⟨e'', h'', hk'.trans hk, ht'.trans ht⟩
      · exact Or.inr ⟨r, p, ty, by simp, hk.symm.trans hk', ht.symm.trans ht'⟩
    · exact Or.inr ⟨r, p, ty, List.mem_cons_of_mem _ hm, h⟩

/-- C108. After any history: a file that is saved and was not opened before (as this type, nor one with the same name in lower
case), is opened right afterwards as what was saved, whatever events are reported.
Partial: a file that was opened before (`saved_is_not_opened`). -/
theorem saved_is_opened_partial (ways : Ways C V) (disk : Abs → Option C) (ops : List (Op C)) (r : Abs) (p : List String) (ty : Ty) (c : C)
    (evs : List Event)
    (hnew : ∀ r' q, Op.openFile r' q ty ∈ ops → ways.lower (ways.text q) ≠ ways.lower (ways.text p)) :
    (openFile ways (step ways (run ways (start disk) ops) (saveTo (run ways (start disk) ops) r p c evs)) r p ty).2 =
      some (ways.parse ty c) := by
  have hno := keys_were_opened ways ops (start disk : World C V)
  generalize run ways (start disk) ops = w at hno
  have hcache : ∀ e ∈ w.cache, ¬ (e.key = ways.lower (ways.text p) ∧ e.ty = ty) := by
    rintro e he ⟨hk, ht⟩
    rcases hno e he with ⟨_, h, _⟩ | ⟨r', q, ty', hm, hk', ht'⟩
    · simp [start] at h
    · rw [← ht', ht] at hm
      exact hnew r' q hm (hk'.symm.trans hk)
  have hfind : w.cache.find? (fun e => e.key == ways.lower (ways.text p) && e.ty == ty) = none := by
    rw [List.find?_eq_none]
    intro e he
    simpa using hcache e he
  simp only [step, saveTo, openFile, ensureInit, saved, if_true]
  simp only [cget, hfind]

/-- C108. A file that was opened before as well, once the watcher has made a turn after saving: if the history is as for C98
and the system reports the change. -/
theorem saved_is_opened_after_a_turn_partial (ways : Ways C V) (disk : Abs → Option C) (ops : List (Op C)) (r : Abs) (p : List String)
    (ty : Ty) (c : C) (evs : List Event) (hrep : Reported ways r (start disk) ops) (hw : (run ways (start disk) ops).watching = true)
    (hev : ∃ e ∈ evs, About e (r ++ p)) (hbelow : ∀ q, (∃ e ∈ evs, About e q) → ∃ p', q = r ++ p')
    (hcase : ∀ q ∈ opened ops, ways.lower (ways.text q) = ways.lower (ways.text p) → q = p) :
    (openFile ways (run ways (start disk) (ops ++ [saveTo (run ways (start disk) ops) r p c evs, .turn])) r p ty).2 =
      some (ways.parse ty c) := by
  have hrun : run ways (start disk) (ops ++ [saveTo (run ways (start disk) ops) r p c evs]) =
      step ways (run ways (start disk) ops) (saveTo (run ways (start disk) ops) r p c evs) := by simp [run]
  have hop : opened (ops ++ [saveTo (run ways (start disk) ops) r p c evs]) = opened ops := by
    generalize run ways (start disk) ops = w
    clear hrep hw hcase hrun
    induction ops with
    | nil => rfl
    | cons a ops ih => cases a <;> simp [opened, ih]
  have h := open_after_a_turn_partial ways r disk (ops ++ [saveTo (run ways (start disk) ops) r p c evs])
    (reported_append ways r ops _ _ hrep ⟨⟨hw, by
      intro q hq
      have : r ++ q = r ++ p := by
        apply Classical.byContradiction
        intro hne
        exact hq (by simp [saved, hne])
      rw [this]
      exact hev, hbelow⟩, trivial⟩)
    (by rw [hrun]; exact hw) p ty (by rw [hop]; exact hcase)
  rw [List.append_assoc] at h
  rw [show [saveTo (run ways (start disk) ops) r p c evs, .turn] = [saveTo (run ways (start disk) ops) r p c evs] ++ [.turn] from rfl, h, hrun]
  simp [step, saveTo, saved]

/-- **The code violates C108**: a file is opened, then saved, then opened: `open` gives what the file held before, as
saving leaves the cache as it is and the watcher has not made a turn. -/
theorem saved_is_not_opened : ∃ (disk : Abs → Option String) (w : World String String),
    w = run plain (start disk) [.openFile ["a"] ["f"] .str, .watch] ∧
    (step plain w (saveTo w ["a"] ["f"] "new" [.write ["a", "f"]])).disk ["a", "f"] = some "new" ∧
    (openFile plain (step plain w (saveTo w ["a"] ["f"] "new" [.write ["a", "f"]])) ["a"] ["f"] .str).2 = some "old" :=
  ⟨fun p => if p = ["a", "f"] then some "old" else none, _, rfl, by decide +kernel, by decide +kernel⟩

-- the hypotheses can be met
example : (∀ r' q, Op.openFile r' q Ty.str ∈ ([.openFile ["a"] ["g"] .str, .watch] : List (Op String)) → plain.lower (plain.text q) ≠ plain.lower (plain.text ["f"])) := by
  intro r' q h
  simp at h
  rw [h.2]
  decide

example : (run plain (start old) [.openFile ["a"] ["f"] .str, .watch]).watching = true ∧
    Reported plain ["a"] (start old) [.openFile ["a"] ["f"] .str, .watch] ∧
    (openFile plain (run plain (start old) ([.openFile ["a"] ["f"] .str, .watch] ++
      [saveTo (run plain (start old) [.openFile ["a"] ["f"] .str, .watch]) ["a"] ["f"] "new" [.write ["a", "f"]], .turn])) ["a"] ["f"] .str).2 =
      some "new" := ⟨rfl, ⟨rfl, trivial, trivial⟩, by decide +kernel⟩

end Verif.Watch
