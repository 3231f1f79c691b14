import Verif.Lemmas.CompTrace
/-! Variables keep their places and types while a program is compiled. -/
namespace Verif.Comp
open Verif
variable {T : Type} [DecidableEq T]

/-- More variables, after those that there were. -/
def Longer (s s' : S T) : Prop := ∃ l, s'.slots = s.slots ++ l

theorem Longer.refl (s : S T) : Longer s s := ⟨[], by simp⟩

theorem Longer.trans {a b c : S T} (h : Longer a b) (h' : Longer b c) : Longer a c := by
  obtain ⟨l, h⟩ := h
  obtain ⟨l', h'⟩ := h'
  exact ⟨l ++ l', by rw [h', h, List.append_assoc]⟩

theorem Longer.same {a b : S T} (h : b.slots = a.slots) : Longer a b := ⟨[], by rw [h, List.append_nil]⟩

theorem apply1_longer {A : Ast T} {s s' : S T} {c : Chg T} {b : Bool} (h : apply1 A s c = .ok (s', b)) : Longer s s' := by
  cases c with
  | ty c =>
    simp only [apply1] at h
    split at h
    · cases h; exact .same rfl
    · cases h
  | var name t n => cases h; exact ⟨[t], rfl⟩
  | lzy => cases h; exact .same rfl
  | sealOp => cases h; exact .same rfl
  | breakEdge => cases h; exact .same rfl

theorem applyAll_longer {A : Ast T} : ∀ {cs : List (Chg T)} {s s' : S T} {b b' : Bool}, applyAll A s b cs = .ok (s', b') → Longer s s'
  | [], s, s', _, _, e => by cases e; exact .refl s
  | c :: cs, s, s', _, _, e => by
    simp only [applyAll] at e
    split at e
    · rename_i h
      exact (apply1_longer h).trans (applyAll_longer e)
    · cases e

theorem defsLoop_slots {A : Ast T} : ∀ (ds : List Nat) {s s' : S T} {cs cs' : List (Chg T)} {b b' : Bool},
    defsLoop A ds s cs b = .ok (s', cs', b') → s'.slots = s.slots := by
  intro ds
  induction ds with
  | nil => intro s s' cs cs' b b' h; cases h; rfl
  | cons d ds ih =>
    intro s s' cs cs' b b' h
    unfold defsLoop at h
    split at h
    · cases h
    · exact ih h
    · have := ih h; exact this

theorem defLocals_longer {A : Ast T} {s s' : S T} {b : Bool} (h : defLocals A s = .ok (s', b)) : Longer s s' := by
  unfold defLocals at h
  split at h
  · cases h
  · rename_i hd
    exact (Longer.same (defsLoop_slots _ hd)).trans (applyAll_longer h)

theorem blocks_longer {A : Ast T} {I : Builtins T} {s s' : S T} (h : compileBlocks A I s = .again s' ∨ ∃ e, compileBlocks A I s = .failed s' e) : Longer s s' := by
  unfold compileBlocks at h
  dsimp only at h
  split at h
  · rcases h with h | ⟨e, h⟩ <;> cases h
  · split at h
    · rcases h with h | ⟨e, h⟩ <;> cases h
    · rename_i hd
      have key := applyAll_longer hd
      split at h
      · rcases h with h | ⟨e, h⟩ <;> cases h
        exact key
      · split at h
        · rcases h with h | ⟨e, h⟩ <;> cases h
          exact key
        · rcases h with h | ⟨e, h⟩ <;> cases h

theorem longer_kept {A : Ast T} {I : Builtins T} (s0 : S T) : Kept A I (Longer s0) where
  quiet s s' _ h hq := by
    obtain ⟨s1, s2, _, h1, h2, _, h3⟩ := hq.kin
    refine ((h.trans (.same h1.slots)).trans ?_).trans (.same h3.slots)
    rcases h2 with h2 | ⟨_, _, b, h2⟩
    · exact .same (by rw [h2])
    · exact defLocals_longer h2
  blocks s s' _ _ h hb := h.trans (blocks_longer hb)

/-- The variables given with a program keep their places and types. -/
theorem compile_longer {A : Ast T} {I : Builtins T} {names : List String} (hw : A.Wf names) (hn : I.Named names) {ord : List Nat → List Nat} (hord : OrderOk ord)
    {f root : Nat} {s c : S T} (hi : Inv A s) (h : compile A I ord f root s = some (.ok c)) : Longer s c :=
  compile_traced hw hn hord (longer_kept s) f root s _ hi (.refl s) h

end Verif.Comp
