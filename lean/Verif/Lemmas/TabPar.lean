import Verif.Spec.Table
/-! Lemmas on cached column lookups and parallel evaluation. -/
namespace Verif.Tab
variable {N : Type}

/-! ### Columns -/

theorem isHeader_iff (name : String) (e : Entry N) : isHeader name e = true ↔ e = .obj (.str name) := by
  unfold isHeader
  split
  · simp
  · rename_i h
    constructor
    · intro h'; cases h'
    · intro h'; exact absurd h' (h name)

theorem colIdx_ok (t : Rows N) (name : String) (c : Nat) : colIdx t name = .ok c ↔ Column t name c := by
  unfold colIdx Column
  cases t with
  | nil => constructor
           · intro h; cases h
           · rintro ⟨h, d, h1, _⟩; cases h1
  | cons h d =>
    simp only
    cases hf : h.findIdx? (isHeader name) with
    | none =>
      constructor
      · intro h'; cases h'
      · rintro ⟨h', d', h1, h2, _⟩
        cases h1
        rw [List.findIdx?_eq_none_iff] at hf
        have := hf _ (List.mem_of_getElem? h2)
        rw [(isHeader_iff _ _).2 rfl] at this
        cases this
    | some i =>
      rw [List.findIdx?_eq_some_iff_getElem] at hf
      obtain ⟨hi, h1, h2⟩ := hf
      constructor
      · intro e; cases e
        refine ⟨h, d, rfl, ?_, ?_⟩
        · rw [List.getElem?_eq_getElem hi, (isHeader_iff _ _).1 h1]
        · intro j hj e
          obtain ⟨hj', e⟩ := List.getElem?_eq_some_iff.1 e
          have := h2 j hj
          rw [e, (isHeader_iff _ _).2 rfl] at this
          simp at this
      · rintro ⟨h', d', e, h3, h4⟩
        cases e
        obtain ⟨hc, e⟩ := List.getElem?_eq_some_iff.1 h3
        rcases Nat.lt_trichotomy i c with hlt | heq | hgt
        · exfalso
          apply h4 i hlt
          rw [List.getElem?_eq_getElem hi, (isHeader_iff _ _).1 h1]
        · rw [heq]
        · exfalso
          have := h2 c hgt
          rw [e, (isHeader_iff _ _).2 rfl] at this
          simp at this

theorem colIdx_lt {t : Rows N} {name : String} {c : Nat} (h : colIdx t name = .ok c) : c < width t := by
  obtain ⟨h', d, e, h1, _⟩ := (colIdx_ok t name c).1 h
  subst e
  exact (List.getElem?_eq_some_iff.1 h1).1

theorem Rect.len {t : Rows N} (h : Rect t) {r : List (Entry N)} (hr : r ∈ t) : r.length = width t ∧ 0 < width t := by
  rcases h with rfl | ⟨w, hw, h⟩
  · cases hr
  · cases t with
    | nil => cases hr
    | cons a l =>
      have h1 := h a (by simp)
      have h2 := h r hr
      simp only [width]
      omega

theorem rect_iff (t : Rows N) : Rect t ↔ ∀ r ∈ t, r.length = width t ∧ 0 < width t := by
  constructor
  · intro h r hr; exact h.len hr
  · intro h
    cases t with
    | nil => exact .inl rfl
    | cons a l => exact .inr ⟨_, (h a (by simp)).2, fun r hr => (h r hr).1⟩

theorem entryAt_rect {t : Rows N} (h : Rect t) {row c : Nat} (hr : row < t.length) (hc : c < width t) :
    ∃ r e, t[row]? = some r ∧ r[c]? = some e ∧ entryAt t row c = .ok e := by
  have h1 : t[row]? = some t[row] := List.getElem?_eq_getElem hr
  have h2 := (h.len (List.getElem_mem hr)).1
  have h3 : t[row][c]? = some (t[row][c]'(by omega)) := List.getElem?_eq_getElem (by omega)
  exact ⟨_, _, h1, h3, by unfold entryAt; rw [h1]; simp only [h3]⟩

/-! ### The cache -/

/-- Every cached index is right. -/
def CacheOk (t : Rows N) (c : Cache) : Prop := ∀ name i, c name = some i → colIdx t name = .ok i

theorem cacheOk_none (t : Rows N) : CacheOk t noCache := fun _ _ h => by cases h

theorem getColIdx_spec {t : Rows N} {c : Cache} (h : CacheOk t c) (name : String) :
    (∀ e, colIdx t name = .error e → getColIdx t c name = .error e) ∧
    (∀ i, colIdx t name = .ok i → ∃ c', getColIdx t c name = .ok (i, c') ∧ CacheOk t c') := by
  unfold getColIdx
  cases hc : c name with
  | some i =>
    have := h name i hc
    refine ⟨fun e he => (by rw [this] at he; cases he), fun j hj => ⟨c, ?_, h⟩⟩
    rw [this] at hj; cases hj; rfl
  | none =>
    simp only
    refine ⟨fun e he => by rw [he]; rfl, fun i hi => ⟨_, by rw [hi]; rfl, ?_⟩⟩
    intro n j hj
    simp only at hj
    split at hj
    · rename_i e; cases hj; rw [e]; exact hi
    · exact h n j hj

theorem runCached_eq {A : Type} (t : Rows N) (row : Nat) (p : Prog N A) : ∀ (c : Cache), CacheOk t c →
    (runCached t row p c).1 = evalRow t row p ∧ CacheOk t (runCached t row p c).2 := by
  induction p with
  | ret a => intro c h; exact ⟨rfl, h⟩
  | fail e => intro c h; exact ⟨rfl, h⟩
  | get name k ih =>
    intro c h
    obtain ⟨h1, h2⟩ := getColIdx_spec h name
    unfold runCached evalRow
    cases hc : colIdx t name with
    | error e => simp only [h1 e hc]; exact ⟨trivial, h⟩
    | ok i =>
      obtain ⟨c', hc', ho⟩ := h2 i hc
      simp only [hc']
      cases he : entryAt t row i with
      | error e => exact ⟨rfl, ho⟩
      | ok x => exact ih x c' ho

/-- On a table there is no panic. -/
theorem evalRow_no_panic {A : Type} {t : Rows N} (h : Rect t) {row : Nat} (hr : row < t.length) (p : Prog N A) :
    evalRow t row p ≠ .error .panic := by
  induction p with
  | ret a => intro h; cases h
  | fail e => intro h; cases h
  | get name k ih =>
    unfold evalRow
    cases hc : colIdx t name with
    | error e => intro h; cases h
    | ok i =>
      obtain ⟨_, e, _, _, he⟩ := entryAt_rect h hr (colIdx_lt hc)
      simp only [he]
      exact ih e

/-! ### Parallel runs -/

/-- What a run has done when the rows in `S` are handled. -/
structure Done {W T : Type} (Inv : W → Prop) (g : Nat → T → Res T) (buf : List T) (S : List Nat) (p : Par W T) : Prop where
  inv : ∀ k, Inv (p.workers k)
  len : p.buf.length = buf.length
  val : ∀ (i : Nat) (x : T), buf[i]? = some x → p.buf[i]? = some (if i ∈ S then (match g i x with | .ok y => y | .error _ => x) else x)
  err : ∀ e, p.err = some e → ∃ (i : Nat) (x : T), i ∈ S ∧ buf[i]? = some x ∧ g i x = .error (.err e)
  errs : ∀ (i : Nat) (x : T) (e : TErr), i ∈ S → buf[i]? = some x → g i x = .error (.err e) → p.err ≠ none
  pan : p.panicked = true ↔ ∃ (i : Nat) (x : T), i ∈ S ∧ buf[i]? = some x ∧ g i x = .error .panic

theorem done_step {W T : Type} {Inv : W → Prop} {g : Nat → T → Res T} {f : W → Nat → T → Res T × W} {buf : List T}
    (hf : ∀ w, Inv w → ∀ (i : Nat) (x : T), buf[i]? = some x → (f w i x).1 = g i x ∧ Inv (f w i x).2)
    {S : List Nat} {p : Par W T} (d : Done Inv g buf S p) (s : Nat × Nat) (hs : s.2 ∉ S) (hb : s.2 < buf.length) :
    Done Inv g buf (s.2 :: S) (parStep f p s) := by
  have hx : buf[s.2]? = some buf[s.2] := List.getElem?_eq_getElem hb
  generalize buf[s.2] = x at hx
  have hv := d.val s.2 x hx
  rw [if_neg hs] at hv
  obtain ⟨hg, hi⟩ := hf (p.workers s.1) (d.inv s.1) s.2 x hx
  have hinv : ∀ k, Inv ((fun k => if k = s.1 then (f (p.workers s.1) s.2 x).2 else p.workers k) k) := by
    intro k; simp only; split
    · exact hi
    · exact d.inv k
  unfold parStep
  rw [hv]
  simp only [hg]
  cases hgx : g s.2 x with
  | ok y =>
    simp only
    refine ⟨hinv, by simp [d.len], ?_, ?_, ?_, ?_⟩
    · intro i z hz
      by_cases e : i = s.2
      · subst e
        rw [hx] at hz; cases hz
        rw [List.getElem?_set_self (by rw [d.len]; exact hb)]
        simp [hgx]
      · rw [List.getElem?_set_ne (fun h => e h.symm), d.val i z hz]
        simp [e]
    · intro e he
      obtain ⟨i, z, h1, h2⟩ := d.err e he
      exact ⟨i, z, by simp [h1], h2⟩
    · intro i z e h1 h2 h3
      rcases List.mem_cons.1 h1 with rfl | h1
      · rw [hx] at h2; cases h2; rw [hgx] at h3; cases h3
      · exact d.errs i z e h1 h2 h3
    · rw [d.pan]
      constructor
      · rintro ⟨i, z, h1, h2⟩; exact ⟨i, z, by simp [h1], h2⟩
      · rintro ⟨i, z, h1, h2, h3⟩
        rcases List.mem_cons.1 h1 with rfl | h1
        · rw [hx] at h2; cases h2; rw [hgx] at h3; cases h3
        · exact ⟨i, z, h1, h2, h3⟩
  | error b =>
    have hval : ∀ (i : Nat) (z : T), buf[i]? = some z → p.buf[i]? = some (if i ∈ s.2 :: S then (match g i z with | .ok y => y | .error _ => z) else z) := by
      intro i z hz
      by_cases e : i = s.2
      · subst e
        rw [hx] at hz; cases hz
        rw [hv]; simp [hgx]
      · rw [d.val i z hz]; simp [e]
    cases b with
    | err e =>
      simp only
      refine ⟨hinv, d.len, hval, ?_, ?_, ?_⟩
      · intro e' he; cases he
        exact ⟨s.2, x, by simp, hx, hgx⟩
      · intros; simp
      · rw [d.pan]
        constructor
        · rintro ⟨i, z, h1, h2⟩; exact ⟨i, z, by simp [h1], h2⟩
        · rintro ⟨i, z, h1, h2, h3⟩
          rcases List.mem_cons.1 h1 with rfl | h1
          · rw [hx] at h2; cases h2; rw [hgx] at h3; cases h3
          · exact ⟨i, z, h1, h2, h3⟩
    | panic =>
      simp only
      refine ⟨hinv, d.len, hval, ?_, ?_, ?_⟩
      · intro e he
        obtain ⟨i, z, h1, h2⟩ := d.err e he
        exact ⟨i, z, by simp [h1], h2⟩
      · intro i z e h1 h2 h3
        rcases List.mem_cons.1 h1 with rfl | h1
        · rw [hx] at h2; cases h2; rw [hgx] at h3; cases h3
        · exact d.errs i z e h1 h2 h3
      · simp only [true_iff]
        exact ⟨s.2, x, by simp, hx, hgx⟩

theorem done_run {W T : Type} {Inv : W → Prop} {g : Nat → T → Res T} {f : W → Nat → T → Res T × W} {buf : List T}
    (hf : ∀ w, Inv w → ∀ (i : Nat) (x : T), buf[i]? = some x → (f w i x).1 = g i x ∧ Inv (f w i x).2)
    (sched : Sched) : ∀ {S : List Nat} {p : Par W T}, Done Inv g buf S p → (sched.map (·.2)).Nodup →
      (∀ s ∈ sched, s.2 ∉ S ∧ s.2 < buf.length) →
      Done Inv g buf ((sched.map (·.2)).reverse ++ S) (sched.foldl (parStep f) p) := by
  induction sched with
  | nil => intro S p d _ _; exact d
  | cons s l ih =>
    intro S p d hn hs
    rw [List.map_cons, List.nodup_cons] at hn
    have d1 := done_step hf d s (hs s (by simp)).1 (hs s (by simp)).2
    have := ih d1 hn.2 (by
      intro s' hs'
      refine ⟨?_, (hs s' (by simp [hs'])).2⟩
      intro h
      rcases List.mem_cons.1 h with h | h
      · exact hn.1 (h ▸ List.mem_map.2 ⟨s', hs', rfl⟩)
      · exact (hs s' (by simp [hs'])).1 h)
    simpa using this

/-- C25 in general: the outcome of a parallel run is that of handling each row on its own. -/
theorem parOver_spec {W T : Type} (Inv : W → Prop) (g : Nat → T → Res T) (f : W → Nat → T → Res T × W) (init : W)
    (buf : List T) (sched : Sched) (hi : Inv init)
    (hf : ∀ w, Inv w → ∀ (i : Nat) (x : T), buf[i]? = some x → (f w i x).1 = g i x ∧ Inv (f w i x).2)
    (hs : Schedule buf.length sched) (hp : ∀ (i : Nat) (x : T), buf[i]? = some x → g i x ≠ .error .panic) :
    (∃ (out : List T), parOver f init buf sched = .ok out ∧ out.length = buf.length ∧ out[0]? = buf[0]? ∧
      ∀ (i : Nat) (x : T), 1 ≤ i → buf[i]? = some x → ∃ y, g i x = .ok y ∧ out[i]? = some y) ∨
    (∃ (i : Nat) (x : T) (e : TErr), 1 ≤ i ∧ buf[i]? = some x ∧ g i x = .error (.err e) ∧
      parOver f init buf sched = .error (.err e)) := by
  have d0 : Done Inv g buf [] ⟨fun _ => init, buf, none, false⟩ :=
    ⟨fun _ => hi, rfl, by simp, by simp, by simp, by simp⟩
  have hnd : (sched.map (·.2)).Nodup := hs.nodup_iff.2 (List.nodup_range' (h := by omega))
  have hmem : ∀ i, i ∈ sched.map (·.2) ↔ 1 ≤ i ∧ i < buf.length := by
    intro i
    rw [hs.mem_iff, List.mem_range'_1]
    omega
  have d := done_run hf sched d0 hnd (by
    intro s h
    exact ⟨by simp, ((hmem s.2).1 (List.mem_map.2 ⟨s, h, rfl⟩)).2⟩)
  simp only [List.append_nil] at d
  unfold parOver
  generalize sched.foldl (parStep f) _ = p at d
  have hpan : p.panicked = false := by
    cases h : p.panicked with
    | false => rfl
    | true =>
      obtain ⟨i, x, _, h2, h3⟩ := d.pan.1 h
      exact absurd h3 (hp i x h2)
  simp only [hpan]
  cases he : p.err with
  | some e =>
    obtain ⟨i, x, h1, h2, h3⟩ := d.err e he
    have := (hmem i).1 (by simpa using h1)
    exact .inr ⟨i, x, e, this.1, h2, h3, rfl⟩
  | none =>
    refine .inl ⟨p.buf, rfl, d.len, ?_, ?_⟩
    · cases h0 : buf[0]? with
      | none => rw [List.getElem?_eq_none_iff] at h0 ⊢; rw [d.len]; exact h0
      | some x =>
        rw [d.val 0 x h0, if_neg]
        intro h
        have := (hmem 0).1 (by simpa using h)
        omega
    · intro i x h1 h2
      have hi : i ∈ (sched.map (·.2)).reverse := by
        rw [List.mem_reverse, hmem]
        exact ⟨h1, (List.getElem?_eq_some_iff.1 h2).1⟩
      cases hg : g i x with
      | ok y => exact ⟨y, rfl, by rw [d.val i x h2, if_pos hi, hg]⟩
      | error b =>
        cases b with
        | panic => exact absurd hg (hp i x h2)
        | err e => exact absurd he (d.errs i x e hi h2 hg)

/-- Evaluating one expression per row. -/
theorem rows_spec {A T : Type} {t : Rows N} (ht : Rect t) (e : Rows N → Nat → Prog N A) (k : A → T) (buf : List T)
    (hb : buf.length = t.length) (sched : Sched) (hs : Schedule t.length sched) :
    (∃ (out : List T), parOver (rowTask t e k) noCache buf sched = .ok out ∧ out.length = t.length ∧ out[0]? = buf[0]? ∧
      ∀ i : Nat, 1 ≤ i → i < t.length → ∃ a, evalRow t i (e t i) = .ok a ∧ out[i]? = some (k a)) ∨
    (∃ (i : Nat) (b : TErr), 1 ≤ i ∧ i < t.length ∧ evalRow t i (e t i) = .error (.err b) ∧
      parOver (rowTask t e k) noCache buf sched = .error (.err b)) := by
  have lt : ∀ (i : Nat) (x : T), buf[i]? = some x → i < t.length := by
    intro i x h; rw [← hb]; exact (List.getElem?_eq_some_iff.1 h).1
  have := parOver_spec (CacheOk t) (fun i _ => (evalRow t i (e t i)).map k) (rowTask t e k) noCache buf sched
    (cacheOk_none t) (by
      intro c hc i x hx
      obtain ⟨h1, h2⟩ := runCached_eq t i (e t i) c hc
      exact ⟨by simp only [rowTask, h1], h2⟩)
    (by rw [hb]; exact hs) (by
      intro i x hx h
      have := evalRow_no_panic ht (lt i x hx) (e t i)
      cases h' : evalRow t i (e t i) with
      | ok a => rw [h'] at h; cases h
      | error b => rw [h'] at h; cases h; exact this h')
  rcases this with ⟨out, h1, h2, h3, h4⟩ | ⟨i, x, b, h1, h2, h3, h4⟩
  · refine .inl ⟨out, h1, by omega, h3, ?_⟩
    intro i hi hlt
    obtain ⟨y, hy, ho⟩ := h4 i buf[i] hi (List.getElem?_eq_getElem (by omega))
    cases h' : evalRow t i (e t i) with
    | ok a => rw [h'] at hy; cases hy; exact ⟨a, rfl, ho⟩
    | error b => rw [h'] at hy; cases hy
  · refine .inr ⟨i, b, h1, lt i x h2, ?_, h4⟩
    cases h' : evalRow t i (e t i) with
    | ok a => rw [h'] at h3; cases h3
    | error b' => rw [h'] at h3; cases h3; rfl

end Verif.Tab
