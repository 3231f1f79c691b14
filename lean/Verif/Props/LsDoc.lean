import Verif.Model.LsDoc
/-! C46: document edits converge whatever order they arrive in. -/
namespace Verif.LsDoc
variable {T C : Type}

/-- Specification. After receiving the edits `ds` (in whatever order) on a document that was `t0`
at version `v`: the received edits split into a part `A`, numbered consecutively from `v + 1`, that
has been applied in version order, and a part `B` that is waiting, in version order, because the
version right after the applied ones has not arrived. -/
def Settled (apply : T → C → T) (t0 : T) (v : Int) (ds : List (Change C)) (d : Doc T C) : Prop :=
  ∃ A B : List (Change C),
    (A ++ B).Perm ds ∧
    A.map (·.version) = (List.range A.length).map (fun i : Nat => v + 1 + (i : Int)) ∧
    d.text = A.foldl (fun t c => apply t c.changes) t0 ∧
    d.version = v + A.length ∧
    d.pending = B ∧
    B.Pairwise (fun a b => a.version < b.version) ∧
    ∀ b ∈ B, d.version + 1 < b.version

theorem insertPending_perm (ps : List (Change C)) (c : Change C) :
    (insertPending ps c).Perm (c :: ps) := by
  induction ps with
  | nil => simp [insertPending]
  | cons p ps ih =>
    simp only [insertPending]
    split
    · exact List.Perm.refl _
    · exact (List.Perm.cons p ih).trans (List.Perm.swap c p ps)

theorem insertPending_sorted (ps : List (Change C)) (c : Change C)
    (hs : ps.Pairwise (fun a b => a.version < b.version)) (hne : ∀ p ∈ ps, p.version ≠ c.version) :
    (insertPending ps c).Pairwise (fun a b => a.version < b.version) := by
  induction ps with
  | nil => simp [insertPending]
  | cons p ps ih =>
    simp only [insertPending]
    rw [List.pairwise_cons] at hs
    have hp := hne p (by simp)
    split
    · rename_i h
      rw [List.pairwise_cons]
      refine ⟨?_, List.pairwise_cons.2 hs⟩
      intro a ha
      rcases List.mem_cons.1 ha with rfl | ha
      · omega
      · have := hs.1 a ha; omega
    · rename_i h
      rw [List.pairwise_cons]
      refine ⟨?_, ih hs.2 (fun q hq => hne q (by simp [hq]))⟩
      intro a ha
      rcases List.mem_cons.1 ((insertPending_perm ps c).mem_iff.1 ha) with rfl | ha
      · omega
      · exact hs.1 a ha

theorem applyPending_spec (apply : T → C → T) (L : List (Change C)) :
    ∀ (t : T) (v : Int), L.Pairwise (fun a b => a.version < b.version) →
      (∀ c ∈ L, v < c.version) →
      Settled apply t v L (applyPending apply t v L) := by
  induction L with
  | nil => intro t v _ _; exact ⟨[], [], by simp [applyPending]⟩
  | cons c cs ih =>
    intro t v hs hv
    rw [List.pairwise_cons] at hs
    have hc := hv c (by simp)
    by_cases hgap : c.version > v + 1
    · refine ⟨[], c :: cs, by simp, by simp, ?_, ?_, ?_, List.pairwise_cons.2 hs, ?_⟩ <;>
        simp only [applyPending, show ¬ c.version < v by omega, if_false, hgap, if_true,
          List.foldl_nil, List.length_nil]
      · simp
      · intro b hb
        rcases List.mem_cons.1 hb with rfl | hb
        · omega
        · have := hs.1 b hb; omega
    · have hcv : c.version = v + 1 := by omega
      obtain ⟨A, B, hperm, hA, htext, hver, hpend, hB, hlt⟩ :=
        ih (apply t c.changes) c.version hs.2 hs.1
      have hstep : applyPending apply t v (c :: cs)
          = applyPending apply (apply t c.changes) c.version cs := by
        simp only [applyPending, show ¬ c.version < v by omega, if_false, hgap]
      refine ⟨c :: A, B, by simpa using hperm.cons c, ?_, ?_, ?_, ?_, hB, ?_⟩
      · rw [List.map_cons, List.length_cons, List.range_succ_eq_map, List.map_cons, hA, hcv,
          List.map_map]
        simp only [List.cons.injEq]
        refine ⟨by simp, List.map_congr_left ?_⟩
        intro i _
        simp only [Function.comp, Nat.succ_eq_add_one]
        omega
      · rw [hstep, htext]; rfl
      · rw [hstep, hver, List.length_cons]; omega
      · rw [hstep, hpend]
      · rw [hstep]; exact hlt

/-- One more delivery keeps the settled form. -/
theorem settled_step (apply : T → C → T) (t0 : T) (v : Int) (ds : List (Change C)) (c : Change C)
    (d : Doc T C) (hd : Settled apply t0 v ds d) (hcv : v < c.version)
    (hfresh : ∀ e ∈ ds, e.version ≠ c.version) :
    Settled apply t0 v (ds ++ [c]) (d.addChanges apply c) := by
  obtain ⟨A, B, hperm, hA, htext, hver, hpend, hB, hlt⟩ := hd
  have hmem : ∀ e ∈ A ++ B, e.version ≠ c.version := fun e he => hfresh e (hperm.mem_iff.1 he)
  have hcd : d.version < c.version := by
    rw [hver]
    apply Int.not_le.1
    intro hle
    have hin : c.version ∈ A.map (·.version) := by
      rw [hA, List.mem_map]
      refine ⟨(c.version - v - 1).toNat, ?_, ?_⟩
      · rw [List.mem_range]; omega
      · omega
    obtain ⟨e, he, hev⟩ := List.mem_map.1 hin
    exact hmem e (by simp [he]) hev
  have hsort := insertPending_sorted B c hB (fun p hp => hmem p (by simp [hp]))
  have hgt : ∀ e ∈ insertPending B c, d.version < e.version := by
    intro e he
    rcases List.mem_cons.1 ((insertPending_perm B c).mem_iff.1 he) with rfl | he
    · exact hcd
    · have := hlt e he; omega
  obtain ⟨A', B', hperm', hA', htext', hver', hpend', hB', hlt'⟩ :=
    applyPending_spec apply (insertPending B c) d.text d.version hsort hgt
  have hdef : d.addChanges apply c = applyPending apply d.text d.version (insertPending B c) := by
    rw [Doc.addChanges, hpend]
  rw [hdef]
  refine ⟨A ++ A', B', ?_, ?_, ?_, ?_, hpend', hB', hlt'⟩
  · have h1 : (A ++ A' ++ B').Perm (A ++ (c :: B)) := by
      rw [List.append_assoc]
      exact (hperm'.trans (insertPending_perm B c)).append_left A
    have h2 : (A ++ (c :: B)).Perm (c :: (A ++ B)) := List.perm_middle
    have h3 : (c :: (A ++ B)).Perm (ds ++ [c]) :=
      (hperm.cons c).trans (List.perm_append_singleton c ds).symm
    exact h1.trans (h2.trans h3)
  · rw [List.map_append, hA, hA', hver, List.length_append, List.range_add, List.map_append,
      List.map_map]
    congr 1
    apply List.map_congr_left
    intro i _
    simp only [Function.comp]
    omega
  · rw [htext', htext, List.foldl_append]
  · rw [hver', hver, List.length_append]; omega

/-- C46 (general form): whatever edits arrive, in whatever order, as long as versions are not
reused, the document is settled. -/
theorem receive_settled (apply : T → C → T) (t0 : T) (v : Int) (ds : List (Change C))
    (hv : ∀ c ∈ ds, v < c.version) (hnd : (ds.map (·.version)).Nodup) :
    Settled apply t0 v ds ((Doc.new t0 v).receive apply ds) := by
  suffices H : ∀ (pre post : List (Change C)) (d : Doc T C),
      Settled apply t0 v pre d → (∀ c ∈ post, v < c.version) →
      ((pre ++ post).map (·.version)).Nodup →
      Settled apply t0 v (pre ++ post) (d.receive apply post) from
    H [] ds _ ⟨[], [], by simp [Doc.new]⟩ hv (by simpa using hnd)
  intro pre post
  induction post generalizing pre with
  | nil => intro d hd _ _; simpa [Doc.receive] using hd
  | cons c cs ih =>
    intro d hd hgt hnd
    have hnd2 : ((pre ++ [c] ++ cs).map (·.version)).Nodup := by simpa using hnd
    have := ih (pre ++ [c]) (d.addChanges apply c)
      (settled_step apply t0 v pre c d hd (hgt c (by simp)) (by
        intro e he hec
        rw [List.map_append, List.nodup_append] at hnd
        exact hnd.2.2 e.version (List.mem_map_of_mem he) c.version (by simp) hec))
      (fun e he => hgt e (by simp [he])) hnd2
    simpa [Doc.receive] using this

theorem map_version_eq_of_perm {L M : List (Change C)} (v : Int)
    (hp : L.Perm M)
    (hL : L.map (·.version) = (List.range L.length).map (fun i : Nat => v + 1 + (i : Int)))
    (hM : M.map (·.version) = (List.range M.length).map (fun i : Nat => v + 1 + (i : Int))) : L = M := by
  have hkey : ∀ N : List (Change C),
      N.map (·.version) = (List.range N.length).map (fun i : Nat => v + 1 + (i : Int)) →
      N.Pairwise (fun a b => a.version < b.version) := by
    intro N hN
    have : (N.map (·.version)).Pairwise (· < ·) := by
      rw [hN, List.pairwise_map]
      refine List.Pairwise.imp ?_ List.pairwise_lt_range
      intro a b hab; omega
    exact List.pairwise_map.1 this
  exact List.Perm.eq_of_pairwise (le := fun a b => a.version < b.version)
    (fun a b _ _ h1 h2 => by omega) (hkey L hL) (hkey M hM) hp

/-- C46: if the edits numbered `v+1 … v+n` arrive in any order `ds`, the resulting document is
the one obtained by applying them in version order, and nothing is left waiting. -/
theorem edits_converge (apply : T → C → T) (t0 : T) (v : Int) (es ds : List (Change C))
    (hes : es.map (·.version) = (List.range es.length).map (fun i : Nat => v + 1 + (i : Int)))
    (hperm : ds.Perm es) :
    (Doc.new t0 v).receive apply ds =
      ⟨es.foldl (fun t c => apply t c.changes) t0, v + es.length, []⟩ := by
  have hvs : ∀ c ∈ ds, ∃ i : Nat, i < es.length ∧ c.version = v + 1 + (i : Int) := by
    intro c hc
    have : c.version ∈ es.map (·.version) := List.mem_map_of_mem (hperm.mem_iff.1 hc)
    rw [hes, List.mem_map] at this
    obtain ⟨i, hi, h⟩ := this
    exact ⟨i, List.mem_range.1 hi, h.symm⟩
  have hnd : (ds.map (·.version)).Nodup := by
    rw [(hperm.map _).nodup_iff, hes]
    refine List.pairwise_map.2 (List.Pairwise.imp ?_ List.nodup_range)
    intro a b h; omega
  obtain ⟨A, B, hp, hA, htext, hver, hpend, hB, hlt⟩ :=
    receive_settled apply t0 v ds (fun c hc => by obtain ⟨i, _, h⟩ := hvs c hc; omega) hnd
  have hlen : A.length + B.length = es.length := by
    have := (hp.trans hperm).length_eq; simpa using this
  have hBnil : B = [] := by
    cases B with
    | nil => rfl
    | cons b bs =>
      exfalso
      -- the version right after the applied ones was sent, so it is in `A` or in `B`
      have hk : A.length < es.length := by simp at hlen; omega
      have : v + 1 + (A.length : Int) ∈ es.map (·.version) := by
        rw [hes, List.mem_map]; exact ⟨A.length, List.mem_range.2 hk, rfl⟩
      obtain ⟨e, he, hev⟩ := List.mem_map.1 this
      have hin : e ∈ A ++ (b :: bs) := hp.mem_iff.2 (hperm.mem_iff.2 he)
      rcases List.mem_append.1 hin with h | h
      · have : e.version ∈ A.map (·.version) := List.mem_map_of_mem h
        rw [hA, List.mem_map] at this
        obtain ⟨i, hi, hi2⟩ := this
        have := List.mem_range.1 hi
        omega
      · have := hlt e h; rw [hver] at this; omega
  subst hBnil
  rw [List.append_nil] at hp
  have hAe : A = es := map_version_eq_of_perm v (hp.trans hperm) hA hes
  rw [hAe] at htext hver
  rcases hd : (Doc.new t0 v).receive apply ds with ⟨t, w, p⟩
  rw [hd] at htext hver hpend
  simp only at htext hver hpend
  rw [htext, hver, hpend]

/-- A settled document does not change when an edit older than its version arrives. -/
theorem settled_stale (apply : T → C → T) (t0 : T) (v : Int) (ds : List (Change C)) (c : Change C)
    (d : Doc T C) (hd : Settled apply t0 v ds d) (hc : c.version < d.version) :
    d.addChanges apply c = d := by
  obtain ⟨A, B, _, _, _, _, hpend, _, hlt⟩ := hd
  have hins : insertPending B c = c :: B := by
    cases B with
    | nil => rfl
    | cons b bs =>
      have := hlt b (by simp)
      simp [insertPending, show b.version ≥ c.version by omega]
  have hB : applyPending apply d.text d.version B = ⟨d.text, d.version, B⟩ := by
    cases B with
    | nil => rfl
    | cons b bs =>
      have := hlt b (by simp)
      simp [applyPending, show ¬ b.version < d.version by omega,
        show b.version > d.version + 1 by omega]
  rw [Doc.addChanges, hpend, hins, applyPending, if_pos hc, hB, ← hpend]

/-- C46: edits that arrive late (older than the version the document has reached), repeats
included, change nothing, and do not hold back the edits that are waiting. -/
theorem stale_edits_ignored (apply : T → C → T) (t0 : T) (v : Int) (ds ls : List (Change C))
    (hv : ∀ c ∈ ds, v < c.version) (hnd : (ds.map (·.version)).Nodup)
    (hl : ∀ c ∈ ls, c.version < ((Doc.new t0 v).receive apply ds).version) :
    (Doc.new t0 v).receive apply (ds ++ ls) = (Doc.new t0 v).receive apply ds := by
  have hs := receive_settled apply t0 v ds hv hnd
  have H : ∀ (ls : List (Change C)) (d : Doc T C), Settled apply t0 v ds d →
      (∀ c ∈ ls, c.version < d.version) → d.receive apply ls = d := by
    intro ls
    induction ls with
    | nil => intro d _ _; rfl
    | cons c cs ih =>
      intro d hd h
      have h1 := settled_stale apply t0 v ds c d hd (h c (by simp))
      show Doc.receive apply (d.addChanges apply c) cs = d
      rw [h1]
      exact ih d hd (fun e he => h e (by simp [he]))
  have := H ls _ hs hl
  simpa [Doc.receive] using this

-- non-vacuity: version 1 arrives again when 1 and 2 have been applied and 4 is waiting
example : (Doc.new "" 0 : Doc String String).receive (· ++ ·) ([⟨1, "a"⟩, ⟨4, "d"⟩, ⟨2, "b"⟩] ++ [⟨1, "a"⟩])
    = (Doc.new "" 0).receive (· ++ ·) [⟨1, "a"⟩, ⟨4, "d"⟩, ⟨2, "b"⟩] :=
  stale_edits_ignored _ _ _ _ _ (by decide) (by decide) (by decide)

/-- C46: an edit that arrives twice is applied twice when it carries the current version, so
"versions are not reused" cannot be dropped. -/
theorem duplicate_edit_applied_twice :
    ((Doc.new "" 0 : Doc String String).receive (· ++ ·) [⟨1, "a"⟩, ⟨1, "a"⟩]).text = "aa" := by
  decide

-- non-vacuity: three edits arriving in the order 3, 1, 2
example : (Doc.new "" 5 : Doc String String).receive (· ++ ·) [⟨8, "c"⟩, ⟨6, "a"⟩, ⟨7, "b"⟩]
    = ⟨"abc", 8, []⟩ :=
  edits_converge (· ++ ·) "" 5 [⟨6, "a"⟩, ⟨7, "b"⟩, ⟨8, "c"⟩] _ (by decide) (by decide)

-- non-vacuity of `receive_settled`: a gap at version 6, so 7 waits
example : Settled (· ++ ·) "" 5 [⟨7, "b"⟩]
    ((Doc.new "" 5 : Doc String String).receive (· ++ ·) [⟨7, "b"⟩]) :=
  receive_settled _ _ _ _ (by decide) (by decide)

end Verif.LsDoc
