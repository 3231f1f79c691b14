import Verif.Spec.Infer
/-! Properties of type inference by trial (C36). -/
namespace Verif.Infer
variable {Ty C E N : Type}

section
variable [DecidableEq Ty]

/-- With one success so far. -/
theorem testLoop_some (trial : Ty → Trial C E) (c : C) : ∀ (ts valid rm : List Ty),
    (testLoop trial ts valid rm (some c) = .ok c ∧ ∀ t ∈ ts, ¬ Compiles trial t ∧ ¬ HitsLimit trial t) ∨
    (∃ pre t post, ts = pre ++ t :: post ∧ Compiles trial t ∧ (∀ u ∈ pre, ¬ Compiles trial u ∧ ¬ HitsLimit trial u) ∧
      testLoop trial ts valid rm (some c) = .error (.ambiguous (valid.filter fun u => decide (u ∉ pre.filter fun v => match trial v with | .failed => true | _ => false)))) ∨
    (∃ pre t post e, ts = pre ++ t :: post ∧ trial t = .depth e ∧ (∀ u ∈ pre, ¬ Compiles trial u ∧ ¬ HitsLimit trial u) ∧
      testLoop trial ts valid rm (some c) = .error (.depthLimit e))
  | [], valid, rm => .inl ⟨rfl, by simp⟩
  | t :: ts, valid, rm => by
    cases ht : trial t with
    | rejected =>
      have hn : ¬ Compiles trial t ∧ ¬ HitsLimit trial t := by simp [Compiles, HitsLimit, ht]
      simp only [testLoop, ht]
      rcases testLoop_some trial c ts valid (rm ++ [t]) with ⟨h1, h2⟩ | ⟨pre, u, post, h1, h2, h3, h4⟩ | ⟨pre, u, post, e, h1, h2, h3, h4⟩
      · exact .inl ⟨h1, by simpa [hn] using h2⟩
      · refine .inr (.inl ⟨t :: pre, u, post, by simp [h1], h2, by simpa [hn] using h3, ?_⟩)
        rw [h4]; simp [ht]
      · exact .inr (.inr ⟨t :: pre, u, post, e, by simp [h1], h2, by simpa [hn] using h3, h4⟩)
    | compiled d =>
      refine .inr (.inl ⟨[], t, ts, rfl, ⟨d, ht⟩, by simp, ?_⟩)
      simp only [testLoop, ht]
      congr 2
      exact (List.filter_eq_self.2 (by simp)).symm
    | depth e => exact .inr (.inr ⟨[], t, ts, e, rfl, ht, by simp, by simp [testLoop, ht]⟩)
    | failed =>
      have hn : ¬ Compiles trial t ∧ ¬ HitsLimit trial t := by simp [Compiles, HitsLimit, ht]
      simp only [testLoop, ht]
      rcases testLoop_some trial c ts (valid.filter (· ≠ t)) rm with ⟨h1, h2⟩ | ⟨pre, u, post, h1, h2, h3, h4⟩ | ⟨pre, u, post, e, h1, h2, h3, h4⟩
      · exact .inl ⟨h1, by simpa [hn] using h2⟩
      · refine .inr (.inl ⟨t :: pre, u, post, by simp [h1], h2, by simpa [hn] using h3, ?_⟩)
        rw [h4]
        congr 2
        rw [List.filter_filter]
        apply List.filter_congr
        intro x _
        simp only [List.filter_cons, ht, if_true, List.mem_cons, not_or]
        by_cases hx : x = t <;> simp [hx]
      · exact .inr (.inr ⟨t :: pre, u, post, e, by simp [h1], h2, by simpa [hn] using h3, h4⟩)

/-- The candidates the type graph did not accept. -/
def rejects (trial : Ty → Trial C E) (ts : List Ty) : List Ty := ts.filter fun t => match trial t with | .rejected => true | _ => false

theorem testLoop_none (trial : Ty → Trial C E) : ∀ (ts valid rm : List Ty),
    ((∀ t ∈ ts, ¬ Compiles trial t ∧ ¬ HitsLimit trial t) ∧
      testLoop trial ts valid rm none = if rm ++ rejects trial ts = [] then .error .noTypes else .error (.reduce (rm ++ rejects trial ts))) ∨
    (∃ pre t post c valid', ts = pre ++ t :: post ∧ trial t = .compiled c ∧ (∀ u ∈ pre, ¬ Compiles trial u ∧ ¬ HitsLimit trial u) ∧
      testLoop trial ts valid rm none = testLoop trial post valid' (rm ++ rejects trial pre) (some c) ∧ valid' = valid.filter fun u => decide (u ∉ pre.filter fun v => match trial v with | .failed => true | _ => false)) ∨
    (∃ pre t post e, ts = pre ++ t :: post ∧ trial t = .depth e ∧ (∀ u ∈ pre, ¬ Compiles trial u ∧ ¬ HitsLimit trial u) ∧
      testLoop trial ts valid rm none = .error (.depthLimit e))
  | [], valid, rm => .inl ⟨by simp, by simp [testLoop, rejects]⟩
  | t :: ts, valid, rm => by
    cases ht : trial t with
    | rejected =>
      have hn : ¬ Compiles trial t ∧ ¬ HitsLimit trial t := by simp [Compiles, HitsLimit, ht]
      simp only [testLoop, ht]
      rcases testLoop_none trial ts valid (rm ++ [t]) with ⟨h1, h2⟩ | ⟨pre, u, post, c, v, h1, h2, h3, h4, h5⟩ | ⟨pre, u, post, e, h1, h2, h3, h4⟩
      · exact .inl ⟨by simpa [hn] using h1, by rw [h2]; simp [rejects, ht]⟩
      · refine .inr (.inl ⟨t :: pre, u, post, c, v, by simp [h1], h2, by simpa [hn] using h3, ?_, ?_⟩)
        · rw [h4]; simp [rejects, ht]
        · rw [h5]; simp [ht]
      · exact .inr (.inr ⟨t :: pre, u, post, e, by simp [h1], h2, by simpa [hn] using h3, h4⟩)
    | compiled d =>
      exact .inr (.inl ⟨[], t, ts, d, valid, rfl, ht, by simp, by simp [testLoop, ht, rejects], (List.filter_eq_self.2 (by simp)).symm⟩)
    | depth e => exact .inr (.inr ⟨[], t, ts, e, rfl, ht, by simp, by simp [testLoop, ht]⟩)
    | failed =>
      have hn : ¬ Compiles trial t ∧ ¬ HitsLimit trial t := by simp [Compiles, HitsLimit, ht]
      simp only [testLoop, ht]
      rcases testLoop_none trial ts (valid.filter (· ≠ t)) rm with ⟨h1, h2⟩ | ⟨pre, u, post, c, v, h1, h2, h3, h4, h5⟩ | ⟨pre, u, post, e, h1, h2, h3, h4⟩
      · exact .inl ⟨by simpa [hn] using h1, by rw [h2]; simp [rejects, ht]⟩
      · refine .inr (.inl ⟨t :: pre, u, post, c, v, by simp [h1], h2, by simpa [hn] using h3, ?_, ?_⟩)
        · rw [h4]; simp [rejects, ht]
        · rw [h5, List.filter_filter]
          apply List.filter_congr
          intro x _
          simp only [List.filter_cons, ht, if_true, List.mem_cons, not_or]
          by_cases hx : x = t <;> simp [hx]
      · exact .inr (.inr ⟨t :: pre, u, post, e, by simp [h1], h2, by simpa [hn] using h3, h4⟩)

theorem not_once {l pre post : List Ty} {t u : Ty} (hd : l.Nodup) (h : l = pre ++ t :: post) (hu : u ∈ post) : u ≠ t := by
  subst h
  have := (List.nodup_append.1 hd).2.1
  rintro rfl
  exact (List.nodup_cons.1 this).1 hu

/-- C36. Trying the candidates yields a type exactly when one candidate compiles, no other does, and none stops at the
depth limit; the result is what compiling with that candidate gave. -/
theorem infers_iff (trial : Ty → Trial C E) (types : List Ty) (hd : types.Nodup) (c : C) :
    testTypes trial types = .ok c ↔
      (∃ t, OnlyOne trial types t ∧ trial t = .compiled c) ∧ ∀ t ∈ types, ¬ HitsLimit trial t := by
  unfold testTypes
  rcases testLoop_none trial types types [] with ⟨h1, h2⟩ | ⟨pre, t, post, d, v, h1, h2, h3, h4, -⟩ | ⟨pre, t, post, e, h1, h2, h3, h4⟩
  · rw [h2]
    constructor
    · intro h; split at h <;> cases h
    · rintro ⟨⟨t, ⟨ht, hc, -⟩, -⟩, -⟩
      exact absurd hc (h1 t ht).1
  · rw [h4]
    have htm : t ∈ types := by rw [h1]; simp
    rcases testLoop_some trial d post v ([] ++ rejects trial pre) with ⟨g1, g2⟩ | ⟨pre', u, post', g1, g2, g3, g4⟩ | ⟨pre', u, post', e, g1, g2, g3, g4⟩
    · rw [g1]
      have honly : ∀ x ∈ types, Compiles trial x → x = t := by
        intro x hx hxc
        rw [h1] at hx
        rcases List.mem_append.1 hx with hx | hx
        · exact absurd hxc (h3 x hx).1
        · rcases List.mem_cons.1 hx with hx | hx
          · exact hx
          · exact absurd hxc (g2 x hx).1
      constructor
      · intro h
        cases h
        refine ⟨⟨t, ⟨htm, ⟨_, h2⟩, honly⟩, h2⟩, ?_⟩
        intro x hx
        rw [h1] at hx
        rcases List.mem_append.1 hx with hx | hx
        · exact (h3 x hx).2
        · rcases List.mem_cons.1 hx with hx | hx
          · rw [hx]; simp [HitsLimit, h2]
          · exact (g2 x hx).2
      · rintro ⟨⟨x, ⟨hx, hxc, -⟩, hc⟩, -⟩
        rw [honly x hx hxc, h2] at hc
        cases hc; rfl
    · rw [g4]
      constructor
      · intro h; cases h
      · rintro ⟨⟨x, ⟨-, -, hx⟩, -⟩, -⟩
        have hup : u ∈ post := by rw [g1]; simp
        exact absurd ((hx u (by rw [h1]; simp [hup]) g2).trans (hx t htm ⟨d, h2⟩).symm) (not_once hd h1 hup)
    · rw [g4]
      constructor
      · intro h; cases h
      · rintro ⟨-, hx⟩
        exact absurd ⟨e, g2⟩ (hx u (by rw [h1, g1]; simp))
  · rw [h4]
    constructor
    · intro h; cases h
    · rintro ⟨-, hx⟩
      exact absurd ⟨e, h2⟩ (hx t (by rw [h1]; simp))

/-- C36. Whether a type is inferred, and which, does not depend on the order of the candidates. -/
theorem infers_any_order (trial : Ty → Trial C E) (types types' : List Ty) (hd : types.Nodup) (hp : types.Perm types') (c : C) :
    testTypes trial types = .ok c ↔ testTypes trial types' = .ok c := by
  rw [infers_iff trial types hd c, infers_iff trial types' (hp.nodup_iff.1 hd) c]
  simp only [OnlyOne, hp.mem_iff]

/-- C36. The four ways to fail, for candidates none of which stops at the depth limit. The types reported as ambiguous
include all that compile. -/
theorem fails_iff (trial : Ty → Trial C E) (types : List Ty) (hl : ∀ t ∈ types, ¬ HitsLimit trial t) :
    ((∀ t ∈ types, ¬ Compiles trial t) → testTypes trial types =
      if rejects trial types = [] then .error .noTypes else .error (.reduce (rejects trial types))) ∧
    ((∃ t ∈ types, ∃ u ∈ types, t ≠ u ∧ Compiles trial t ∧ Compiles trial u) →
      ∃ set, testTypes trial types = .error (.ambiguous set) ∧ ∀ t ∈ types, Compiles trial t → t ∈ set) := by
  unfold testTypes
  rcases testLoop_none trial types types [] with ⟨h1, h2⟩ | ⟨pre, t, post, d, v, h1, h2, h3, h4, h5⟩ | ⟨pre, t, post, e, h1, h2, h3, h4⟩
  · refine ⟨fun _ => by rw [h2]; simp, ?_⟩
    rintro ⟨t, ht, -, -, -, hc, -⟩
    exact absurd hc (h1 t ht).1
  · have htm : t ∈ types := by rw [h1]; simp
    refine ⟨fun h => absurd ⟨d, h2⟩ (h t htm), ?_⟩
    rintro ⟨x, hx, y, hy, hne, hxc, hyc⟩
    rw [h4]
    rcases testLoop_some trial d post v ([] ++ rejects trial pre) with ⟨g1, g2⟩ | ⟨pre', u, post', g1, g2, g3, g4⟩ | ⟨pre', u, post', e, g1, g2, g3, g4⟩
    · have honly : ∀ x ∈ types, Compiles trial x → x = t := by
        intro x hx hxc
        rw [h1] at hx
        rcases List.mem_append.1 hx with hx | hx
        · exact absurd hxc (h3 x hx).1
        · rcases List.mem_cons.1 hx with hx | hx
          · exact hx
          · exact absurd hxc (g2 x hx).1
      exact absurd ((honly x hx hxc).trans (honly y hy hyc).symm) hne
    · refine ⟨_, g4, fun z hz hzc => ?_⟩
      obtain ⟨cz, hcz⟩ := hzc
      rw [h5]
      simp [hz, hcz]
    · exact absurd ⟨e, g2⟩ (hl u (by rw [h1, g1]; simp))
  · exact absurd ⟨e, h2⟩ (hl t (by rw [h1]; simp))

/-- C36. The types a failed inference removes are ones the type graph does not accept, and no candidate compiled. -/
theorem reduce_exact (trial : Ty → Trial C E) (types rm : List Ty) (h : testTypes trial types = .error (.reduce rm)) :
    rm = rejects trial types ∧ rm ≠ [] ∧ ∀ t ∈ types, ¬ Compiles trial t := by
  unfold testTypes at h
  rcases testLoop_none trial types types [] with ⟨h1, h2⟩ | ⟨pre, t, post, d, v, h1, h2, h3, h4, h5⟩ | ⟨pre, t, post, e, h1, h2, h3, h4⟩
  · rw [h2] at h
    split at h
    · cases h
    · rename_i hr
      cases h
      exact ⟨by simp, hr, fun t ht => (h1 t ht).1⟩
  · rw [h4] at h
    rcases testLoop_some trial d post v ([] ++ rejects trial pre) with ⟨g1, g2⟩ | ⟨pre', u, post', g1, g2, g3, g4⟩ | ⟨pre', u, post', e, g1, g2, g3, g4⟩
    · rw [g1] at h; cases h
    · rw [g4] at h; cases h
    · rw [g4] at h; cases h
  · rw [h4] at h; cases h

/-- C36, the depth limit: a candidate that stops at the limit fails the whole inference. -/
theorem depth_fails (trial : Ty → Trial C E) (types : List Ty) (hd : types.Nodup) (t : Ty) (ht : t ∈ types)
    (hl : HitsLimit trial t) (c : C) : testTypes trial types ≠ .ok c :=
  fun h => ((infers_iff trial types hd c).1 h).2 t ht hl

/-- C36 is false as it stands: one candidate compiles, no other does, and yet no type is inferred, since trying another
one stops at the depth limit. -/
theorem only_one_not_inferred : ∃ (trial : Nat → Trial Unit Unit) (types : List Nat) (t : Nat), types.Nodup ∧
    OnlyOne trial types t ∧ testTypes trial types = .error (.depthLimit ()) :=
  ⟨fun t => if t = 0 then .compiled () else .depth (), [0, 1], 0, by decide, ⟨by simp, ⟨(), rfl⟩, by
    intro u hu ⟨c, hc⟩
    by_cases h : u = 0
    · exact h
    · simp [h] at hc⟩, rfl⟩

/-- The kind of failure does depend on the order: two candidates compile and a third stops at the depth limit. -/
theorem failure_kind_depends_on_order : ∃ (trial : Nat → Trial Unit Unit),
    testTypes trial [0, 1, 2] = .error (.ambiguous [0, 1, 2]) ∧ testTypes trial [0, 2, 1] = .error (.depthLimit ()) :=
  ⟨fun t => if t = 2 then .depth () else .compiled (), rfl, rfl⟩

/-- The ambiguity report can name types that do not compile: those rejected, and those not tried yet. -/
theorem ambiguity_names_failing : ∃ (trial : Nat → Trial Unit Unit),
    testTypes trial [0, 1, 2, 3] = .error (.ambiguous [0, 1, 2, 3]) ∧ ¬ Compiles trial 0 ∧ ¬ Compiles trial 3 :=
  ⟨fun t => if t = 0 then .rejected else if t = 3 then .failed else .compiled (), rfl, by simp [Compiles], by simp [Compiles]⟩

example : testTypes (C := Nat) (E := Unit) (fun t : Nat => if t = 1 then .compiled 7 else if t = 2 then .rejected else .failed) [0, 1, 2] =
    .ok 7 := rfl
example : testTypes (C := Nat) (E := Unit) (fun t : Nat => if t = 2 then .rejected else .failed) [0, 1, 2] = .error (.reduce [2]) := rfl

/-! ### Several nodes -/

/-- C36. When no node's trial stops at the depth limit: inference goes on with a new compiler iff some node has a type
inferred; otherwise the removed candidates are exactly the rejected ones of all nodes; otherwise it fails iff some node
fails. None of these depends on the order of the nodes. -/
theorem nodes_exact (test : N → Except (Err Ty E) C) : ∀ (nodes : List N) (chgs : List (N × Ty)) (err : Option (N × Err Ty E)),
    (∀ n ∈ nodes, ∀ e, test n ≠ .error (.depthLimit e)) →
    (∃ n ∈ nodes, ∃ c, test n = .ok c ∧ nodesLoop test nodes chgs err = .next c) ∨
    ((∀ n ∈ nodes, ∀ c, test n ≠ .ok c) ∧
      let all := chgs ++ nodes.flatMap fun n => match test n with | .error (.reduce ts) => ts.map fun t => (n, t) | _ => []
      (all ≠ [] → nodesLoop test nodes chgs err = .remove all) ∧
      (all = [] → (err = none ∧ (∀ n ∈ nodes, test n = .error (.reduce [])) ∧ nodesLoop test nodes chgs err = .nothing) ∨
        ∃ n e, (err = some (n, e) ∨ (n ∈ nodes ∧ test n = .error e ∧ ∀ ts, e ≠ .reduce ts)) ∧ nodesLoop test nodes chgs err = .fail n e))
  | [], chgs, err, _ => by
    refine .inr ⟨by simp, ?_⟩
    dsimp only
    refine ⟨fun h => ?_, fun h => ?_⟩
    · simp only [List.flatMap_nil, List.append_nil] at h ⊢
      simp only [nodesLoop, if_pos h]
    · simp only [List.flatMap_nil, List.append_nil] at h
      subst h
      cases err with
      | none => exact .inl ⟨rfl, by simp, rfl⟩
      | some x => exact .inr ⟨x.1, x.2, .inl rfl, rfl⟩
  | n :: ns, chgs, err, hd => by
    have hd' : ∀ m ∈ ns, ∀ e, test m ≠ .error (.depthLimit e) := fun m hm => hd m (by simp [hm])
    have hfail : ∀ e, test n = .error e → (∀ ts, e ≠ .reduce ts) → (∀ x, e ≠ .depthLimit x) →
        nodesLoop test (n :: ns) chgs err = nodesLoop test ns chgs (some (n, e)) := by
      intro e he h1 h2
      simp only [nodesLoop, he]
    cases ht : test n with
    | ok c => exact .inl ⟨n, by simp, c, ht, by simp [nodesLoop, ht]⟩
    | error e =>
      by_cases hr : ∃ ts, e = .reduce ts
      · obtain ⟨ts, rfl⟩ := hr
        have hstep : nodesLoop test (n :: ns) chgs err = nodesLoop test ns (chgs ++ ts.map fun t => (n, t)) err := by
          simp only [nodesLoop, ht]
        rcases nodes_exact test ns (chgs ++ ts.map fun t => (n, t)) err hd' with ⟨m, hm, c, h1, h2⟩ | ⟨h1, h2, h3⟩
        · exact .inl ⟨m, by simp [hm], c, h1, by rw [hstep, h2]⟩
        · refine .inr ⟨?_, ?_⟩
          · intro m hm c
            rcases List.mem_cons.1 hm with rfl | hm
            · rw [ht]; simp
            · exact h1 m hm c
          · dsimp only at h2 h3 ⊢
            simp only [List.flatMap_cons, ht, ← List.append_assoc]
            rw [hstep]
            refine ⟨h2, fun h => ?_⟩
            have hts : ts = [] := by
              simp only [List.append_eq_nil_iff, List.map_eq_nil_iff] at h
              exact h.1.2
            rcases h3 h with ⟨g1, g2, g3⟩ | ⟨m, e, g1, g2⟩
            · refine .inl ⟨g1, ?_, g3⟩
              intro m hm
              rcases List.mem_cons.1 hm with rfl | hm
              · rw [ht, hts]
              · exact g2 m hm
            · refine .inr ⟨m, e, ?_, g2⟩
              rcases g1 with g1 | ⟨g1, g⟩
              · exact .inl g1
              · exact .inr ⟨by simp [g1], g⟩
      · have hr' : ∀ ts, e ≠ .reduce ts := fun ts h => hr ⟨ts, h⟩
        have hdl : ∀ x, e ≠ .depthLimit x := fun x h => hd n (by simp) x (by rw [ht, h])
        have hstep := hfail e ht hr' hdl
        rcases nodes_exact test ns chgs (some (n, e)) hd' with ⟨m, hm, c, h1, h2⟩ | ⟨h1, h2, h3⟩
        · exact .inl ⟨m, by simp [hm], c, h1, by rw [hstep, h2]⟩
        · have hnil : (match test n with | .error (.reduce ts) => ts.map fun t => (n, t) | _ => []) = ([] : List (N × Ty)) := by
            rw [ht]
            cases e with
            | reduce ts => exact absurd rfl (hr' ts)
            | depthLimit x => rfl
            | noTypes => rfl
            | ambiguous s => rfl
          refine .inr ⟨?_, ?_⟩
          · intro m hm c
            rcases List.mem_cons.1 hm with rfl | hm
            · rw [ht]; simp
            · exact h1 m hm c
          · dsimp only at h2 h3 ⊢
            rw [List.flatMap_cons, hnil, List.nil_append, hstep]
            refine ⟨h2, fun h => ?_⟩
            rcases h3 h with ⟨g1, -⟩ | ⟨m, e', g1, g2⟩
            · cases g1
            · refine .inr ⟨m, e', ?_, g2⟩
              rcases g1 with g1 | ⟨g1, g⟩
              · cases g1; exact .inr ⟨by simp, ht, hr'⟩
              · exact .inr ⟨by simp [g1], g⟩

/-- C36. Whether inference over several nodes gets on does not depend on their order, if no trial stops at the limit. -/
theorem nodes_any_order (test : N → Except (Err Ty E) C) (nodes nodes' : List N) (hp : nodes.Perm nodes')
    (hd : ∀ n ∈ nodes, ∀ e, test n ≠ .error (.depthLimit e)) :
    (∃ c, nodesLoop test nodes [] none = .next c) ↔ (∃ c, nodesLoop test nodes' [] none = .next c) := by
  have key : ∀ ns : List N, (∀ n ∈ ns, ∀ e, test n ≠ .error (.depthLimit e)) →
      ((∃ c, nodesLoop test ns [] none = .next c) ↔ ∃ n ∈ ns, ∃ c, test n = .ok c) := by
    intro ns hns
    rcases nodes_exact test ns [] none hns with ⟨n, hn, c, h1, h2⟩ | ⟨h1, h2, h3⟩
    · exact ⟨fun _ => ⟨n, hn, c, h1⟩, fun _ => ⟨c, h2⟩⟩
    · constructor
      · rintro ⟨c, hc⟩
        by_cases ha : [] ++ ns.flatMap (fun n => match test n with | .error (.reduce ts) => ts.map fun t => (n, t) | _ => []) = ([] : List (N × Ty))
        · rcases h3 ha with ⟨-, -, g⟩ | ⟨n, e, -, g⟩ <;> (rw [g] at hc; cases hc)
        · rw [h2 ha] at hc; cases hc
      · rintro ⟨n, hn, c, hc⟩
        exact absurd hc (h1 n hn c)
  rw [key nodes hd, key nodes' fun n hn => hd n (hp.mem_iff.2 hn)]
  simp only [hp.mem_iff]

/-- C36. The loop over the nodes stops at the first node with a type inferred, so with the depth limit the order of the
nodes decides between success and failure. -/
theorem nodes_depth_depends_on_order : ∃ (test : Nat → Except (Err Nat Unit) Unit),
    inferNodes 0 (fun _ => ()) 0 test [0, 1] = .next () ∧ inferNodes 0 (fun _ => ()) 0 test [1, 0] = .fail 1 (.depthLimit ()) :=
  ⟨fun n => if n = 0 then .ok () else .error (.depthLimit ()), rfl, rfl⟩

end

/-- C36. Inference is not entered at nesting depth five or more. -/
theorem depth_bound (depth : Nat) (limit : N → E) (root : N) (test : N → Except (Err Ty E) C) (nodes : List N) :
    inferNodes depth limit root test nodes =
      if 5 ≤ depth then .fail root (.depthLimit (limit root)) else nodesLoop test nodes [] none := by
  unfold inferNodes depthOk
  by_cases h : depth < 5
  · rw [if_pos (by simpa using h), if_neg (by omega)]
  · rw [if_neg (by simpa using h), if_pos (by omega)]

/-! ### Blocks -/

/-- C36. A candidate input type of a block is removed exactly when the block does not compile with it and needs no more
information; the order does not matter. -/
theorem block_removal (attempt : Ty → Attempt) (set : List Ty) (t : Ty) :
    t ∈ blockFailures attempt set ↔
      t ∈ set ∧ (attempt t).compiled = false ∧ (attempt t).infersOutput = false ∧ (attempt t).changesLocals = false := by
  simp [blockFailures, and_assoc]

theorem block_removal_order (attempt : Ty → Attempt) (set set' : List Ty) (h : set.Perm set') :
    (blockFailures attempt set).Perm (blockFailures attempt set') := h.filter _

example : blockFailures (fun t : Nat => ⟨t == 1, t == 2, false⟩) [0, 1, 2, 3] = [0, 3] := rfl

end Verif.Infer
