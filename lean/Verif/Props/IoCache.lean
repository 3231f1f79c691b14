import Verif.Props.IoPath
/-! Properties of the file cache (C41). -/
namespace Verif.Io
variable {V : Type}

/-- What evaluation `i` has read and not stored yet, from the history alone; `o`: what it had at the start. -/
def awaiting (i : Nat) : List (Ev V) → Option (String × Ty × V) → Option (String × Ty × V)
  | [], o => o
  | .read j p ty v :: es, o => awaiting i es (if i = j then some (p, ty, v) else o)
  | .store j :: es, o => awaiting i es (if i = j then none else o)
  | .lookup _ _ :: es, o => awaiting i es o
  | .changed _ :: es, o => awaiting i es o
  | .expire _ :: es, o => awaiting i es o
  | .tick :: es, o => awaiting i es o

/-- `v` is what was read from a file whose lower-cased path is `k`: it was stored, and since then there was no change
notification for a path that is `k` in lower case, and nothing else was stored for such a path and the type. -/
def Held (lower : String → String) (evs : List (Ev V)) (k : String) (ty : Ty) (p : String) (v : V) : Prop :=
  ∃ pre i post, evs = pre ++ .store i :: post ∧ awaiting i pre none = some (p, ty, v) ∧ lower p = k ∧
    (∀ ps, Ev.changed ps ∈ post → ∀ q ∈ ps, lower q ≠ k) ∧
    ∀ b j c q w, post = b ++ .store j :: c → awaiting j (pre ++ .store i :: b) none = some (q, ty, w) → lower q ≠ k

theorem awaiting_append (i : Nat) : ∀ (a b : List (Ev V)) (o : Option (String × Ty × V)),
    awaiting i (a ++ b) o = awaiting i b (awaiting i a o)
  | [], _, _ => rfl
  | .read .. :: a, b, o => awaiting_append i a b _
  | .store _ :: a, b, o => awaiting_append i a b _
  | .lookup .. :: a, b, o => awaiting_append i a b _
  | .changed _ :: a, b, o => awaiting_append i a b _
  | .expire _ :: a, b, o => awaiting_append i a b _
  | .tick :: a, b, o => awaiting_append i a b _

theorem crun_snoc (lower : String → String) (evs : List (Ev V)) (e : Ev V) :
    crun lower (evs ++ [e]) = cstep lower (crun lower evs) e := by
  simp [crun, List.foldl_append]

theorem snoc_ind {P : List (Ev V) → Prop} (h0 : P []) (h1 : ∀ l e, P l → P (l ++ [e])) (l : List (Ev V)) : P l := by
  have : ∀ l : List (Ev V), P l.reverse := by
    intro l
    induction l with
    | nil => exact h0
    | cons e l ih => rw [List.reverse_cons]; exact h1 _ _ ih
  simpa using this l.reverse

theorem pending_awaiting (lower : String → String) (evs : List (Ev V)) (i : Nat) :
    (crun lower evs).pending i = awaiting i evs none := by
  refine snoc_ind (P := fun evs => ∀ i, (crun lower evs).pending i = awaiting i evs none) (fun i => rfl) ?_ evs i
  intro l e ih i
  rw [crun_snoc, awaiting_append]
  cases e with
  | read j p ty v =>
    simp only [cstep, awaiting, ← ih]
  | store j =>
    simp only [cstep, awaiting, ← ih]
    cases hp : (crun lower l).pending j with
    | none =>
      by_cases hij : i = j
      · subst hij; simp [hp]
      · simp [hij]
    | some x => simp
  | lookup p ty => simp only [cstep, awaiting, ← ih]
  | changed ps => simp only [cstep, awaiting, ← ih]
  | expire a => simp only [cstep, awaiting, ← ih]
  | tick => simp only [cstep, awaiting, ← ih]

theorem held_snoc {lower : String → String} {evs : List (Ev V)} {k : String} {ty : Ty} {p : String} {v : V} (e : Ev V)
    (h : Held lower evs k ty p v) (hc : ∀ ps, e = .changed ps → ∀ q ∈ ps, lower q ≠ k)
    (hs : ∀ j q w, e = .store j → awaiting j evs none = some (q, ty, w) → lower q ≠ k) : Held lower (evs ++ [e]) k ty p v := by
  obtain ⟨pre, i, post, h1, h2, h3, h4, h5⟩ := h
  refine ⟨pre, i, post ++ [e], by simp [h1], h2, h3, ?_, ?_⟩
  · intro ps hps q hq
    rcases List.mem_append.1 hps with hps | hps
    · exact h4 ps hps q hq
    · simp only [List.mem_singleton] at hps
      exact hc ps hps.symm q hq
  · intro b j c q w hb ha
    rcases List.eq_nil_or_concat c with rfl | ⟨c', x, rfl⟩
    · have := List.append_inj' hb rfl
      obtain ⟨hb1, hb2⟩ := this
      simp only [List.cons.injEq, and_true] at hb2
      subst hb1 hb2
      exact hs j q w rfl (by rw [h1]; exact ha)
    · have hb' : post ++ [e] = (b ++ .store j :: c') ++ [x] := by simpa using hb
      exact h5 b j c' q w (List.append_inj' hb' rfl).1 ha

/-- Every entry of the cache is held, and of the type it is filed under. -/
theorem cache_inv (lower : String → String) (evs : List (Ev V)) :
    ∀ e ∈ (crun lower evs).cache, e.valTy = e.ty ∧ ∃ p, Held lower evs e.key e.ty p e.val := by
  refine snoc_ind (P := fun evs => ∀ e ∈ (crun lower evs).cache, e.valTy = e.ty ∧ ∃ p, Held lower evs e.key e.ty p e.val)
    (by simp [crun]) ?_ evs
  intro l e ih x hx
  rw [crun_snoc] at hx
  have keep : ∀ y ∈ (crun lower l).cache, (∀ ps, e = .changed ps → ∀ q ∈ ps, lower q ≠ y.key) →
      (∀ j q w, e = .store j → awaiting j l none = some (q, y.ty, w) → lower q ≠ y.key) →
      y.valTy = y.ty ∧ ∃ p, Held lower (l ++ [e]) y.key y.ty p y.val := by
    intro y hy h1 h2
    obtain ⟨g1, p, g2⟩ := ih y hy
    exact ⟨g1, p, held_snoc e g2 h1 h2⟩
  cases e with
  | read j p ty v => exact keep x hx (by simp) (by simp)
  | tick => exact keep x hx (by simp) (by simp)
  | expire a =>
    simp only [cstep, cexpire, List.mem_filter] at hx
    exact keep x hx.1 (by simp) (by simp)
  | changed ps =>
    simp only [cstep, cremove] at hx
    by_cases hps : ps = []
    · rw [if_pos hps] at hx
      exact keep x hx (by rintro ps' h q hq; cases h; rw [hps] at hq; cases hq) (by simp)
    · rw [if_neg hps, List.mem_filter] at hx
      refine keep x hx.1 ?_ (by simp)
      rintro ps' h q hq rfl'
      cases h
      have := hx.2
      simp only [Bool.not_eq_eq_eq_not, Bool.not_true, List.contains_eq_mem, decide_eq_false_iff_not, List.mem_map,
        not_exists, not_and] at this
      exact this q hq rfl'
  | lookup p ty =>
    simp only [cstep, cget] at hx
    cases hf : (crun lower l).cache.find? fun e => e.key == lower p && e.ty == ty with
    | none => rw [hf] at hx; exact keep x hx (by simp) (by simp)
    | some y =>
      rw [hf] at hx
      simp only [List.mem_map] at hx
      obtain ⟨z, hz, rfl⟩ := hx
      have := keep z hz (by simp) (by simp)
      split <;> exact this
  | store j =>
    simp only [cstep] at hx
    cases hp : (crun lower l).pending j with
    | none =>
      rw [hp] at hx
      refine keep x hx (by simp) ?_
      intro j' q w h ha
      cases h
      rw [← pending_awaiting lower, hp] at ha
      cases ha
    | some y =>
      obtain ⟨p, ty, v⟩ := y
      rw [hp] at hx
      simp only [cinsert, List.mem_cons, List.mem_filter] at hx
      rcases hx with rfl | ⟨hx, hne⟩
      · refine ⟨rfl, p, l, j, [], rfl, by rw [← pending_awaiting lower, hp], rfl, by simp, ?_⟩
        intro b j' c q w h
        simp at h
      · refine keep x hx (by simp) ?_
        intro j' q w h ha hk
        cases h
        rw [← pending_awaiting lower, hp] at ha
        obtain ⟨rfl, h2⟩ := Prod.mk.inj (Option.some.inj ha)
        obtain ⟨rfl, -⟩ := Prod.mk.inj h2
        rw [hk] at hne
        simp at hne

/-- What a lookup finds. -/
def hit (lower : String → String) (evs : List (Ev V)) (p : String) (ty : Ty) : Option V :=
  (cget lower (crun lower evs).cache (crun lower evs).now p ty).2

/-- C41, up to case: what `open` takes from the cache was read, as the type asked for, from a file whose path is the
same in lower case; since it was stored there was no change notification for such a path, and nothing newer was stored. -/
theorem cache_hit (lower : String → String) (evs : List (Ev V)) (p : String) (ty : Ty) (v : V)
    (h : hit lower evs p ty = some v) : ∃ q, Held lower evs (lower p) ty q v := by
  simp only [hit, cget] at h
  cases hf : (crun lower evs).cache.find? fun e => e.key == lower p && e.ty == ty with
  | none => rw [hf] at h; cases h
  | some e =>
    rw [hf] at h
    have hm := List.mem_of_find?_eq_some hf
    have hp := List.find?_some hf
    simp only [Bool.and_eq_true, beq_iff_eq] at hp
    obtain ⟨g1, q, g2⟩ := cache_inv lower evs e hm
    rw [hp.1, hp.2] at g2
    dsimp only at h
    split at h
    · cases h; exact ⟨q, g2⟩
    · cases h

/-- `v` was read from the file `p` as `ty`, and since then there was no change notification for `p` and no other reading
of `p` as `ty` was stored. -/
def LastRead (evs : List (Ev V)) (p : String) (ty : Ty) (v : V) : Prop :=
  ∃ pre i mid post, evs = pre ++ .read i p ty v :: mid ++ .store i :: post ∧ awaiting i mid (some (p, ty, v)) = some (p, ty, v) ∧
    (∀ ps, Ev.changed ps ∈ mid ++ .store i :: post → p ∉ ps) ∧
    ∀ b j c w, post = b ++ .store j :: c → awaiting j (pre ++ .read i p ty v :: mid ++ .store i :: b) none ≠ some (p, ty, w)

theorem awaiting_read (i : Nat) : ∀ (l : List (Ev V)) (o : Option (String × Ty × V)) (x : String × Ty × V),
    awaiting i l o = some x →
    (o = some x ∧ awaiting i l (some x) = some x) ∨
      ∃ pre mid, l = pre ++ .read i x.1 x.2.1 x.2.2 :: mid ∧ awaiting i mid (some x) = some x
  | [], o, x, h => .inl ⟨h, rfl⟩
  | .read j p ty v :: l, o, x, h => by
    simp only [awaiting] at h
    rcases awaiting_read i l _ x h with ⟨h1, h2⟩ | ⟨pre, mid, h1, h2⟩
    · by_cases hij : i = j
      · rw [if_pos hij] at h1
        cases h1
        exact .inr ⟨[], l, by simp [hij], h2⟩
      · rw [if_neg hij] at h1
        exact .inl ⟨h1, by simp [awaiting, if_neg hij, h2]⟩
    · exact .inr ⟨_ :: pre, mid, by rw [h1]; rfl, h2⟩
  | .store j :: l, o, x, h => by
    simp only [awaiting] at h
    rcases awaiting_read i l _ x h with ⟨h1, h2⟩ | ⟨pre, mid, h1, h2⟩
    · by_cases hij : i = j
      · rw [if_pos hij] at h1; cases h1
      · rw [if_neg hij] at h1
        exact .inl ⟨h1, by simp [awaiting, if_neg hij, h2]⟩
    · exact .inr ⟨_ :: pre, mid, by rw [h1]; rfl, h2⟩
  | .lookup .. :: l, o, x, h => by
    rcases awaiting_read i l _ x h with h1 | ⟨pre, mid, h1, h2⟩
    · exact .inl h1
    · exact .inr ⟨_ :: pre, mid, by rw [h1]; rfl, h2⟩
  | .changed _ :: l, o, x, h => by
    rcases awaiting_read i l _ x h with h1 | ⟨pre, mid, h1, h2⟩
    · exact .inl h1
    · exact .inr ⟨_ :: pre, mid, by rw [h1]; rfl, h2⟩
  | .expire _ :: l, o, x, h => by
    rcases awaiting_read i l _ x h with h1 | ⟨pre, mid, h1, h2⟩
    · exact .inl h1
    · exact .inr ⟨_ :: pre, mid, by rw [h1]; rfl, h2⟩
  | .tick :: l, o, x, h => by
    rcases awaiting_read i l _ x h with h1 | ⟨pre, mid, h1, h2⟩
    · exact .inl h1
    · exact .inr ⟨_ :: pre, mid, by rw [h1]; rfl, h2⟩

/-- The paths that occur in a history. -/
def paths : List (Ev V) → List String
  | [] => []
  | .read _ p _ _ :: es => p :: paths es
  | .changed ps :: es => ps ++ paths es
  | .lookup p _ :: es => p :: paths es
  | _ :: es => paths es

theorem paths_append : ∀ (a b : List (Ev V)), paths (a ++ b) = paths a ++ paths b
  | [], _ => rfl
  | .read .. :: a, b => by simp [paths, paths_append a b]
  | .store _ :: a, b => by simpa [paths] using paths_append a b
  | .lookup .. :: a, b => by simp [paths, paths_append a b]
  | .changed _ :: a, b => by simp [paths, paths_append a b]
  | .expire _ :: a, b => by simpa [paths] using paths_append a b
  | .tick :: a, b => by simpa [paths] using paths_append a b

theorem changed_paths {ps : List String} {q : String} (hq : q ∈ ps) : ∀ (l : List (Ev V)), Ev.changed ps ∈ l → q ∈ paths l
  | e :: l, h => by
    rcases List.mem_cons.1 h with rfl | h
    · simp [paths, hq]
    · have := changed_paths hq l h
      cases e <;> simp [paths, this]

/-- C41, for paths that stay apart in lower case, when no change notification for a file comes between reading it and
storing what was read: a hit is what was last read from that very file, as that very type, since the last change
notification for it. -/
theorem cache_hit_partial (lower : String → String) (evs : List (Ev V)) (p : String) (ty : Ty) (v : V)
    (hinj : ∀ q ∈ paths evs, lower q = lower p → q = p)
    (hprompt : ∀ a i q t w b c, evs = a ++ .read i q t w :: b ++ .store i :: c → awaiting i b (some (q, t, w)) = some (q, t, w) →
      ∀ ps, Ev.changed ps ∈ b → q ∉ ps)
    (h : hit lower evs p ty = some v) : LastRead evs p ty v := by
  obtain ⟨q, pre, i, post, h1, h2, h3, h4, h5⟩ := cache_hit lower evs p ty v h
  rcases awaiting_read i pre none (q, ty, v) h2 with ⟨g, -⟩ | ⟨pre', mid, g1, g2⟩
  · cases g
  · have hq : q = p := by
      apply hinj q _ h3
      rw [h1, g1, paths_append, paths_append]
      simp [paths]
    subst hq
    dsimp only at g1 g2
    refine ⟨pre', i, mid, post, by rw [h1, g1], g2, ?_, ?_⟩
    · intro ps hps hin
      rcases List.mem_append.1 hps with hps | hps
      · exact hprompt pre' i q ty v mid post (by rw [h1, g1]) g2 ps hps hin
      · rcases List.mem_cons.1 hps with hps | hps
        · cases hps
        · exact h4 ps hps q hin rfl
    · intro b j c w hb ha
      exact h5 b j c q w hb (by rw [g1]; exact ha) rfl

example : LastRead [.read 0 "g" .str "x", .read 1 "f" .str "one", .store 1, .lookup "f" .str, .store 0] "f" .str "one" := by
  refine cache_hit_partial id _ "f" .str "one" (fun q _ h => h) ?_ (by decide +kernel)
  intro a i q t w b c h _ ps hps
  have : Ev.changed ps ∈ a ++ .read i q t w :: b ++ .store i :: c := by simp [hps]
  rw [← h] at this
  simp at this

/-- C41. A table is never returned for a text request or the other way round: what is found was read as the type asked
for. -/
theorem cache_type (lower : String → String) (evs : List (Ev V)) (p : String) (ty : Ty) (v : V)
    (h : hit lower evs p ty = some v) : ∃ i q, Ev.read i q ty v ∈ evs := by
  obtain ⟨q, pre, i, post, h1, h2, -⟩ := cache_hit lower evs p ty v h
  rcases awaiting_read i pre none (q, ty, v) h2 with ⟨g, -⟩ | ⟨pre', mid, g1, -⟩
  · cases g
  · exact ⟨i, q, by rw [h1, g1]; simp⟩

/-- The cache does hold what was stored, until it expires or is removed. -/
theorem cache_keeps (lower : String → String) (pre : List (Ev V)) (i : Nat) (p : String) (ty : Ty) (v : V)
    (ha : awaiting i pre none = some (p, ty, v)) : ∀ (post : List (Ev V)),
    (∀ e ∈ post, (∀ a, e ≠ .expire a) ∧ (∀ j, e ≠ .store j) ∧ ∀ ps, e = .changed ps → ∀ q ∈ ps, lower q ≠ lower p) →
    hit lower (pre ++ .store i :: post) p ty = some v := by
  intro post hpost
  have key : ∀ post : List (Ev V),
      (∀ e ∈ post, (∀ a, e ≠ .expire a) ∧ (∀ j, e ≠ .store j) ∧ ∀ ps, e = .changed ps → ∀ q ∈ ps, lower q ≠ lower p) →
      ∃ e, (crun lower (pre ++ .store i :: post)).cache.find? (fun e => e.key == lower p && e.ty == ty) = some e ∧ e.val = v ∧ e.valTy = ty := by
    intro post
    refine snoc_ind (P := fun post => (∀ e ∈ post, (∀ a, e ≠ .expire a) ∧ (∀ j, e ≠ .store j) ∧ ∀ ps, e = .changed ps → ∀ q ∈ ps, lower q ≠ lower p) →
      ∃ e, (crun lower (pre ++ .store i :: post)).cache.find? (fun e => e.key == lower p && e.ty == ty) = some e ∧ e.val = v ∧ e.valTy = ty) ?_ ?_ post
    · intro _
      rw [crun_snoc]
      simp only [cstep, pending_awaiting, ha, cinsert]
      exact ⟨⟨lower p, ty, ty, v, (crun lower pre).now⟩, by simp, rfl, rfl⟩
    · intro l e ih h
      obtain ⟨x, h1, h2, h3⟩ := ih fun e' he => h e' (by simp [he])
      have he := h e (by simp)
      have hl : pre ++ .store i :: (l ++ [e]) = (pre ++ .store i :: l) ++ [e] := by simp
      rw [hl, crun_snoc]
      cases e with
      | read j q t w => exact ⟨x, h1, h2, h3⟩
      | tick => exact ⟨x, h1, h2, h3⟩
      | expire a => exact absurd rfl (he.1 a)
      | store j => exact absurd rfl (he.2.1 j)
      | changed ps =>
        simp only [cstep, cremove]
        by_cases hps : ps = []
        · rw [if_pos hps]; exact ⟨x, h1, h2, h3⟩
        · rw [if_neg hps]
          refine ⟨x, ?_, h2, h3⟩
          rw [List.find?_filter]
          rw [← h1]
          refine congrArg (fun f => List.find? f _) (funext fun y => ?_)
          by_cases hk : y.key = lower p
          · have : ((ps.map lower).contains y.key) = false := by
              simp only [List.contains_eq_mem, decide_eq_false_iff_not, List.mem_map, not_exists, not_and]
              intro q hq e
              exact he.2.2 ps rfl q hq (e.trans hk)
            rw [this]; simp; rfl
          · simp [hk]
      | lookup q t =>
        simp only [cstep, cget]
        cases hf : (crun lower (pre ++ .store i :: l)).cache.find? fun e => e.key == lower q && e.ty == t with
        | none => exact ⟨x, h1, h2, h3⟩
        | some y =>
          dsimp only
          rw [List.find?_map]
          have : ((fun e : Entry V => e.key == lower p && e.ty == ty) ∘ fun e => if (e.key == lower q && e.ty == t) = true then { e with time := (crun lower (pre ++ .store i :: l)).now } else e) =
              fun e : Entry V => e.key == lower p && e.ty == ty := by
            funext e
            simp only [Function.comp]
            split <;> rfl
          rw [this, h1]
          by_cases hx : (x.key == lower q && x.ty == t) = true
          · exact ⟨{ x with time := (crun lower (pre ++ .store i :: l)).now }, by simp only [Option.map_some, if_pos hx], h2, h3⟩
          · exact ⟨x, by simp only [Option.map_some, if_neg hx], h2, h3⟩
  obtain ⟨e, h1, h2, h3⟩ := key post hpost
  simp only [hit, cget, h1, h2, h3, if_true]

theorem crun_ticks (lower : String → String) (l : List (Ev V)) : ∀ n,
    crun lower (l ++ List.replicate n .tick) = { crun lower l with now := (crun lower l).now + n }
  | 0 => by simp
  | n + 1 => by
    have : l ++ List.replicate (n + 1) (.tick : Ev V) = (l ++ List.replicate n .tick) ++ [.tick] := by
      rw [List.replicate_succ', List.append_assoc]
    rw [this, crun_snoc, crun_ticks lower l n]
    rfl

/-- The cleaner removes what has not been used for the given time, and nothing younger. -/
theorem cache_expires (lower : String → String) (pre : List (Ev V)) (i : Nat) (p : String) (ty : Ty) (v : V)
    (ha : awaiting i pre none = some (p, ty, v)) (n age : Nat) :
    hit lower ((pre ++ [.store i]) ++ List.replicate n .tick ++ [.expire age]) p ty = if n < age then some v else none := by
  rw [hit, crun_snoc, crun_ticks, crun_snoc]
  simp only [cstep, pending_awaiting, ha, cinsert, cexpire, cget]
  rw [List.find?_filter, List.find?_cons]
  by_cases h : n < age
  · simp [h]
  · have hn : (List.filter (fun e : Entry V => !(e.key == lower p && e.ty == ty)) (crun lower pre).cache).find?
        (fun a => decide (decide ((crun lower pre).now + n - a.time < age) = true ∧ (a.key == lower p && a.ty == ty) = true)) = none := by
      rw [List.find?_eq_none]
      intro x hx
      have := (List.mem_filter.1 hx).2
      simp only [Bool.not_eq_true'] at this
      simp [this]
    have hd : ¬ ((crun lower pre).now + n - (crun lower pre).now < age) := by omega
    simp only [decide_eq_false hd]
    rw [hn]
    simp [h]

/-- C41 is false of two files whose names differ in case only: `open B` gives the contents of `b`. -/
theorem case_confuses_files : ∃ lower : String → String,
    hit lower [.read 0 "b" .str "contents of b", .store 0] "B" .str = some "contents of b" :=
  ⟨fun s => if s = "B" then "b" else s, by decide +kernel⟩

/-- C41 is false when a file changes, and the change is noticed, between reading it and storing what was read: the old
contents are returned from then on. -/
theorem stale_after_change : ∀ lower : String → String,
    hit lower [.read 0 "f" .str "old", .changed ["f"], .store 0] "f" .str = some "old" := by
  intro lower
  simp [hit, crun, cstep, cget, cinsert, cremove]

/-- A change notification for a directory, such as after renaming it, does not remove the files in it. -/
theorem directory_change_ignored : ∀ lower : String → String, lower "d" ≠ lower "d/f" →
    hit lower [.read 0 "d/f" .str "old", .store 0, .changed ["d"]] "d/f" .str = some "old" := by
  intro lower h
  have h' : ¬ lower "d/f" = lower "d" := fun e => h e.symm
  simp [hit, crun, cstep, cget, cinsert, cremove, h']

example : hit id [.read 0 "f" .str "one", .store 0, .lookup "f" .str, .changed ["f"], .read 1 "f" .str "two", .store 1, .tick] "f" .str =
    some "two" ∧ hit id [.read 0 "f" .str "one", .store 0, .changed ["g", "f"]] "f" .str = none ∧
    hit id [.read 0 "f" .str "one", .store 0] "f" .tab = none := by
  decide +kernel

end Verif.Io
