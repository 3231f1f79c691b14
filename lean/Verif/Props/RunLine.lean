import Verif.Spec.RunLine
import Verif.Props.Batch
import Verif.Props.File
import Verif.Lemmas.Enter
/-! C90: `run` in the shell. -/
namespace Verif.RunLine
open Verif

/-! ### Removing flags -/

/-- What follows a word: nothing or a blank. -/
def Begins (r : Text) : Prop := ∀ c s, r = c :: s → c = ' '

theorem prefix_word : ∀ {w p r : Text}, ' ' ∉ w → Begins r → w <+: p ++ r → w <+: p
  | [], _, _, _, _, _ => List.nil_prefix
  | x :: w, [], r, hw, hr, h => by
    obtain ⟨t, e⟩ := h
    exact absurd (hr x (w ++ t) e.symm) fun e => hw (e ▸ List.mem_cons_self)
  | x :: w, y :: p, r, hw, hr, h => by
    rw [List.cons_append, List.cons_prefix_cons] at h
    exact List.cons_prefix_cons.2 ⟨h.1, prefix_word (fun e => hw (List.mem_cons_of_mem _ e)) hr h.2⟩

theorem prefix_flag {w p r : Text} (hw : ' ' ∉ w) (hr : Begins r) (hp : p ≠ []) (h : (' ' :: w) <+: p ++ r) : (' ' :: w) <+: p := by
  cases p with
  | nil => exact absurd rfl hp
  | cons c p =>
    rw [List.cons_append, List.cons_prefix_cons] at h
    exact List.cons_prefix_cons.2 ⟨h.1, prefix_word hw hr h.2⟩

theorem infix_append {w p r : Text} (hw : ' ' ∉ w) (hr : Begins r) : (' ' :: w) <:+: p ++ r ↔ (' ' :: w) <:+: p ∨ (' ' :: w) <:+: r := by
  induction p with
  | nil =>
    refine ⟨.inr, ?_⟩
    rintro (h | h)
    · exact absurd (List.eq_nil_of_infix_nil h) (by simp)
    · exact h
  | cons c p ih =>
    rw [List.cons_append, List.infix_cons_iff, ih, List.infix_cons_iff]
    constructor
    · rintro (h | h | h)
      · exact .inl (.inl (prefix_flag (p := c :: p) hw hr (by simp) h))
      · exact .inl (.inr h)
      · exact .inr h
    · rintro ((h | h) | h)
      · exact .inl (h.trans (List.prefix_append (c :: p) r))
      · exact .inr (.inl h)
      · exact .inr (.inr h)

theorem remove_append {w p r : Text} (hw : ' ' ∉ w) (hr : Begins r) (hp : ¬ (' ' :: w) <:+: p) : remove (' ' :: w) 0 (p ++ r) = p ++ remove (' ' :: w) 0 r := by
  induction p with
  | nil => rfl
  | cons c p ih =>
    rw [List.infix_cons_iff, not_or] at hp
    rw [List.cons_append]
    conv => lhs; unfold remove
    rw [if_neg, ih hp.2]
    · rfl
    · rw [List.isPrefixOf_iff_prefix]
      exact fun h => hp.1 (prefix_flag (p := c :: p) hw hr (by simp) h)

theorem remove_skip (f : Text) : ∀ (w r : Text), remove f w.length (w ++ r) = remove f 0 r
  | [], _ => rfl
  | _ :: w, r => remove_skip f w r

theorem remove_self (w r : Text) : remove (' ' :: w) 0 ((' ' :: w) ++ r) = remove (' ' :: w) 0 r := by
  rw [List.cons_append]
  conv => lhs; unfold remove
  rw [if_pos]
  · exact remove_skip _ w r
  · rw [List.isPrefixOf_iff_prefix]
    exact List.prefix_append (' ' :: w) r

/-! ### The flags -/

/-- A flag without its blank. -/
def Flag.word : Flag → Text
  | .noPar => parFlag.tail
  | .noFastFail => failFlag.tail

theorem flag_word (f : Flag) : f.text = ' ' :: f.word ∧ ' ' ∉ f.word := by
  cases f <;> decide +kernel

theorem flag_infix (f g : Flag) : f.text <:+: g.text ↔ f = g := by
  rw [← Enter.contains_iff]
  cases f <;> cases g <;> decide +kernel

theorem begins_flags (fs : List Flag) : Begins (fs.flatMap Flag.text) := by
  intro c s h
  cases fs with
  | nil => cases h
  | cons f fs =>
    rw [List.flatMap_cons, (flag_word f).1] at h
    cases h
    rfl

theorem flag_in (f : Flag) (fs : List Flag) : f.text <:+: fs.flatMap Flag.text ↔ f ∈ fs := by
  induction fs with
  | nil =>
    rw [(flag_word f).1]
    simp
  | cons g fs ih =>
    have h := infix_append (p := g.text) (flag_word f).2 (begins_flags fs)
    rw [← (flag_word f).1] at h
    rw [List.flatMap_cons, h, flag_infix, ih, List.mem_cons]

theorem flag_written {path : Text} (hp : Plain path) (f : Flag) (fs : List Flag) : f.text <:+: written path fs ↔ f ∈ fs := by
  have h := infix_append (p := path) (flag_word f).2 (begins_flags fs)
  rw [← (flag_word f).1] at h
  unfold written
  rw [h, flag_in]
  exact ⟨fun h => h.resolve_left (hp f), .inr⟩

theorem remove_flags (f : Flag) (fs : List Flag) : remove f.text 0 (fs.flatMap Flag.text) = (fs.filter (· ≠ f)).flatMap Flag.text := by
  induction fs with
  | nil => rfl
  | cons g fs ih =>
    rw [List.flatMap_cons]
    by_cases e : g = f
    · subst e
      rw [List.filter_cons_of_neg (by simp), ← ih, (flag_word g).1]
      exact remove_self _ _
    · rw [List.filter_cons_of_pos (by simpa using e), List.flatMap_cons, ← ih]
      have h := remove_append (p := g.text) (flag_word f).2 (begins_flags fs)
      rw [← (flag_word f).1] at h
      exact h fun h => e ((flag_infix f g).1 h).symm

theorem remove_written {path : Text} (hp : Plain path) (f : Flag) (fs : List Flag) :
    remove f.text 0 (written path fs) = written path (fs.filter (· ≠ f)) := by
  have h := remove_append (p := path) (flag_word f).2 (begins_flags fs)
  rw [← (flag_word f).1] at h
  unfold written
  rw [h (hp f), remove_flags]

theorem cut_written {path : Text} (hp : Plain path) (f : Flag) (fs : List Flag) :
    cut f.text (written path fs) = (written path (fs.filter (· ≠ f)), decide (f ∈ fs)) := by
  unfold cut
  by_cases h : f ∈ fs
  · rw [if_pos (Enter.contains_iff.2 ((flag_written hp f fs).2 h)), remove_written hp, decide_eq_true h]
  · rw [if_neg (fun e => h ((flag_written hp f fs).1 (Enter.contains_iff.1 e))), decide_eq_false h, List.filter_eq_self.2]
    intro g hg
    simpa using fun e : g = f => h (e ▸ hg)

/-- The path is what is written before the flags; which flags are there is seen, in any order. -/
theorem flags_seen_partial {path : Text} (hp : Plain path) (fs : List Flag) :
    asked (written path fs) = ⟨path, decide (.noPar ∈ fs), decide (.noFastFail ∈ fs)⟩ := by
  have e1 : parFlag = Flag.text .noPar := by decide +kernel
  have e2 : failFlag = Flag.text .noFastFail := by decide +kernel
  unfold asked
  rw [e1, e2]
  dsimp only
  rw [cut_written hp, cut_written hp]
  have h : (fs.filter (· ≠ .noPar)).filter (· ≠ .noFastFail) = [] := by
    rw [List.filter_filter, List.filter_eq_nil_iff]
    intro g _
    cases g <;> simp
  rw [h]
  have h2 : (decide (.noFastFail ∈ fs.filter (· ≠ .noPar))) = decide (.noFastFail ∈ fs) := by
    simp
  rw [h2]
  unfold written
  simp

/-- What is processed is the file of that path, as it says but for the flags. -/
theorem file_loaded_partial {k : File.Classes} {head : Text → Bool} {files : Text → Option Text} {path : Text} (hp : Plain path) (fs : List Flag) :
    (∀ b', load k head files (written path fs) = .ok b' ↔
      ∃ s b, files path = some s ∧ File.parseStr k head s = .ok b ∧ Flagged fs b b') ∧
    (load k head files (written path fs) = .error .io ↔ files path = none) := by
  unfold load
  rw [flags_seen_partial hp]
  dsimp only
  cases hf : files path with
  | none =>
    refine ⟨fun b' => ⟨fun e => (by cases e), ?_⟩, fun _ => rfl, fun _ => rfl⟩
    rintro ⟨s, b, e, _⟩
    cases e
  | some s =>
    dsimp only
    cases hs : File.parseStr k head s with
    | error e =>
      refine ⟨fun b' => ⟨fun e => (by cases e), ?_⟩, fun e => (by cases e), fun e => (by cases e)⟩
      rintro ⟨s', b, e1, e2, _⟩
      cases e1
      rw [hs] at e2
      cases e2
    | ok b =>
      dsimp only
      refine ⟨fun b' => ⟨fun e => ?_, ?_⟩, fun e => (by cases e), fun e => (by cases e)⟩
      · cases e
        refine ⟨s, b, rfl, hs, rfl, ?_, ?_⟩
        · unfold settle
          by_cases h : Flag.noPar ∈ fs <;> simp [h]
        · unfold settle
          by_cases h : Flag.noFastFail ∈ fs <;> simp [h]
      · rintro ⟨s', b2, e1, e2, h1, h2, h3⟩
        cases e1
        rw [hs] at e2
        cases e2
        obtain ⟨i', p', f'⟩ := b'
        unfold settle
        dsimp only at h1 h2 h3 ⊢
        subst h1
        have a1 : (if decide (Flag.noPar ∈ fs) = true then false else b.parallelise) = p' := by
          by_cases h : Flag.noPar ∈ fs <;> simp [h] at h2 ⊢ <;> rw [Bool.eq_iff_iff] <;> simp [h2]
        have a2 : (if decide (Flag.noFastFail ∈ fs) = true then false else b.failFast) = f' := by
          by_cases h : Flag.noFastFail ∈ fs <;> simp [h] at h3 ⊢ <;> rw [Bool.eq_iff_iff] <;> simp [h3]
        rw [a1, a2]

/-! ### The report -/

theorem filterMap_places {α β : Type} (g : α → Option β) : ∀ (l : List α), ∃ js : List Nat, js.Pairwise (· < ·) ∧
    (∀ j : Nat, j ∈ js ↔ ∃ x y, l[j]? = some x ∧ g x = some y) ∧ (l.filterMap g).length = js.length ∧
    ∀ (n j : Nat), js[n]? = some j → ∃ x y, l[j]? = some x ∧ g x = some y ∧ (l.filterMap g)[n]? = some y
  | [] => ⟨[], .nil, fun j => by simp, rfl, fun n j h => by simp at h⟩
  | x :: l => by
    obtain ⟨js, h1, h2, h3, h4⟩ := filterMap_places g l
    have hs : (js.map (· + 1)).Pairwise (· < ·) := List.pairwise_map.2 (h1.imp fun h => Nat.succ_lt_succ h)
    have hm : ∀ j : Nat, j + 1 ∈ js.map (· + 1) ↔ ∃ y z, l[j]? = some y ∧ g y = some z := fun j => by
      rw [← h2, List.mem_map]
      constructor
      · rintro ⟨i, hi, e⟩
        have : i = j := by omega
        exact this ▸ hi
      · exact fun hi => ⟨j, hi, rfl⟩
    cases hg : g x with
    | none =>
      refine ⟨js.map (· + 1), hs, fun j => ?_, by simp [hg, h3], fun n j hn => ?_⟩
      · cases j with
        | zero => simp [hg]
        | succ j => rw [hm]; simp
      · rw [List.getElem?_map] at hn
        cases hj : js[n]? with
        | none => rw [hj] at hn; cases hn
        | some i =>
          rw [hj] at hn
          cases hn
          obtain ⟨y, z, a1, a2, a3⟩ := h4 n i hj
          exact ⟨y, z, by simpa using a1, a2, by rw [List.filterMap_cons_none hg]; exact a3⟩
    | some b =>
      refine ⟨0 :: js.map (· + 1), List.pairwise_cons.2 ⟨fun j hj => ?_, hs⟩, fun j => ?_, by simp [hg, h3], fun n j hn => ?_⟩
      · obtain ⟨i, _, e⟩ := List.mem_map.1 hj
        omega
      · cases j with
        | zero => simp [hg]
        | succ j =>
          rw [List.mem_cons, hm]
          simp
      · rw [List.filterMap_cons_some hg]
        cases n with
        | zero =>
          cases hn
          exact ⟨x, b, rfl, hg, rfl⟩
        | succ n =>
          have hn : (js.map (· + 1))[n]? = some j := hn
          rw [List.getElem?_map] at hn
          cases hj : js[n]? with
          | none => rw [hj] at hn; cases hn
          | some i =>
            rw [hj] at hn
            cases hn
            obtain ⟨y, z, a1, a2, a3⟩ := h4 n i hj
            exact ⟨y, z, by simpa using a1, a2, by simpa using a3⟩

variable {D E T : Type}

theorem says_mark (o : Batch.Outcome E) (t : T) : Says o (mark (o, t)) := by
  cases o
  · exact .success t
  · exact .failed _ t
  · exact .outstanding
  · exact .cancelled

/-- With an outcome and a time for each item, the report tells all of them. -/
theorem report_tells {items : List File.BatchItem} {outs : List (Batch.Outcome E)} {ts : List T} (ho : outs.length = items.length) (ht : ts.length = items.length) :
    Tells items outs (report items (outs.zip ts)) := by
  have hz : ∀ i : Nat, ∀ it o, items[i]? = some it → outs[i]? = some o → ∃ t, (items.zip (outs.zip ts))[i]? = some (it, o, t) := by
    intro i it o h1 h2
    have hl := (List.getElem?_eq_some_iff.1 h1).1
    have h3 : ts[i]? = some (ts[i]'(ht ▸ hl)) := List.getElem?_eq_getElem _
    exact ⟨_, List.getElem?_zip_eq_some.2 ⟨h1, List.getElem?_zip_eq_some.2 ⟨h2, h3⟩⟩⟩
  have hlen : ((items.zip (outs.zip ts)).map fun x => (Line.item x.1.line x.1.kind (mark x.2) : Line E T)).length = items.length := by
    simp [ho, ht]
  constructor
  · intro i it o h1 h2
    obtain ⟨t, h3⟩ := hz i it o h1 h2
    refine ⟨mark (o, t), ?_, says_mark o t⟩
    unfold report
    rw [List.getElem?_append_left (by rw [hlen]; exact (List.getElem?_eq_some_iff.1 h1).1), List.getElem?_map, h3]
    rfl
  · obtain ⟨js, h1, h2, h3, h4⟩ := filterMap_places (fun x : File.BatchItem × Batch.Outcome E × T =>
      (failure x.2.1).map fun e => (Line.error x.1.line x.1.kind e : Line E T)) (items.zip (outs.zip ts))
    refine ⟨js, h1, fun j => ?_, ?_, fun n j hn => ?_⟩
    · rw [h2]
      constructor
      · rintro ⟨⟨it, o, t⟩, y, a1, a2⟩
        have a3 := (List.getElem?_zip_eq_some.1 (List.getElem?_zip_eq_some.1 a1).2).1
        cases o with
        | failed e => exact ⟨e, a3⟩
        | _ => cases a2
      · rintro ⟨e, he⟩
        have hl : j < items.length := ho ▸ (List.getElem?_eq_some_iff.1 he).1
        obtain ⟨t, a⟩ := hz j _ _ (List.getElem?_eq_getElem hl) he
        exact ⟨_, _, a, rfl⟩
    · unfold report
      rw [List.length_append, hlen, h3]
    · obtain ⟨⟨it, o, t⟩, y, a1, a2, a3⟩ := h4 n j hn
      have b1 := List.getElem?_zip_eq_some.1 a1
      have b2 := (List.getElem?_zip_eq_some.1 b1.2).1
      cases o with
      | failed e =>
        cases a2
        refine ⟨it, e, b1.1, b2, ?_⟩
        unfold report
        rw [List.getElem?_append_right (by rw [hlen]; omega), hlen, Nat.add_sub_cancel_left]
        exact a3
      | _ => cases a2

/-! ### Processing -/

/-- In the shell nothing cancels the processing of a batch (`lib.rs:266`: the progress it is given is a dummy). -/
def Uncancelled (as : List Batch.Act) : Prop := .cancel ∉ as

theorem stays {c : Batch.Cfg File.BatchItem D E} : ∀ (as : List Batch.Act) (s s' : Batch.St D E), Uncancelled as → Batch.run c s as = some s' →
    s'.cancelled = s.cancelled
  | [], s, s', _, h => by cases h; rfl
  | a :: as, s, s', hn, h => by
    simp only [Batch.run, Option.bind_eq_some_iff] at h
    obtain ⟨u, hu, h⟩ := h
    rw [stays as u s' (fun e => hn (List.mem_cons_of_mem _ e)) h]
    cases a with
    | cancel => exact absurd List.mem_cons_self hn
    | finish =>
      simp only [Batch.step] at hu
      split at hu
      · cases hu; rfl
      · cases hu
    | work i =>
      simp only [Batch.step] at hu
      split at hu
      · cases hu
      · obtain ⟨it, _, hc⟩ := Batch.work_cases c s u i hu
        rcases hc with ⟨_, _, _, _, rfl⟩ | ⟨_, _, _, _, rfl⟩ | ⟨_, _, _, rfl⟩ | ⟨_, _, rfl⟩ | ⟨_, _, rfl⟩ | ⟨_, rfl⟩ | ⟨_, _, rfl⟩ | ⟨_, _, rfl⟩ | ⟨_, _, rfl⟩
        all_goals first | rfl | (unfold Batch.onStop; split <;> rfl)

/-- One after the other: when an expression was begun, all before it are done. -/
def InTurn (c : Batch.Cfg File.BatchItem D E) (s : Batch.St D E) : Prop :=
  ∀ i j : Nat, c.isExpr i = true → c.isExpr j = true → j < i → s.phase i ≠ .idle → ∃ o, s.phase j = .done o

theorem in_turn_step {c : Batch.Cfg File.BatchItem D E} (hp : c.parallelise = false) {s s' : Batch.St D E} {a : Batch.Act} (h : InTurn c s)
    (hs : Batch.step c s a = some s') : InTurn c s' := by
  cases a with
  | cancel =>
    simp only [Batch.step] at hs
    split at hs
    · cases hs
    · cases hs; exact h
  | finish =>
    simp only [Batch.step] at hs
    split at hs
    · cases hs; exact h
    · cases hs
  | work k =>
    simp only [Batch.step] at hs
    split at hs
    · cases hs
    · obtain ⟨it, _, hc⟩ := Batch.work_cases c s s' k hs
      have start : Batch.canStart c s k = true → c.isExpr k = true → ∀ j : Nat, c.isExpr j = true → j < k → ∃ o, s.phase j = .done o := by
        intro hcs hk j hj hlt
        unfold Batch.canStart at hcs
        rw [Batch.expr_not_def c hk, hp] at hcs
        simp only [Bool.false_eq_true, if_false, Bool.false_or, Bool.and_eq_true] at hcs
        exact (Batch.allDone_iff s c.isExpr k).1 hcs.2 j hlt hj
      have move : ∀ p, (∀ o, s.phase k ≠ .done o) → (s.phase k = .idle → Batch.canStart c s k = true) → ∀ s'' : Batch.St D E, s''.phase = Batch.upd s.phase k p →
          (c.isDef k = true ∨ p ≠ .idle) → InTurn c s'' := by
        intro p hnd hst s'' e hk i j hi hj hlt hne
        rw [e] at hne ⊢
        have hjk : j ≠ k := by
          intro ejk
          subst ejk
          by_cases hik : i = j
          · omega
          · rw [Batch.upd_other _ _ hik] at hne
            obtain ⟨o, ho⟩ := h i j hi hj hlt hne
            exact hnd o ho
        rw [Batch.upd_other _ _ hjk]
        by_cases hik : i = k
        · subst hik
          by_cases hid : s.phase i = .idle
          · exact start (hst hid) hi j hj hlt
          · exact h i j hi hj hlt hid
        · rw [Batch.upd_other _ _ hik] at hne
          exact h i j hi hj hlt hne
      have stop : (∀ o, s.phase k ≠ .done o) → (s.phase k = .idle → Batch.canStart c s k = true) → InTurn c (Batch.onStop c s k) := by
        intro h1 h2
        unfold Batch.onStop
        split
        · rename_i hd
          exact move .idle h1 h2 _ rfl (.inl hd)
        · exact move .stopping h1 h2 _ rfl (.inr (by simp))
      rcases hc with ⟨e1, e2, _, _, rfl⟩ | ⟨e1, e2, _, _, rfl⟩ | ⟨e1, e2, _, rfl⟩ | ⟨e1, _, rfl⟩ | ⟨e1, _, rfl⟩ | ⟨e1, rfl⟩ | ⟨e1, _, rfl⟩ | ⟨e1, _, rfl⟩ | ⟨_, e1, rfl⟩
      · exact stop (by simp [e1]) fun _ => e2
      · exact move _ (by simp [e1]) (fun _ => e2) _ rfl (.inr (by simp))
      · exact move _ (by simp [e1]) (fun _ => e2) _ rfl (.inr (by simp))
      · exact stop (by simp [e1]) (by simp [e1])
      · exact move _ (by simp [e1]) (by simp [e1]) _ rfl (.inr (by simp))
      · exact move _ (by simp [e1]) (by simp [e1]) _ rfl (.inr (by simp))
      · exact move _ (by simp [e1]) (by simp [e1]) _ rfl (.inr (by simp))
      · exact move _ (by simp [e1]) (by simp [e1]) _ rfl (.inr (by simp))
      · exact move _ (by simp [e1]) (by simp [e1]) _ rfl (.inr (by simp))

theorem in_turn {c : Batch.Cfg File.BatchItem D E} (hp : c.parallelise = false) : ∀ (as : List Batch.Act) (s s' : Batch.St D E), InTurn c s →
    Batch.run c s as = some s' → InTurn c s'
  | [], s, s', hi, h => by cases h; exact hi
  | a :: as, s, s', hi, h => by
    simp only [Batch.run, Option.bind_eq_some_iff] at h
    obtain ⟨u, hu, h⟩ := h
    exact in_turn hp as u s' (in_turn_step hp hi hu) h

variable {k : File.Classes} {head : Text → Bool} {files : Text → Option Text}

/-- **C90**: a path, then flags. The file of that path is processed; the report has a line for each item, and then each error. Each outcome is that of
the item, or the item was left out; that is so only if the file asks for it and the flag does not forbid it, and some item failed. With the other flag
the expressions are evaluated one after the other. -/
theorem run_reports_partial {path : Text} (hp : Plain path) {fs : List Flag} {b' : File.Batch} (hl : load k head files (written path fs) = .ok b')
    {procDef : D → File.BatchItem → D × Option E} {procExpr : D → File.BatchItem → Option E} {d0 : D} {as : List Batch.Act} (hc : Uncancelled as)
    {s : Batch.St D E} (hr : Batch.run (cfg b' procDef procExpr) (Batch.init d0) as = some s) :
    ∃ text b, files path = some text ∧ File.parseStr k head text = .ok b ∧ Flagged fs b b' ∧
      (.noPar ∈ fs → ∀ i j : Nat, (cfg b' procDef procExpr).isExpr i = true → (cfg b' procDef procExpr).isExpr j = true → j < i →
        s.phase i ≠ .idle → ∃ o, s.phase j = .done o) ∧
      (Batch.Finished s → ∀ ts : List T, ts.length = b.items.length →
        Tells b.items (Batch.results (cfg b' procDef procExpr) s) (report b'.items ((Batch.results (cfg b' procDef procExpr) s).zip ts)) ∧
        ∀ (i : Nat) (it : File.BatchItem), b.items[i]? = some it →
          (Batch.results (cfg b' procDef procExpr) s)[i]? = some (Batch.trueOutcome (cfg b' procDef procExpr) d0 i it) ∨
          (Batch.results (cfg b' procDef procExpr) s)[i]? = some .outstanding ∧ b.failFast = true ∧ .noFastFail ∉ fs ∧
            ∃ (j : Nat) (e : E), (Batch.results (cfg b' procDef procExpr) s)[j]? = some (.failed e)) := by
  obtain ⟨text, b, h1, h2, h3⟩ := ((file_loaded_partial hp fs).1 b').1 hl
  refine ⟨text, b, h1, h2, h3, fun hn => ?_, fun hfin ts hts => ⟨?_, fun i it hi => ?_⟩⟩
  · have hpar : (cfg b' procDef procExpr).parallelise = false := by
      show b'.parallelise = false
      rw [Bool.eq_false_iff]
      exact fun e => (h3.par.1 e).2 hn
    exact in_turn hpar as _ s (fun i j _ _ _ h => absurd rfl h) hr
  · rw [← h3.items] at hts ⊢
    exact report_tells (by simp [Batch.results, cfg]) hts
  · rw [← h3.items] at hi
    rcases Batch.outcomes_sound (cfg b' procDef procExpr) d0 as s hr hfin i it hi with h | ⟨a1, a2, j, e, _, _, _, a3⟩ | ⟨_, _, a3⟩
    · exact .inl h
    · have := h3.fast.1 a2
      exact .inr ⟨a1, this.1, this.2, j, e, a3⟩
    · rw [stays as _ s hc hr] at a3
      cases a3

/-! ### Where it goes wrong -/

/-- A path with the text of a flag in it is not found as written. -/
theorem path_mangled : asked "a --no-parrot.ogma".toList = ⟨"arot.ogma".toList, true, false⟩ := by decide +kernel

/-- Without one flag there may be another that was not written. -/
theorem flag_appears : asked "a --no --no-par-fast-fail".toList = ⟨"a".toList, true, true⟩ := by decide +kernel

/-! ### An example -/

/-- A file that asks to stop at the first failure. -/
def someFile : Text := "[fail-fast]\n\nfoo\n\nbar\n".toList

/-- The batch of this file; a path and both flags. -/
def someBatch : File.Batch := ⟨[⟨.expr, none, 3, "foo".toList⟩, ⟨.expr, none, 5, "bar".toList⟩], false, false⟩

/-- `foo` fails. -/
def someCfg : Batch.Cfg File.BatchItem Unit String := cfg someBatch (fun d _ => (d, none)) fun _ i => if i.code = "foo".toList then some "no foo" else none

/-- Both are processed, one after the other. -/
def someRun : Option (Batch.St Unit String) := Batch.run someCfg (Batch.init ()) [.work 0, .work 0, .work 0, .work 1, .work 1, .work 1, .finish]

/-- For C90: what the theorem assumes, and the report. -/
example : Plain "a b.ogma".toList ∧ (File.parseStr File.ascii (fun _ => true) someFile).toOption.map (·.failFast) = some true ∧
    load File.ascii (fun _ => true) (fun p => if p = "a b.ogma".toList then some someFile else none)
      (written "a b.ogma".toList [.noFastFail, .noPar, .noPar]) = .ok someBatch ∧
    someRun.map (fun s => (s.fin.isSome, report someBatch.items ((Batch.results someCfg s).zip [20, 30]))) =
      some (true, [.item 3 .expr (.error 20), .item 5 .expr (.success 30), .error 3 .expr "no foo"]) := by
  refine ⟨fun f => ?_, by decide +kernel, by decide +kernel, by decide +kernel⟩
  rw [← Enter.contains_iff]
  cases f <;> decide +kernel

end Verif.RunLine
