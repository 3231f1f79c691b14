import Verif.Model.Blk
/-! Properties of argument and flag accounting (C37). -/
namespace Verif.Blk
variable {A B R Ty : Type}

/-! ### Terms -/

theorem place_length (v : List (Option B)) (i : Nat) (x : B) : (place v i x).length = max v.length (i + 1) := by
  unfold place
  by_cases h : v.length ≤ i
  · rw [if_pos h]; simp; omega
  · rw [if_neg h]; simp; omega

theorem place_get (v : List (Option B)) (i : Nat) (x : B) : (place v i x)[i]? = some (some x) := by
  unfold place
  rw [List.getElem?_set_self]
  by_cases h : v.length ≤ i
  · rw [if_pos h]; simp; omega
  · rw [if_neg h]; omega

theorem place_get_ne (v : List (Option B)) (i j : Nat) (x : B) (h : j ≠ i) (hj : j < v.length) :
    (place v i x)[j]? = v[j]? := by
  unfold place
  rw [List.getElem?_set_ne (fun e => h e.symm)]
  by_cases h' : v.length ≤ i
  · rw [if_pos h', List.getElem?_append_left hj]
  · rw [if_neg h']

/-- Placing distinct positions `k, k+1, …` over `v`. -/
theorem place_run (v : List (Option B)) : ∀ (xs : List B) (k : Nat), k + xs.length ≤ 256 →
    ((xs.zipIdx k).map (fun p => (p.2 % 256, p.1))).foldr (fun e v => place v e.1 e.2) v =
      (xs.zipIdx k).foldr (fun e v => place v e.2 e.1) v
  | [], _, _ => rfl
  | x :: xs, k, h => by
    simp only [List.length_cons] at h
    simp only [List.zipIdx_cons, List.map_cons, List.foldr_cons]
    rw [place_run v xs (k + 1) (by omega), Nat.mod_eq_of_lt (by omega)]

theorem place_run_spec (v : List (Option B)) : ∀ (xs : List B) (k : Nat),
    ((xs.zipIdx k).foldr (fun e v => place v e.2 e.1) v).length = (if xs = [] then v.length else max v.length (k + xs.length)) ∧
    ∀ (j : Nat) (x : B), xs[j]? = some x → ((xs.zipIdx k).foldr (fun e v => place v e.2 e.1) v)[k + j]? = some (some x)
  | [], _ => by simp
  | x :: xs, k => by
    obtain ⟨h1, h2⟩ := place_run_spec v xs (k + 1)
    simp only [List.zipIdx_cons, List.foldr_cons]
    refine ⟨?_, fun j y hj => ?_⟩
    · rw [place_length, h1]
      by_cases h : xs = []
      · subst h; simp
      · rw [if_neg h, if_neg (by simp)]; simp only [List.length_cons]; omega
    · cases j with
      | zero =>
        simp only [List.getElem?_cons_zero, Option.some.injEq] at hj
        subst hj
        exact place_get _ _ _
      | succ j =>
        simp only [List.getElem?_cons_succ] at hj
        have := h2 j y hj
        rw [show k + (j + 1) = k + 1 + j by omega]
        rw [place_get_ne _ _ _ _ (by omega), this]
        exact (List.getElem?_eq_some_iff.1 this).1

theorem placed_le : ∀ (es : List (Nat × B)), (∀ e ∈ es, e.1 < 256) → (es.foldr (fun e v => place v e.1 e.2) []).length ≤ 256
  | [], _ => by simp
  | e :: es, h => by
    rw [List.foldr_cons, place_length]
    have := placed_le es fun e' he => h e' (by simp [he])
    have := h e (by simp)
    omega

theorem populated_map : ∀ (xs : List B), populated (xs.map some) = some xs
  | [] => rfl
  | x :: xs => by simp [populated, populated_map xs]

/-- C37. The terms handed to a command are the first 256 of those written, in order; the rest is dropped without a
report. -/
theorem terms_exact (xs : List B) : getTerms (termEdges xs) = some (xs.take 256) := by
  have hv : (termEdges xs).reverse.foldl (fun v e => place v e.1 e.2) [] = (xs.take 256).map some := by
    rw [List.foldl_reverse]
    have hsplit : termEdges xs = ((xs.take 256).zipIdx.map fun p => (p.2 % 256, p.1)) ++
        (((xs.drop 256).zipIdx 256).map fun p => (p.2 % 256, p.1)) := by
      rw [termEdges, ← List.map_append]
      congr 1
      by_cases h : xs.length ≤ 256
      · rw [List.take_of_length_le h, List.drop_of_length_le h]; simp
      · conv => lhs; rw [← List.take_append_drop 256 xs, List.zipIdx_append]
        congr 2
        simp; omega
    rw [hsplit, List.foldr_append, place_run _ _ _ (by simp; omega)]
    have hl : ((((xs.drop 256).zipIdx 256).map fun p => (p.2 % 256, p.1)).foldr (fun e v => place v e.1 e.2) []).length ≤ 256 := by
      apply placed_le
      intro e he
      obtain ⟨p, -, rfl⟩ := List.mem_map.1 he
      exact Nat.mod_lt _ (by omega)
    have hnil : xs.length ≤ 256 → ((((xs.drop 256).zipIdx 256).map fun p => (p.2 % 256, p.1)).foldr (fun e v => place v e.1 e.2) []) = [] := by
      intro h; rw [List.drop_of_length_le h]; rfl
    generalize ((((xs.drop 256).zipIdx 256).map fun p => (p.2 % 256, p.1)).foldr (fun e v => place v e.1 e.2) []) = v at hl hnil
    obtain ⟨h1, h2⟩ := place_run_spec v (xs.take 256) 0
    apply List.ext_getElem?
    intro j
    by_cases hj : j < (xs.take 256).length
    · have := h2 j _ (List.getElem?_eq_getElem hj)
      rw [Nat.zero_add] at this
      rw [this, List.getElem?_map, List.getElem?_eq_getElem hj]; rfl
    · rw [List.getElem?_eq_none (by
        rw [h1]
        by_cases he : xs.take 256 = []
        · rw [if_pos he]
          have hx : xs = [] := by
            rcases List.take_eq_nil_iff.1 he with h | h
            · omega
            · exact h
          rw [hnil (by rw [hx]; simp)]; simp
        · rw [if_neg he, Nat.zero_add]
          by_cases hx : xs.length ≤ 256
          · rw [hnil hx]; simp only [List.length_nil]; omega
          · simp only [List.length_take] at hj ⊢; omega),
        List.getElem?_eq_none (by simpa using hj)]
  rw [getTerms, hv, populated_map]

/-- C37 is false of a command with more than 256 arguments: the arguments after the 256th are not seen. -/
theorem terms_past_256_dropped (xs ys : List B) (h : xs.length = 256) : getTerms (termEdges (xs ++ ys)) = getTerms (termEdges xs) := by
  rw [terms_exact, terms_exact, List.take_append_of_le_length (by omega)]

example : getTerms (termEdges ["x", "y", "z"]) = some ["x", "y", "z"] := terms_exact _
example : getTerms (termEdges (List.replicate 256 1 ++ [2, 3])) = some (List.replicate 256 1) := by
  rw [terms_past_256_dropped _ _ List.length_replicate, terms_exact, List.take_of_length_le (Nat.le_of_eq List.length_replicate)]

/-! ### Built-in commands -/

theorem construct_exact (ts : List (Term A)) :
    construct ts = some ⟨((flagsOf ts).take 256).reverse, ((argsOf ts).take 256).reverse, 0⟩ := by
  simp [construct, terms_exact]

theorem getFlag_named (n : String) (b : Block A) :
    (n ∈ b.flags → ∃ fs, getFlag (some n) b = (some n, { b with flags := fs }) ∧ b.flags.Perm (n :: fs)) ∧
      (n ∉ b.flags → getFlag (some n) b = (none, b)) := by
  constructor
  · intro h
    simp only [getFlag]
    cases hf : b.flags.findIdx? (· == n) with
    | none =>
      rw [List.findIdx?_eq_none_iff] at hf
      have := hf n h
      simp at this
    | some i =>
      rw [List.findIdx?_eq_some_iff_getElem] at hf
      obtain ⟨hi, hp, -⟩ := hf
      have hn : b.flags[i] = n := by simpa using hp
      refine ⟨b.flags.eraseIdx i, by simp only [List.getElem?_eq_getElem hi, hn], ?_⟩
      rw [List.eraseIdx_eq_take_drop_succ]
      have : b.flags = b.flags.take i ++ n :: b.flags.drop (i + 1) := by
        rw [← hn, List.getElem_cons_drop, List.take_append_drop]
      conv => lhs; rw [this]
      exact List.perm_middle
  · intro h
    simp only [getFlag]
    have : b.flags.findIdx? (· == n) = none := by
      rw [List.findIdx?_eq_none_iff]
      intro x hx
      simp only [beq_eq_false_iff_ne]
      rintro rfl
      exact h hx
    rw [this]

theorem getFlag_perm (n : Option String) (b : Block A) :
    b.flags.Perm ((getFlag n b).1.toList ++ (getFlag n b).2.flags) ∧ (getFlag n b).2.args = b.args ∧ (getFlag n b).2.count = b.count := by
  cases n with
  | some n =>
    by_cases h : n ∈ b.flags
    · obtain ⟨fs, h1, h2⟩ := (getFlag_named n b).1 h
      rw [h1]; exact ⟨h2, rfl, rfl⟩
    · rw [(getFlag_named n b).2 h]; exact ⟨List.Perm.refl _, rfl, rfl⟩
  | none =>
    refine ⟨?_, rfl, rfl⟩
    simp only [getFlag]
    cases hb : b.flags.getLast? with
    | none => rw [List.getLast?_eq_none_iff] at hb; rw [hb]; exact List.Perm.refl _
    | some x =>
      obtain ⟨l, hl⟩ := List.getLast?_eq_some_iff.1 hb
      rw [hl, List.dropLast_concat]
      exact List.perm_append_comm

/-- C37. The arguments a command gets are the written ones, in order, none skipped and none twice. -/
theorem args_in_order (checked : Bool) : ∀ (p : Prog A R) (b : Block A), (run checked p b).2.1 <+: b.args.reverse
  | .eval _, _ => List.nil_prefix
  | .fail, _ => List.nil_prefix
  | .flag n k, b => by
    have := args_in_order checked (k (getFlag n b).1) (getFlag n b).2
    rw [(getFlag_perm n b).2.1] at this
    exact this
  | .arg k, b => by
    simp only [run]
    cases hn : nextArg checked b with
    | error e => exact List.nil_prefix
    | ok x =>
      obtain ⟨a, b'⟩ := x
      simp only [nextArg] at hn
      cases hl : b.args.getLast? with
      | none => rw [hl] at hn; cases hn
      | some y =>
        rw [hl] at hn
        obtain ⟨l, hl'⟩ := List.getLast?_eq_some_iff.1 hl
        dsimp only at hn
        split at hn
        · cases hn
        · obtain ⟨rfl, rfl⟩ : y = a ∧ { b with args := b.args.dropLast, count := (b.count + 1) % 256 } = b' := by
            simpa using hn
          have := args_in_order checked (k y) { b with args := b.args.dropLast, count := (b.count + 1) % 256 }
          simp only [hl', List.dropLast_concat, List.reverse_append, List.reverse_cons, List.reverse_nil, List.nil_append,
            List.singleton_append] at this ⊢
          exact (List.prefix_cons_inj y).2 this
  | .len k, b => args_in_order checked (k _) b
  | .peekNext k, b => args_in_order checked (k _) b
  | .peekLast k, b => args_in_order checked (k _) b

/-- What a command was given and what is left of the block make up the block; success means nothing is left. -/
theorem run_accounts (checked : Bool) : ∀ (p : Prog A R) (b : Block A) (r : R), (run checked p b).2.2 = .ok r →
    (run checked p b).1.Perm b.flags ∧ (run checked p b).2.1 = b.args.reverse
  | .eval _, b, r, h => by
    simp only [run, finalise] at h ⊢
    by_cases h1 : b.flags = []
    · by_cases h2 : b.args = []
      · simp [h1, h2]
      · simp [h1, h2, Except.map] at h
    · simp [h1, Except.map] at h
  | .fail, b, r, h => by simp [run] at h
  | .flag n k, b, r, h => by
    simp only [run] at h ⊢
    obtain ⟨h1, h2⟩ := run_accounts checked (k (getFlag n b).1) (getFlag n b).2 r h
    obtain ⟨g1, g2, -⟩ := getFlag_perm n b
    refine ⟨?_, by rw [h2, g2]⟩
    exact (List.Perm.append_left _ h1).trans g1.symm
  | .arg k, b, r, h => by
    simp only [run] at h ⊢
    cases hn : nextArg checked b with
    | error e => rw [hn] at h; cases h
    | ok x =>
      obtain ⟨a, b'⟩ := x
      rw [hn] at h
      simp only at h ⊢
      simp only [nextArg] at hn
      cases hl : b.args.getLast? with
      | none => rw [hl] at hn; cases hn
      | some y =>
        rw [hl] at hn
        obtain ⟨l, hl'⟩ := List.getLast?_eq_some_iff.1 hl
        dsimp only at hn
        split at hn
        · cases hn
        · obtain ⟨rfl, rfl⟩ : y = a ∧ { b with args := b.args.dropLast, count := (b.count + 1) % 256 } = b' := by
            simpa using hn
          obtain ⟨h1, h2⟩ := run_accounts checked (k y) { b with args := b.args.dropLast, count := (b.count + 1) % 256 } r h
          refine ⟨h1, ?_⟩
          rw [h2]
          simp [hl']
  | .len k, b, r, h => run_accounts checked (k _) b r h
  | .peekNext k, b, r, h => run_accounts checked (k _) b r h
  | .peekLast k, b, r, h => run_accounts checked (k _) b r h

/-- C37. When a built-in command compiles, it was given every flag exactly once and every argument exactly once, in
the order written. Holds of blocks with at most 256 flags and 256 arguments: see `terms_past_256_dropped`. -/
theorem command_uses_all_partial (checked : Bool) (p : Prog A R) (ts : List (Term A)) (hf : (flagsOf ts).length ≤ 256)
    (ha : (argsOf ts).length ≤ 256) :
    ∃ t, command checked p ts = some t ∧ ∀ r, t.2.2 = .ok r → t.1.Perm (flagsOf ts) ∧ t.2.1 = argsOf ts := by
  refine ⟨_, by rw [command, construct_exact, List.take_of_length_le hf, List.take_of_length_le ha]; rfl, fun r hr => ?_⟩
  obtain ⟨h1, h2⟩ := run_accounts checked p _ r hr
  exact ⟨h1.trans (List.reverse_perm _), by rw [h2]; simp⟩

/-- C37. A flag asked for by name is given exactly when it was written and not yet taken. -/
theorem flag_by_name (n : String) (b : Block A) : (getFlag (some n) b).1 = if n ∈ b.flags then some n else none := by
  by_cases h : n ∈ b.flags
  · obtain ⟨fs, h1, -⟩ := (getFlag_named n b).1 h
    rw [h1, if_pos h]
  · rw [(getFlag_named n b).2 h, if_neg h]

/-- C37. "Any flag" gives the first one written that is not yet taken. -/
theorem flag_any (ts : List (Term A)) (b : Block A) (h : construct ts = some b) :
    (getFlag none b).1 = (flagsOf ts).head? := by
  rw [construct_exact] at h
  cases h
  simp only [getFlag]
  cases hf : flagsOf ts with
  | nil => rfl
  | cons f fs => simp

/-- C37. A command that ends with flags left over fails for that, and with arguments left over fails for that. -/
theorem leftover_reported (checked : Bool) (r : R) (b : Block A) :
    (b.flags ≠ [] → (run checked (.eval r) b).2.2 = .error .unusedFlags) ∧
      (b.flags = [] → b.args ≠ [] → (run checked (.eval r) b).2.2 = .error .unusedArgs) ∧
      (b.flags = [] → b.args = [] → (run checked (.eval r) b).2.2 = .ok r) := by
  refine ⟨fun h => ?_, fun h1 h2 => ?_, fun h1 h2 => ?_⟩
  · simp [run, finalise, h, Except.map]
  · simp [run, finalise, h1, h2, Except.map]
  · simp [run, finalise, h1, h2, Except.map]

/-- C37. Asking for an argument when none is left is reported with the number given so far. -/
theorem missing_reported (checked : Bool) (k : A → Prog A R) (b : Block A) (h : b.args = []) :
    (run checked (.arg k) b).2.2 = .error (.insufficient b.count) := by
  simp [run, nextArg, h]

/-- A command that takes all its arguments, such as `+`. -/
def takeAll : Nat → List A → Prog A (List A)
  | 0, acc => .eval acc
  | n + 1, acc => .arg fun a => takeAll n (acc ++ [a])

/-- The commands that take any number of arguments: they ask for the number, then for each (`mod.rs:83-105`). -/
def variadic : Prog A (List A) := .len fun n => takeAll n []

theorem takeAll_run : ∀ (n : Nat) (acc : List A) (b : Block A), b.args.length = n → b.flags = [] → b.count + n ≤ 255 →
    (run true (takeAll n acc) b).2.2 = .ok (acc ++ b.args.reverse)
  | 0, acc, b, h, hf, _ => by
    have : b.args = [] := List.length_eq_zero_iff.1 h
    simp [takeAll, run, finalise, this, hf, Except.map]
  | n + 1, acc, b, h, hf, hc => by
    have hne : b.args ≠ [] := by intro e; rw [e] at h; simp at h
    obtain ⟨l, a, hl⟩ : ∃ l a, b.args = l ++ [a] := ⟨_, _, (List.dropLast_concat_getLast hne).symm⟩
    simp only [takeAll, run, nextArg, hl, List.getLast?_append, List.getLast?_singleton, Option.some_or, Bool.true_and]
    rw [if_neg (by simp; omega)]
    simp only
    have := takeAll_run n (acc ++ [a]) { b with args := (l ++ [a]).dropLast, count := (b.count + 1) % 256 }
      (by simp; rw [hl] at h; simpa using h) hf (by
      show (b.count + 1) % 256 + n ≤ 255
      rw [Nat.mod_eq_of_lt (by omega)]; omega)
    rw [this]
    simp

/-- C37. A variadic command with up to 255 arguments and no flags gets them all. -/
theorem variadic_exact (as : List A) (h : as.length ≤ 255) :
    ∃ t, command true variadic (as.map .arg) = some t ∧ t.2.2 = .ok as := by
  have ha : argsOf (as.map Term.arg) = as := by induction as with
    | nil => rfl
    | cons a as ih => simp [argsOf, ih (by simp at h; omega)]
  have hf : flagsOf (as.map (Term.arg (A := A))) = [] := by
    clear h ha
    induction as with
    | nil => rfl
    | cons a as ih => simp [flagsOf, ih]
  refine ⟨_, by rw [command, construct_exact, hf, ha]; rfl, ?_⟩
  simp only [variadic, run]
  have := takeAll_run _ [] ⟨[], (as.take 256).reverse, 0⟩ rfl rfl (by simp; omega)
  refine this.trans ?_
  simp [List.take_of_length_le (show as.length ≤ 256 by omega)]

theorem takeAll_overflow : ∀ (n : Nat) (acc : List A) (b : Block A), b.args.length = n → b.count + n = 256 → b.count < 256 →
    (run true (takeAll n acc) b).2.2 = .error .overflow
  | 0, _, b, _, h2, h3 => by omega
  | n + 1, acc, b, h, hc, hlt => by
    have hne : b.args ≠ [] := by intro e; rw [e] at h; simp at h
    obtain ⟨l, a, hl⟩ : ∃ l a, b.args = l ++ [a] := ⟨_, _, (List.dropLast_concat_getLast hne).symm⟩
    simp only [takeAll, run, nextArg, hl, List.getLast?_append, List.getLast?_singleton, Option.some_or, Bool.true_and]
    by_cases h255 : b.count = 255
    · rw [if_pos (by simp [h255])]
    · rw [if_neg (by simp [h255])]
      simp only
      have hm : (b.count + 1) % 256 = b.count + 1 := Nat.mod_eq_of_lt (by omega)
      refine takeAll_overflow n _ _ (by simp; rw [hl] at h; simpa using h) ?_ ?_
      · show (b.count + 1) % 256 + n = 256
        omega
      · show (b.count + 1) % 256 < 256
        omega

/-- C37 fails at the 256th argument: the argument counter overflows, which panics in a build with overflow checks. -/
theorem argument_256_panics (as : List A) (h : 256 ≤ as.length) :
    ∃ t, command true variadic (as.map .arg) = some t ∧ t.2.2 = .error .overflow := by
  have ha : ∀ as : List A, argsOf (as.map Term.arg) = as := by
    intro as
    induction as with
    | nil => rfl
    | cons a as ih => simp [argsOf, ih]
  have hf : ∀ as : List A, flagsOf (as.map (Term.arg (A := A))) = [] := by
    intro as
    induction as with
    | nil => rfl
    | cons a as ih => simp [flagsOf, ih]
  refine ⟨_, by rw [command, construct_exact, hf, ha]; rfl, ?_⟩
  simp only [variadic, run]
  refine takeAll_overflow _ _ _ rfl ?_ (by simp)
  simp; omega

example : (300 : Nat) ≥ 256 ∧ ∃ t, command true variadic ((List.replicate 300 'x').map .arg) = some t ∧ t.2.2 = .error .overflow :=
  ⟨by omega, argument_256_panics _ (by rw [List.length_replicate]; omega)⟩

/-- `range 0 3` style: two arguments; and what is reported for one and for three. -/
example : (command true (.arg fun a => .arg fun b => .eval (a, b)) [.arg 0, .arg 3]).map (·.2.2) = some (.ok (0, 3)) ∧
    (command true (.arg fun a => .arg fun b => .eval (a, b)) [.arg 0]).map (·.2.2) = some (.error (.insufficient 1)) ∧
    (command true (.arg fun a => .arg fun b => .eval (a, b)) [.arg 0, .arg 3, .arg 4]).map (·.2.2) = some (.error .unusedArgs) ∧
    (command true (.arg fun a => .arg fun b => .eval (a, b)) [.arg 0, .flag "cols", .arg 3]).map (·.2.2) = some (.error .unusedFlags) :=
  ⟨rfl, rfl, rfl, rfl⟩

/-! ### User commands -/

def PTy.late : PTy Ty → Bool
  | .expr => true
  | _ => false

/-- The argument is what the parameter asks for: of the parameter's type, and not a variable unknown to the caller. -/
def Fits (p : PTy Ty) (a : ArgInfo Ty) : Prop :=
  match p with
  | .expr => True
  | .any => a.ret ≠ none ∧ (a.var = .notVar ∨ a.var = .found)
  | .ty t => a.ret = some t ∧ (a.var = .notVar ∨ a.var = .found)

/-- Each parameter that is not evaluated late, with the argument in the same place. -/
def bindings : List (String × PTy Ty) → List (ArgInfo Ty) → List (String × ArgInfo Ty)
  | p :: ps, a :: as => (if p.2.late then [] else [(p.1, a)]) ++ bindings ps as
  | _, _ => []

/-- The same by position. -/
def posBindings : List (String × PTy Ty) → Nat → List (String × Nat)
  | [], _ => []
  | p :: ps, i => (if p.2.late then [] else [(p.1, i % 256)]) ++ posBindings ps (i + 1)

section
variable [DecidableEq Ty]

theorem callsite_fits (ready : Bool) (n : String) (p : PTy Ty) (i : Nat) (a : ArgInfo Ty) (hp : p.late = false) (h : Fits p a) :
    callsite ready n p i a = .ok (.ok (if ready then some (n, i % 256) else none)) := by
  obtain ⟨ret, var⟩ := a
  cases p with
  | expr => cases hp
  | any =>
    obtain ⟨h1, h2⟩ := h
    cases ret with
    | none => exact absurd rfl h1
    | some r => rcases h2 with h2 | h2 <;> (dsimp only at h2; subst h2; simp [callsite])
  | ty t =>
    obtain ⟨h1, h2⟩ := h
    dsimp only at h1; subst h1
    rcases h2 with h2 | h2 <;> (dsimp only at h2; subst h2; simp [callsite])

theorem callsite_ok {ready : Bool} {n : String} {p : PTy Ty} {i : Nat} {a : ArgInfo Ty} {o : Option (String × Nat)}
    (h : callsite ready n p i a = .ok (.ok o)) : Fits p a ∧ o = if ready then some (n, i % 256) else none := by
  obtain ⟨ret, var⟩ := a
  cases p <;> cases var <;> cases ret <;> simp_all [callsite, Fits]
  all_goals split at h <;> simp_all

theorem callsite_not_success (ready : Bool) (n : String) (p : PTy Ty) (i : Nat) (a : ArgInfo Ty) (l : List (String × Nat)) :
    callsite ready n p i a ≠ .ok (.error (.success l)) := by
  obtain ⟨ret, var⟩ := a
  intro h
  cases p <;> cases var <;> cases ret <;> simp_all [callsite]
  all_goals split at h <;> simp_all

theorem paramLoop_not_success (ready : String → Bool) : ∀ (ps : List (String × PTy Ty)) (i : Nat) (as : List (ArgInfo Ty))
    (acc : List (String × Nat)) (chg : Bool) (l : List (String × Nat)),
    paramLoop ready ps i as acc chg ≠ .ok (.error (.success l))
  | [], i, as, acc, chg, l => by simp [paramLoop]
  | (_, _) :: _, _, [], _, _, _ => by simp [paramLoop]
  | (n, .expr) :: ps, i, a :: as, acc, chg, l => by
    simp only [paramLoop]
    exact paramLoop_not_success ready ps _ _ _ _ _
  | (n, .any) :: ps, i, a :: as, acc, chg, l => by
    simp only [paramLoop]
    split
    · simp
    · rename_i l' hc
      intro h
      cases h
      exact callsite_not_success _ _ _ _ _ _ hc
    · exact paramLoop_not_success ready ps _ _ _ _ _
    · exact paramLoop_not_success ready ps _ _ _ _ _
  | (n, .ty t) :: ps, i, a :: as, acc, chg, l => by
    simp only [paramLoop]
    split
    · simp
    · rename_i l' hc
      intro h
      cases h
      exact callsite_not_success _ _ _ _ _ _ hc
    · exact paramLoop_not_success ready ps _ _ _ _ _
    · exact paramLoop_not_success ready ps _ _ _ _ _

theorem paramLoop_ok (ready : String → Bool) : ∀ (ps : List (String × PTy Ty)) (i : Nat) (as : List (ArgInfo Ty))
    (acc : List (String × Nat)) (chg : Bool) (acc' : List (String × Nat)) (rest : List (ArgInfo Ty)),
    paramLoop ready ps i as acc chg = .ok (.ok (acc', false, rest)) →
    chg = false ∧ as.length = ps.length + rest.length ∧ acc' = acc ++ posBindings ps i ∧ rest = as.drop ps.length ∧
      ∀ (k : Nat) (p : String × PTy Ty) (a : ArgInfo Ty), ps[k]? = some p → as[k]? = some a → Fits p.2 a
  | [], i, as, acc, chg, acc', rest, h => by
    simp only [paramLoop] at h
    cases h
    simp [posBindings]
  | (_, _) :: _, _, [], _, _, _, _, h => by simp [paramLoop] at h
  | (n, .expr) :: ps, i, a :: as, acc, chg, acc', rest, h => by
    simp only [paramLoop] at h
    obtain ⟨h1, h2, h3, h4, h5⟩ := paramLoop_ok ready ps (i + 1) as acc _ acc' rest h
    refine ⟨by simp at h1; exact h1.1, by simp; omega, by simpa [posBindings, PTy.late] using h3, by simpa using h4, ?_⟩
    intro k p b hp hb
    cases k with
    | zero => simp at hp; subst hp; trivial
    | succ k => exact h5 k p b (by simpa using hp) (by simpa using hb)
  | (n, .any) :: ps, i, a :: as, acc, chg, acc', rest, h => by
    simp only [paramLoop] at h
    cases hc : callsite (ready n) n .any i a with
    | error e => rw [hc] at h; cases h
    | ok o =>
      rw [hc] at h
      cases o with
      | error l => cases h
      | ok o =>
        obtain ⟨hf, ho⟩ := callsite_ok hc
        cases o with
        | none =>
          obtain ⟨h1, -⟩ := paramLoop_ok ready ps (i + 1) as acc true acc' rest h
          cases h1
        | some c =>
          obtain ⟨h1, h2, h3, h4, h5⟩ := paramLoop_ok ready ps (i + 1) as _ chg acc' rest h
          have hc' : c = (n, i % 256) := by
            split at ho
            · simpa using ho
            · cases ho
          refine ⟨h1, by simp; omega, by simpa [posBindings, PTy.late, hc'] using h3, by simpa using h4, ?_⟩
          intro k p b hp hb
          cases k with
          | zero => simp at hp hb; subst hp hb; exact hf
          | succ k => exact h5 k p b (by simpa using hp) (by simpa using hb)
  | (n, .ty t) :: ps, i, a :: as, acc, chg, acc', rest, h => by
    simp only [paramLoop] at h
    cases hc : callsite (ready n) n (.ty t) i a with
    | error e => rw [hc] at h; cases h
    | ok o =>
      rw [hc] at h
      cases o with
      | error l => cases h
      | ok o =>
        obtain ⟨hf, ho⟩ := callsite_ok hc
        cases o with
        | none =>
          obtain ⟨h1, -⟩ := paramLoop_ok ready ps (i + 1) as acc true acc' rest h
          cases h1
        | some c =>
          obtain ⟨h1, h2, h3, h4, h5⟩ := paramLoop_ok ready ps (i + 1) as _ chg acc' rest h
          have hc' : c = (n, i % 256) := by
            split at ho
            · simpa using ho
            · cases ho
          refine ⟨h1, by simp; omega, by simpa [posBindings, PTy.late, hc'] using h3, by simpa using h4, ?_⟩
          intro k p b hp hb
          cases k with
          | zero => simp at hp hb; subst hp hb; exact hf
          | succ k => exact h5 k p b (by simpa using hp) (by simpa using hb)

theorem posBindings_get (all : List (ArgInfo Ty)) : ∀ (ps : List (String × PTy Ty)) (i : Nat), i + ps.length ≤ 256 →
    i + ps.length ≤ all.length →
    (posBindings ps i).map (fun p => (p.1, all[p.2]?)) = (bindings ps (all.drop i)).map fun b => (b.1, some b.2)
  | [], _, _, _ => by simp [posBindings, bindings]
  | p :: ps, i, h, h' => by
    simp only [List.length_cons] at h h'
    have hi : i < all.length := by omega
    rw [List.drop_eq_getElem_cons hi]
    simp only [posBindings, bindings, List.map_append]
    rw [posBindings_get all ps (i + 1) (by omega) (by omega), Nat.mod_eq_of_lt (by omega)]
    cases p.2.late <;> simp [List.getElem?_eq_getElem hi]

/-- C37. When the parameters of a user command are bound, it was called without flags, with exactly one fitting argument
for each parameter, and each parameter is bound to the argument in its place. -/
theorem def_binds (ready : String → Bool) (params : List (String × PTy Ty)) (flags : List String) (args : List (ArgInfo Ty))
    (bs : List (String × Option (ArgInfo Ty))) (h256 : args.length ≤ 256)
    (h : defStep ready params true flags args = .ok (some bs)) :
    flags = [] ∧ args.length = params.length ∧
      (∀ (k : Nat) (p : String × PTy Ty) (a : ArgInfo Ty), params[k]? = some p → args[k]? = some a → Fits p.2 a) ∧
      bs = (bindings params args).map fun b => (b.1, some b.2) := by
  simp only [defStep] at h
  cases hm : mapParams ready params flags args with
  | error e => rw [hm] at h; cases h
  | ok l =>
    rw [hm] at h
    cases l with
    | lgChange => cases h
    | unknownReturn => cases h
    | success ps =>
      simp only [mapParams] at hm
      by_cases hf : flags = []
      · rw [if_neg (by simp [hf])] at hm
        cases hl : paramLoop ready params 0 args [] false with
        | error e => rw [hl] at hm; cases hm
        | ok o =>
          rw [hl] at hm
          cases o with
          | error l => dsimp only at hm; cases hm; exact absurd hl (paramLoop_not_success ready _ _ _ _ _ _)
          | ok x =>
            obtain ⟨acc, chg, rest⟩ := x
            dsimp only at hm
            split at hm
            · cases hm
            · rename_i hr
              split at hm
              · cases hm
              · rename_i hc
                have hc' : chg = false := by simpa using hc
                subst hc'
                have hr' : rest = [] := by simpa using hr
                subst hr'
                cases hm
                obtain ⟨-, h2, h3, -, h5⟩ := paramLoop_ok ready _ _ _ _ _ _ _ hl
                simp only [List.length_nil, Nat.add_zero] at h2
                refine ⟨hf, h2, h5, ?_⟩
                cases h
                rw [h3, List.nil_append, posBindings_get args params 0 (by omega) (by omega), List.drop_zero]
      · rw [if_pos hf] at hm; cases hm

theorem paramLoop_fits (ready : String → Bool) (hr : ∀ n, ready n = true) : ∀ (ps : List (String × PTy Ty)) (i : Nat)
    (as : List (ArgInfo Ty)) (acc : List (String × Nat)),
    (∀ (k : Nat) (p : String × PTy Ty) (a : ArgInfo Ty), ps[k]? = some p → as[k]? = some a → Fits p.2 a) →
    paramLoop ready ps i as acc false =
      if as.length < ps.length then .error .insufficient else .ok (.ok (acc ++ posBindings ps i, false, as.drop ps.length))
  | [], i, as, acc, _ => by simp [paramLoop, posBindings]
  | (_, _) :: _, _, [], _, _ => by simp [paramLoop]
  | (n, p) :: ps, i, a :: as, acc, hfit => by
    have ih := fun acc => paramLoop_fits ready hr ps (i + 1) as acc
      fun k p b hp hb => hfit (k + 1) p b (by simpa using hp) (by simpa using hb)
    have h0 : Fits p a := hfit 0 (n, p) a rfl rfl
    cases p with
    | expr =>
      simp only [paramLoop, hr, Bool.not_true, Bool.or_false]
      rw [ih]
      simp [posBindings, PTy.late]
    | any =>
      simp only [paramLoop]
      rw [callsite_fits _ _ _ _ _ rfl h0]
      simp only [hr, if_true]
      rw [ih]
      simp [posBindings, PTy.late]
    | ty t =>
      simp only [paramLoop]
      rw [callsite_fits _ _ _ _ _ rfl h0]
      simp only [hr, if_true]
      rw [ih]
      simp [posBindings, PTy.late]

/-- C37. A user command called with flags, with too few or with too many arguments is an error that says so, and with
the right number its parameters are bound to the arguments in order. Holds when the arguments fit the parameters. -/
theorem def_count_partial (ready : String → Bool) (hr : ∀ n, ready n = true) (params : List (String × PTy Ty)) (uses : Bool)
    (flags : List String) (args : List (ArgInfo Ty)) (h256 : args.length ≤ 256)
    (hfit : ∀ (k : Nat) (p : String × PTy Ty) (a : ArgInfo Ty), params[k]? = some p → args[k]? = some a → Fits p.2 a) :
    defStep ready params uses flags args =
      if flags ≠ [] then .error .unusedFlags
      else if args.length < params.length then .error .insufficient
      else if params.length < args.length then .error .unusedArgs
      else .ok (some ((bindings params args).map fun b => (b.1, some b.2))) := by
  unfold defStep mapParams
  by_cases hf : flags = []
  · subst hf
    rw [paramLoop_fits ready hr params 0 args [] hfit]
    simp only [ne_eq, not_true_eq_false, if_false]
    by_cases h1 : args.length < params.length
    · simp only [if_pos h1]
    · simp only [if_neg h1]
      by_cases h2 : params.length < args.length
      · rw [if_pos h2, if_pos (by
          intro e
          have := congrArg List.length e
          simp at this
          omega)]
      · rw [if_neg h2, if_neg (by
          simp only [ne_eq, Decidable.not_not, List.drop_eq_nil_iff]
          omega)]
        simp only [Bool.false_eq_true, if_false, List.nil_append]
        rw [posBindings_get args params 0 (by omega) (by omega), List.drop_zero]
  · rw [if_pos hf, if_pos hf]

/-- C37 is false of a user command that does not mention its parameters: `def foo (x:Num) { \\ 5 }` accepts
`foo 'str' 1 2`, and `foo 1 2 3` is the error it should be. -/
theorem unused_parameter_hides_leftovers :
    defStep (Ty := Nat) (fun _ => true) [("x", .ty 0)] false [] [⟨some 1, .notVar⟩, ⟨some 0, .notVar⟩, ⟨some 0, .notVar⟩] =
      .ok (some []) ∧
    defStep (Ty := Nat) (fun _ => true) [("x", .ty 0)] false [] [⟨some 0, .notVar⟩, ⟨some 0, .notVar⟩, ⟨some 0, .notVar⟩] =
      .error .unusedArgs :=
  ⟨rfl, rfl⟩

/-- `def foo (x:Num f:Expr y) {…}` with three arguments. -/
example : defStep (Ty := Nat) (fun _ => true) [("x", .ty 0), ("f", .expr), ("y", .any)] true []
      [⟨some 0, .notVar⟩, ⟨none, .notVar⟩, ⟨some 4, .found⟩] =
    .ok (some [("x", some ⟨some 0, .notVar⟩), ("y", some ⟨some 4, .found⟩)]) := rfl
end

end Verif.Blk
