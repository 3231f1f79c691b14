import Verif.Model.Msg
import Verif.Props.Blk
/-! C100: messages list what is left over, and what there is. -/
namespace Verif.Msg
open Verif.Blk

/-- Specification. The texts with a separator between each two. -/
def joined (sep : Text) : List Text → Text
  | [] => []
  | [x] => x
  | x :: y :: ys => x ++ sep ++ joined sep (y :: ys)

/-- Specification. A name in backticks. -/
def quoted (f : String) : Text := '`' :: f.toList ++ ['`']

theorem joined_snoc (sep : Text) (xs : List Text) (x : Text) :
    joined sep (xs ++ [x]) = (xs.flatMap fun y => y ++ sep) ++ x := by
  induction xs with
  | nil => simp [joined]
  | cons y ys ih =>
    cases ys with
    | nil => simp [joined]
    | cons z zs =>
      have e : (y :: z :: zs) ++ [x] = y :: z :: (zs ++ [x]) := by simp
      rw [e]
      simp only [joined]
      have e' : z :: (zs ++ [x]) = (z :: zs) ++ [x] := by simp
      rw [e', ih]
      simp

theorem trimEnd_stop {d s : Text} (h : ¬ d <:+ s) (n : Nat) : trimEnd d n s = s := by
  cases n with
  | zero => rfl
  | succ n =>
    have : d.isSuffixOf s = false := by
      cases hb : d.isSuffixOf s with
      | false => rfl
      | true => exact absurd (List.isSuffixOf_iff_suffix.1 hb) h
    simp [trimEnd, this]

theorem trim_once {d r : Text} (hd : d ≠ []) (h : ¬ d <:+ r) : trimEndMatches d (r ++ d) = r := by
  unfold trimEndMatches
  have hl : (r ++ d).length = (r.length + d.length - 1) + 1 := by
    have := List.length_pos_iff.2 hd
    simp; omega
  rw [hl, trimEnd]
  have : d.isSuffixOf (r ++ d) = true := List.isSuffixOf_iff_suffix.2 (List.suffix_append r d)
  rw [this]
  simp only [if_true]
  have : (r ++ d).take ((r ++ d).length - d.length) = r := by simp
  rw [this]
  exact trimEnd_stop h _

theorem not_suffix_last {r : Text} {c : Char} (hc : c ≠ ' ') : ¬ delim <:+ r ++ [c] := by
  rintro ⟨t, ht⟩
  have := congrArg List.getLast? ht
  simp [delim] at this
  exact hc this.symm

theorem fold_flags (fs : List String) : ∀ r : Text × List String,
    fs.foldl (fun (r : Text × List String) f => (r.1 ++ '`' :: f.toList ++ '`' :: delim, r.2 ++ [f])) r =
      (r.1 ++ (fs.flatMap fun f => quoted f ++ delim), r.2 ++ fs) := by
  induction fs with
  | nil => simp
  | cons f fs ih => intro r; rw [List.foldl_cons, ih]; simp [quoted]

/-- What the message says, for a stack of flags. -/
theorem unusedFlags_eq (fs : List String) (h : fs ≠ []) :
    unusedFlags fs = ("not expecting flags: ".toList ++ joined delim (fs.reverse.map quoted), fs.reverse) := by
  obtain ⟨x, xs, hx⟩ : ∃ x xs, fs.reverse = xs ++ [x] := by
    cases fs with
    | nil => exact absurd rfl h
    | cons a as => exact ⟨a, as.reverse, by simp⟩
  unfold unusedFlags
  dsimp only
  rw [fold_flags, hx]
  refine Prod.ext ?_ (by simp)
  dsimp only
  rw [List.map_append, List.map_cons, List.map_nil, joined_snoc]
  have e : "not expecting flags: ".toList ++ ((xs ++ [x]).flatMap fun f => quoted f ++ delim) =
      ("not expecting flags: ".toList ++ (xs.flatMap fun f => quoted f ++ delim) ++ '`' :: x.toList ++ ['`']) ++ delim := by
    simp [quoted]
  rw [e, trim_once (by simp [delim]) (not_suffix_last (by decide))]
  simp [quoted, List.flatMap_map]

theorem getFlag_sub (n : Option String) (b : Block A) : (getFlag n b).2.flags.Sublist b.flags := by
  cases n with
  | some n =>
    simp only [getFlag]
    split
    · exact List.eraseIdx_sublist ..
    · exact List.Sublist.refl _
  | none => exact List.dropLast_sublist _

variable {A R : Type}

theorem atEnd_spec (checked : Bool) : ∀ (p : Prog A R) (b b' : Block A), atEnd checked p b = some b' →
    b'.flags.Sublist b.flags ∧ b.flags.Perm ((Blk.run checked p b).1 ++ b'.flags) ∧
    b.args.reverse = (Blk.run checked p b).2.1 ++ b'.args.reverse ∧
    ∃ r, (Blk.run checked p b).2.2 = (finalise b').map fun _ => r
  | .eval r, b, b', h => by
    injection h with h; subst h
    exact ⟨List.Sublist.refl _, by simp [Blk.run], by simp [Blk.run], r, rfl⟩
  | .fail, b, b', h => by cases h
  | .flag n k, b, b', h => by
    obtain ⟨h1, h2, h3, h4⟩ := atEnd_spec checked (k (getFlag n b).1) (getFlag n b).2 b' h
    obtain ⟨g1, g2, -⟩ := getFlag_perm n b
    refine ⟨h1.trans (getFlag_sub n b), ?_, ?_, h4⟩
    · simp only [Blk.run]
      rw [List.append_assoc]
      exact g1.trans (List.Perm.append_left _ h2)
    · rw [g2] at h3; exact h3
  | .arg k, b, b', h => by
    simp only [atEnd] at h
    simp only [Blk.run]
    split at h
    · cases h
    · rename_i a b₁ hn
      obtain ⟨h1, h2, h3, h4⟩ := atEnd_spec checked (k a) b₁ b' h
      have hb : b₁.flags = b.flags ∧ b.args.reverse = a :: b₁.args.reverse := by
        unfold nextArg at hn
        split at hn
        · cases hn
        · rename_i a' ha
          split at hn
          · cases hn
          · injection hn with hn
            injection hn with e1 e2
            subst e1; subst e2
            obtain ⟨l, hl⟩ := List.getLast?_eq_some_iff.1 ha
            exact ⟨rfl, by simp [hl]⟩
      rw [hb.1] at h1 h2
      rw [hn]
      exact ⟨h1, h2, by rw [hb.2, h3]; rfl, h4⟩
  | .len k, b, b', h => atEnd_spec checked (k b.args.length) b b' h
  | .peekNext k, b, b', h => atEnd_spec checked (k b.args.getLast?) b b' h
  | .peekLast k, b, b', h => atEnd_spec checked (k b.args.head?) b b' h

theorem atEnd_of_unused (checked : Bool) : ∀ (p : Prog A R) (b : Block A),
    ((Blk.run checked p b).2.2 = .error .unusedFlags ∨ (Blk.run checked p b).2.2 = .error .unusedArgs) →
    ∃ b', atEnd checked p b = some b'
  | .eval r, b, _ => ⟨b, rfl⟩
  | .fail, b, h => by simp [Blk.run] at h
  | .flag n k, b, h => atEnd_of_unused checked (k (getFlag n b).1) (getFlag n b).2 h
  | .arg k, b, h => by
    simp only [Blk.run] at h
    simp only [atEnd]
    split at h
    · rename_i e he
      exfalso
      unfold nextArg at he
      split at he
      · injection he with he; subst he; simp at h
      · split at he
        · injection he with he; subst he; simp at h
        · cases he
    · rename_i a b₁ hn
      rw [hn]
      exact atEnd_of_unused checked (k a) b₁ h
  | .len k, b, h => atEnd_of_unused checked (k b.args.length) b h
  | .peekNext k, b, h => atEnd_of_unused checked (k b.args.getLast?) b h
  | .peekLast k, b, h => atEnd_of_unused checked (k b.args.head?) b h

/-- C100. A built-in command was given flags it did not take. The message lists exactly those, in the order in which they
were written, and has a note at each. -/
theorem unused_flags_are_listed (checked : Bool) (p : Prog A R) (ts : List (Term A)) (hl : (flagsOf ts).length ≤ 256)
    (taken : List String) (args : List A) (h : command checked p ts = some (taken, args, .error .unusedFlags)) :
    ∃ left b', left ≠ [] ∧ left.Sublist (flagsOf ts) ∧ (flagsOf ts).Perm (taken ++ left) ∧
      (construct ts).bind (atEnd checked p) = some b' ∧
      flagsMsg b' = some ("not expecting flags: ".toList ++ joined ", ".toList (left.map quoted), left) := by
  unfold command at h
  rw [construct_exact] at h ⊢
  rw [List.take_of_length_le hl] at h ⊢
  simp only [Option.map_some, Option.bind_some] at h ⊢
  injection h with h
  obtain ⟨b', hb'⟩ := atEnd_of_unused checked p _ (.inl (by rw [h]))
  obtain ⟨h1, h2, -, r, h4⟩ := atEnd_spec checked p _ b' hb'
  rw [h] at h2 h4
  have hne : b'.flags ≠ [] := by
    intro he
    unfold finalise at h4
    rw [if_neg (by simp [he])] at h4
    split at h4 <;> cases h4
  refine ⟨b'.flags.reverse, b', by simpa using hne, ?_, ?_, hb', ?_⟩
  · exact List.sublist_reverse_iff.1 (by simpa using h1)
  · exact (List.reverse_perm _).symm.trans (h2.trans (List.Perm.append_left _ (List.reverse_perm _).symm))
  · rw [flagsMsg, if_pos hne, unusedFlags_eq _ hne]
    rfl

/-- Specification. The smallest part of a line that has all of the places in it. -/
def Covers (r : Nat × Nat) (ps : List (Nat × Nat)) : Prop :=
  (∀ p ∈ ps, r.1 ≤ p.1 ∧ p.2 ≤ r.2) ∧ (∃ p ∈ ps, r.1 = p.1) ∧ ∃ p ∈ ps, r.2 = p.2

theorem cover_fold (as : List (Nat × Nat)) : ∀ (a : Nat × Nat) (ps : List (Nat × Nat)), Covers a ps →
    Covers (as.foldl (fun a b => (min a.1 b.1, max a.2 b.2)) a) (ps ++ as) := by
  induction as with
  | nil => intro a ps h; simpa using h
  | cons b as ih =>
    intro a ps h
    have : ps ++ b :: as = (ps ++ [b]) ++ as := by simp
    rw [this, List.foldl_cons]
    apply ih
    obtain ⟨h1, ⟨p, hp, h2⟩, ⟨q, hq, h3⟩⟩ := h
    refine ⟨?_, ?_, ?_⟩
    · intro x hx
      rcases List.mem_append.1 hx with hx | hx
      · have := h1 x hx; dsimp only; omega
      · rw [List.mem_singleton.1 hx]; dsimp only; omega
    · by_cases hle : a.1 ≤ b.1
      · exact ⟨p, List.mem_append_left _ hp, by dsimp only; omega⟩
      · exact ⟨b, by simp, by dsimp only; omega⟩
    · by_cases hle : b.2 ≤ a.2
      · exact ⟨q, List.mem_append_left _ hq, by dsimp only; omega⟩
      · exact ⟨b, by simp, by dsimp only; omega⟩

theorem unusedArgs_spec (ps : List (Nat × Nat)) (h : ps ≠ []) : Covers (unusedArgs ps).1 ps := by
  cases ps with
  | nil => exact absurd rfl h
  | cons a as => exact cover_fold as a [a] ⟨by simp, ⟨a, by simp, rfl⟩, ⟨a, by simp, rfl⟩⟩

/-- C100. A built-in command was given arguments it did not take. The note is at the smallest part of the line with all of
these in it, and says whether it is one or several. -/
theorem unused_args_are_shown (checked : Bool) (p : Prog A R) (ts : List (Term A)) (hl : (flagsOf ts).length ≤ 256)
    (ha : (argsOf ts).length ≤ 256) (place : A → Nat × Nat)
    (taken : List String) (args : List A) (h : command checked p ts = some (taken, args, .error .unusedArgs)) :
    ∃ left b' r m, left ≠ [] ∧ argsOf ts = args ++ left ∧ (construct ts).bind (atEnd checked p) = some b' ∧
      argsMsg place b' = some (r, m) ∧ Covers r (left.map place) ∧
      m = (if left.length = 1 then "this argument is unnecessary" else "these arguments are unnecessary") := by
  unfold command at h
  rw [construct_exact] at h ⊢
  rw [List.take_of_length_le hl, List.take_of_length_le ha] at h ⊢
  simp only [Option.map_some, Option.bind_some] at h ⊢
  injection h with h
  obtain ⟨b', hb'⟩ := atEnd_of_unused checked p _ (.inr (by rw [h]))
  obtain ⟨-, -, h3, r, h4⟩ := atEnd_spec checked p _ b' hb'
  rw [h] at h3 h4
  have hf : b'.flags = [] ∧ b'.args ≠ [] := by
    unfold finalise at h4
    split at h4
    · cases h4
    · rename_i hf
      split at h4
      · rename_i hargs; exact ⟨Decidable.byContradiction hf, hargs⟩
      · cases h4
  have hm : Covers (unusedArgs (b'.args.map place)).1 (b'.args.reverse.map place) := by
    have := unusedArgs_spec (b'.args.map place) (by simpa using hf.2)
    obtain ⟨h1, h2, h3⟩ := this
    rw [List.map_reverse]
    exact ⟨fun p hp => h1 p (List.mem_reverse.1 hp), by simpa using h2, by simpa using h3⟩
  refine ⟨b'.args.reverse, b', _, _, by simpa using hf.2, by simpa using h3, hb', ?_, hm, rfl⟩
  rw [argsMsg, if_neg (by simp [hf.1]), if_pos hf.2]
  simp [unusedArgs]

/-- C100. Flags given to a command that is a definition are all listed, but in the reverse of the written order.
Partial: the order is right for one flag only (`flags_of_definitions_are_reversed`). -/
theorem flags_of_definitions_partial (ts : List (Term A)) (hl : (flagsOf ts).length ≤ 256) (h : flagsOf ts ≠ []) :
    ∃ listed, defFlagsMsg ts = some (some ("not expecting flags: ".toList ++ joined ", ".toList (listed.map quoted), listed)) ∧
      listed.Perm (flagsOf ts) ∧ ((flagsOf ts).length = 1 → listed = flagsOf ts) := by
  refine ⟨(flagsOf ts).reverse, ?_, List.reverse_perm _, ?_⟩
  · unfold defFlagsMsg
    rw [terms_exact, List.take_of_length_le hl, Option.map_some, if_pos h, unusedFlags_eq _ h]
    rfl
  · intro h1
    obtain ⟨x, hx⟩ := List.length_eq_one_iff.1 h1
    simp [hx]

/-- **The code violates C100**: of a definition that is given `--a --b`, `--b` is listed first. -/
theorem flags_of_definitions_are_reversed :
    defFlagsMsg (A := Unit) [.flag "a", .flag "b"] = some (some ("not expecting flags: `b`, `a`".toList, ["b", "a"])) := by
  decide +kernel

theorem fold_text (f : B → Text) (xs : List B) : ∀ r : Text, xs.foldl (fun s x => s ++ f x) r = r ++ xs.flatMap f := by
  induction xs with
  | nil => simp
  | cons x xs ih => intro r; rw [List.foldl_cons, ih]; simp

/-- C100. If a type has no such field, its fields are listed. Names of fields have no blanks in them
(`parse/mod.rs:920-922`, C51). -/
theorem fields_are_listed (fs : List Text) (h : ∀ f ∈ fs, f ≠ [] ∧ ' ' ∉ f) : fieldList fs = joined ", ".toList fs := by
  unfold fieldList
  have e : ∀ r, fs.foldl (fun s f => s ++ f ++ delim) r = r ++ fs.flatMap fun f => f ++ delim := by
    intro r
    rw [← fold_text]
    simp only [List.append_assoc]
  rw [e]
  rcases List.eq_nil_or_concat fs with rfl | ⟨xs, x, rfl⟩
  · rfl
  · rw [List.concat_eq_append] at h ⊢
    have hj : joined ", ".toList (xs ++ [x]) = (xs.flatMap fun y => y ++ delim) ++ x := joined_snoc _ _ _
    rw [hj]
    have hs : ¬ delim <:+ (xs.flatMap fun y => y ++ delim) ++ x → trimEndMatches delim ([] ++ (xs ++ [x]).flatMap fun f => f ++ delim) =
        (xs.flatMap fun y => y ++ delim) ++ x := by
      intro hn
      have : [] ++ (xs ++ [x]).flatMap (fun f => f ++ delim) = ((xs.flatMap fun y => y ++ delim) ++ x) ++ delim := by simp
      rw [this]
      exact trim_once (by simp [delim]) hn
    apply hs
    obtain ⟨hx, hb⟩ := h x (by simp)
    rcases List.eq_nil_or_concat x with rfl | ⟨y, c, rfl⟩
    · exact absurd rfl hx
    · rw [List.concat_eq_append] at hb ⊢
      rw [← List.append_assoc]
      exact not_suffix_last fun hc => hb (by simp [hc])

/-- Specification. A parameter as it is written. -/
def param (p : Text × Option Text) : Text := p.1 ++ (p.2.map fun t => ':' :: t).getD []

/-- C100. If a definition is given too few arguments, its parameters are listed as they were written. -/
theorem parameters_are_listed (ps : List (Text × Option Text)) : paramList ps = joined [' '] (ps.map param) := by
  unfold paramList
  have e : ∀ r, ps.foldl (fun s p => s ++ p.1 ++ (p.2.elim [] fun t => ':' :: t) ++ [' ']) r =
      r ++ ps.flatMap fun p => param p ++ [' '] := by
    intro r
    rw [← fold_text]
    congr 1
    funext s p
    obtain ⟨n, t⟩ := p
    cases t <;> simp [param]
  rw [e]
  rcases List.eq_nil_or_concat ps with rfl | ⟨xs, x, rfl⟩
  · rfl
  · rw [List.concat_eq_append, List.map_append, List.map_cons, List.map_nil, joined_snoc]
    have : [] ++ (xs ++ [x]).flatMap (fun p => param p ++ [' ']) = ((xs.flatMap fun p => param p ++ [' ']) ++ param x) ++ [' '] := by simp
    rw [this, List.dropLast_concat, List.flatMap_map]

/-! Cases that meet the hypotheses. -/

/-- A command that takes the flag `--x` and one argument. -/
def taker : Prog String Unit := .flag (some "x") fun _ => .arg fun _ => .eval ()

example : (match command true taker [.flag "a", .arg "1", .flag "x", .flag "b"] with
      | some (fs, as, .error .unusedFlags) => some (fs, as)
      | _ => none) = some (["x"], ["1"]) ∧
    ((construct [.flag "a", .arg "1", .flag "x", .flag "b"]).bind (atEnd true taker)).map flagsMsg =
      some (some ("not expecting flags: `a`, `b`".toList, ["a", "b"])) := by decide +kernel

example : (match command true taker [.arg "1", .arg "22", .arg "3"] with
      | some (_, as, .error .unusedArgs) => as
      | _ => []) = ["1"] ∧
    ((construct [.arg "1", .arg "22", .arg "3"]).bind (atEnd true taker)).map
        (argsMsg fun a => if a = "22" then (6, 8) else (9, 10)) =
      some (some ((6, 10), "these arguments are unnecessary")) := by decide +kernel

example : fieldList ["x".toList, "y".toList] = "x, y".toList ∧
    paramList [("x".toList, some "Num".toList), ("y".toList, none)] = "x:Num y".toList := by decide +kernel

end Verif.Msg
