import Verif.Lemmas.ParseErrFits
import Verif.Props.Tags
import Verif.Props.Trace
import Verif.Props.Parse
/-! C83: what the parser says about a text it does not accept is true of the text, and can be shown. -/
namespace Verif.ParseErr
open Verif Verif.Nom Verif.File Verif.Parse

variable {k : Env} {w : Str}

/-- The text is not accepted, with this error. -/
def Refused (k : Env) (w : Str) (e : Err) : Prop := xparse k w = .err e ∨ xparse k w = .fail e

/-- A text is refused with an error exactly if it is not accepted (`Parse.parse` is the parser of C51); an accepted text is read the same. -/
theorem refused_or_read (k : Env) (w : Str) :
    (∀ r x, xparse k w = .ok r x ↔ Parse.parse k w = .ok r x) ∧ ((∃ e, Refused k w e) ↔ ∀ r x, Parse.parse k w ≠ .ok r x) := by
  have h := is_parse k w
  unfold Refused
  cases hx : xparse k w with
  | ok r x =>
    rw [hx] at h
    rw [← h]
    refine ⟨fun r' x' => ⟨fun e => (by cases e; rfl), fun e => (by cases e; rfl)⟩, ⟨?_, fun hn => absurd rfl (hn r x)⟩⟩
    rintro ⟨e, he | he⟩ <;> cases he
  | err e =>
    rw [hx] at h
    rw [← h]
    exact ⟨fun r x => ⟨fun e => (by cases e), fun e => (by cases e)⟩, ⟨fun _ r x e => (by cases e), fun _ => ⟨e, .inl rfl⟩⟩⟩
  | fail e =>
    rw [hx] at h
    rw [← h]
    exact ⟨fun r x => ⟨fun e => (by cases e), fun e => (by cases e)⟩, ⟨fun _ r x e => (by cases e), fun _ => ⟨e, .inr rfl⟩⟩⟩

/-- Every error names a place; every place it names is a piece of the text, empty only at its end; what is expected fits the place. -/
theorem errors_fit {e : Err} (h : Refused k w e) : Fits w e := (parse_good k w).bad e h

/-- Where an error is shown: at the piece it names. -/
theorem errors_place {e : Err} (h : Refused k w e) (loc : Str) :
    e.traces loc w ≠ [] ∧ ∀ t ∈ e.traces loc w, t.loc = loc ∧ t.source = w ∧
      ∃ x s y, w = x ++ (s ++ y) ∧ t.start = Trace.blen x ∧ (s ≠ [] ∧ t.len = Trace.blen s ∨ s = [] ∧ y = [] ∧ t.len ≤ 1) := by
  have f := errors_fit h
  refine ⟨fun hn => f.named (List.map_eq_nil_iff.1 hn), fun t ht => ?_⟩
  obtain ⟨p, hp, rfl⟩ := List.mem_map.1 ht
  obtain ⟨⟨x, e1⟩, hin⟩ := f.within p hp
  refine ⟨rfl, rfl, x, p.text, p.after, e1, ?_, ?_⟩
  · show (Trace.errorSpan w _ _).1 = _
    have : Trace.blen w - Trace.blen (p.text ++ p.after) = Trace.blen x := by
      rw [e1, Trace.blen_append x]; omega
    rw [this]
    unfold Trace.errorSpan
    split <;> rfl
  · show _ ∧ (Trace.errorSpan w _ _).2 = _ ∨ _ ∧ _ ∧ (Trace.errorSpan w _ _).2 ≤ 1
    unfold Trace.errorSpan
    by_cases hs : p.text = []
    · refine .inr ⟨hs, hin.resolve_left fun hn => hn hs, ?_⟩
      rw [hs]
      split
      · exact Nat.le_refl _
      · exact Nat.zero_le _
    · refine .inl ⟨hs, ?_⟩
      have := Trace.blen_pos hs
      rw [if_neg (by omega)]

/-- Every error of the parser can be printed: slicing the text does not panic. -/
theorem errors_print {e : Err} (h : Refused k w e) (ws : Char → Bool) (num : Nat → Str) (loc : Str) :
    ∀ t ∈ e.traces loc w, ∃ out, Trace.print ws num t = some out := fun t ht => by
  obtain ⟨p, hp, rfl⟩ := List.mem_map.1 ht
  obtain ⟨⟨x, e1⟩, hin⟩ := (errors_fit h).within p hp
  obtain ⟨out, ho⟩ := Trace.parse_error_prints ws num loc (some p.note.toList) (x := x) hin
  refine ⟨out, ?_⟩
  rw [← ho]
  unfold Piece.trace
  have : Trace.blen w - Trace.blen (p.text ++ p.after) = Trace.blen x := by
    rw [e1, Trace.blen_append x]; omega
  rw [this, e1]

/-! ### Completion -/

theorem expected_of {x : Expecting} (hx : x ≠ .none) (h : (xparse k w).expected = x) : ∃ e, Refused k w e ∧ e.exp = x := by
  unfold Refused
  cases hp : xparse k w with
  | ok r a => rw [hp] at h; exact absurd h.symm hx
  | err e => rw [hp] at h; exact ⟨e, .inl rfl, h⟩
  | fail e => rw [hp] at h; exact ⟨e, .inr rfl, h⟩

/-- Completing a line that does not end with a slash and has no path for a command does not panic. Missing: with a slash at the end it does
(`slash_panics`), and with a path it may. -/
theorem completion_partial (hs : ∀ x, w ≠ x ++ ['/']) (hu : ∀ r x, Tags.parse k w = .ok r x → x.usesPath = false) :
    ∃ o, completions k w = some o := by
  unfold completions
  split
  · rename_i r x h
    rw [hu r x h]
    exact ⟨_, rfl⟩
  · cases hx : (xparse k w).expected with
    | path =>
      obtain ⟨e, h1, h2⟩ := expected_of (fun e => by cases e) hx
      obtain ⟨x, ex⟩ := (errors_fit h1).path h2
      exact absurd ex (hs x)
    | none => exact ⟨_, rfl⟩
    | impl => exact ⟨_, rfl⟩
    | type => exact ⟨_, rfl⟩
    | term => exact ⟨_, rfl⟩
    | speclit => exact ⟨_, rfl⟩

/-- In an unfinished line only types are offered just if the place of the error is behind `:`, or in a definition, and only special literals
just if it is behind `#`. -/
theorem completion_fits (hp : ∀ r x, Parse.parse k w ≠ .ok r x) {its : Items} (h : completions k w = some (some its)) :
    ∃ e, Refused k w e ∧ (its = ⟨false, true, false, false⟩ → Behind w ':' e ∨ Defines w) ∧ (its = ⟨false, false, false, true⟩ → Behind w '#' e) := by
  unfold completions at h
  split at h
  · rename_i r x hx
    obtain ⟨y, hy, _⟩ := (Tags.tag_is_place w).1 r x hx
    exact absurd hy (hp r y)
  · cases hx : (xparse k w).expected with
    | path => rw [hx] at h; cases h
    | none => rw [hx] at h; cases h
    | impl =>
      obtain ⟨e, h1, h2⟩ := expected_of (fun e => by cases e) hx
      rw [hx] at h
      cases h
      exact ⟨e, h1, fun e => (by cases e), fun e => (by cases e)⟩
    | term =>
      obtain ⟨e, h1, h2⟩ := expected_of (fun e => by cases e) hx
      rw [hx] at h
      cases h
      exact ⟨e, h1, fun e => (by cases e), fun e => (by cases e)⟩
    | type =>
      obtain ⟨e, h1, h2⟩ := expected_of (fun e => by cases e) hx
      rw [hx] at h
      cases h
      exact ⟨e, h1, fun _ => (errors_fit h1).type h2, fun e => (by cases e)⟩
    | speclit =>
      obtain ⟨e, h1, h2⟩ := expected_of (fun e => by cases e) hx
      rw [hx] at h
      cases h
      exact ⟨e, h1, fun e => (by cases e), fun _ => (errors_fit h1).lit h2⟩

/-! ### Behind a slash -/

theorem blank_free (L : Laws k) {s : Str} (h : IsOpName k.cls s) : ' ' ∉ s := by
  obtain ⟨ss, hne, hall, rfl⟩ := h
  have hn : ∀ n ∈ ss, ' ' ∉ n := fun n hn hm => by
    have := (hall n hn).2 ' ' hm
    rw [L.ident_off (by simp)] at this
    cases this
  cases ss with
  | nil => exact absurd rfl hne
  | cons s ss =>
    rw [join_cons]
    intro hm
    rcases List.mem_append.1 hm with hm | hm
    · exact hn s (List.mem_cons_self ..) hm
    · obtain ⟨t, ht, hm⟩ := List.mem_flatMap.1 hm
      rcases List.mem_append.1 hm with hm | hm
      · revert hm; decide
      · exact hn t (List.mem_cons_of_mem _ ht) hm

/-- The error of a name with a slash behind it. -/
theorem slash_path (L : Laws k) {s : Str} (hs : IsOpName k.cls s) :
    ∃ n, xpath k (s ++ ['/']) = .err ⟨[.here (s ++ ['/']) n], .path⟩ := by
  obtain ⟨c, cs, e, hc⟩ := hs.head
  have hr : (tag ['/'] (s ++ ['/'])).isOk = false := by
    rw [e]
    have : c ≠ '/' := by rintro rfl; rw [L.alpha_off (by simp)] at hc; cases hc
    unfold tag
    rw [if_neg]
    · rfl
    · rw [List.isPrefixOf_iff_prefix]
      intro h
      have := List.cons_prefix_cons.1 (show '/' :: [] <+: c :: (cs ++ ['/']) from h)
      exact absurd this.1.symm ‹c ≠ '/'›
  have hn : xopName k (s ++ ['/']) = .ok ['/'] s := by
    have h1 := opName_app L hs (r := ['/']) (fun a e => by injection e with e1; rw [← e1]; exact L.ident_off (by simp)) (by decide)
    have h2 := is_opName k (s ++ ['/'])
    rw [h1] at h2
    cases hx : xopName k (s ++ ['/']) with
    | ok r a => rw [hx] at h2; injection h2 with e1 e2; rw [e1, e2]
    | err e => rw [hx] at h2; cases h2
    | fail e => rw [hx] at h2; cases h2
  unfold xpath
  dsimp only
  rw [hr]
  rw [if_neg (by simp)]
  unfold xsepList1
  rw [hn]
  exact ⟨_, rfl⟩

/-- Completing behind a name and a slash panics, whatever the name. -/
theorem slash_panics (L : Laws k) {s : Str} (hs : IsOpName k.cls s) : completions k (s ++ ['/']) = none := by
  obtain ⟨c, cs, e, hc⟩ := hs.head
  obtain ⟨n, hp⟩ := slash_path L hs
  have hb : ' ' ∉ s ++ ['/'] := by
    intro hm
    rcases List.mem_append.1 hm with hm | hm
    · exact blank_free L hs hm
    · revert hm; decide
  have hq : ∀ q : Str, ' ' ∈ q → q.isPrefixOf (s ++ ['/']) = false := fun q h => by
    rw [Bool.eq_false_iff]
    intro hx
    rw [List.isPrefixOf_iff_prefix] at hx
    exact hb (hx.subset h)
  have ho : ∀ i, i = s ++ ['/'] → xop k i = .err ⟨[.here (s ++ ['/']) n], .path⟩ := fun i hi => by
    unfold xop
    rw [hi, hp, e]
    rw [List.cons_append, specOp_none L hc]
    rfl
  have hk : skip isMulti (s ++ ['/']) = s ++ ['/'] := by
    rw [e]
    refine skip_cons ?_
    cases h : isMulti c with
    | false => rfl
    | true =>
      have : c ∈ [' ', '\t', '\r', '\n'] := by
        unfold isMulti at h
        simp at h ⊢
        grind
      rw [L.alpha_off (by simp at this ⊢; grind)] at hc
      cases hc
  have ht : xoptTy k (s ++ ['/']) = .ok (s ++ ['/']) none := by
    unfold xoptTy xopt
    dsimp only
    have : xchr ':' (s ++ ['/']) = .err (.char (s ++ ['/']) ':') := by
      rw [e]
      show (if c = ':' then _ else _) = _
      rw [if_neg]
      · rfl
      · rintro rfl; rw [L.alpha_off (by simp)] at hc; cases hc
    rw [this]
    rfl
  have hx : ∃ x, xparse k (s ++ ['/']) = .err x ∧ x.exp = .path := by
    unfold xparse
    rw [hq _ (by simp), hq _ (by simp)]
    refine ⟨Err.also (s ++ ['/']) "no command" ⟨[.here (s ++ ['/']) n], .path⟩, ?_, rfl⟩
    · rw [if_neg (by simp), if_neg (by simp)]
      unfold xexpression xnoTrailing xexpr xblk context xws
      rw [hk]
      show XR.map _ (((((xblock k _ (s ++ ['/'])).bind _).mapErr _).bind _).bind _) = _
      unfold xblock
      rw [ht]
      show XR.map _ (((((XR.bind (expecting .impl (fun i => xop k (skip isMulti i)) (s ++ ['/'])) _).bind _).mapErr _).bind _).bind _) = _
      unfold expecting
      dsimp only
      rw [hk, ho _ rfl]
      rfl
  obtain ⟨x, h1, h2⟩ := hx
  unfold completions
  split
  · rename_i r y h
    obtain ⟨z, hz, _⟩ := (Tags.tag_is_place _).1 r y h
    have := is_parse k (s ++ ['/'])
    rw [h1, hz] at this
    cases this
  · rw [h1]
    show itemsFor x.exp = none
    rw [h2]
    rfl

/-! ### Concrete cases -/

/-- The error, and what is expected. -/
def said (k : Env) (w : Str) : Option (List (Str × Str) × Expecting) :=
  match xparse k w with
  | .ok _ _ => none
  | .err e => some (e.locs.map fun p => (p.text, p.after), e.exp)
  | .fail e => some (e.locs.map fun p => (p.text, p.after), e.exp)

/-- `ls #nn x`: the special literal, with what follows. -/
example : said plain ['l', 's', ' ', '#', 'n', 'n', ' ', 'x'] = some ([(['n', 'n'], [' ', 'x']), (['l', 's', ' ', '#', 'n', 'n', ' ', 'x'], [])], .speclit) := by decide +kernel

/-- The notes of an error. -/
def notes (k : Env) (w : Str) : List String :=
  match xparse k w with
  | .ok _ _ => []
  | .err e => e.locs.map (·.note)
  | .fail e => e.locs.map (·.note)

/-- `ls #nn`: the error also says that there is no command, although `ls` is one and the error has a note already. -/
theorem no_command_said : notes plain ['l', 's', ' ', '#', 'n', 'n'] = ["special literals only have one character", "no command"] := by
  decide +kernel

/-- `ls {a} }`: the rest, and the last brace before it, which is the right one. -/
example : said plain ['l', 's', ' ', '{', 'a', '}', ' ', '}'] = some ([(['}'], []), (['}'], [' ', '}'])], .none) := by decide +kernel

/-- `ls:`: a type. -/
example : completions plain ['l', 's', ':'] = some (some ⟨false, true, false, false⟩) := by decide +kernel

/-- `ls { }`: a command, and the place is the block. -/
example : said plain ['l', 's', ' ', '{', ' ', '}'] = some ([(['{', ' ', '}'], []), (['l', 's', ' ', '{', ' ', '}'], [])], .impl) := by decide +kernel

/-- `ls #`: a special literal. -/
example : completions plain ['l', 's', ' ', '#'] = some (some ⟨false, false, false, true⟩) := by decide +kernel

/-- `ls |`: a command. -/
example : completions plain ['l', 's', '|'] = some (some ⟨true, false, false, false⟩) := by decide +kernel

/-- `a/` for `slash_panics`. -/
example : IsOpName plain.cls ['a'] ∧ completions plain ['a', '/'] = none :=
  ⟨⟨[['a']], by simp, fun n hn => by rw [List.mem_singleton.1 hn]; exact ⟨⟨'a', [], rfl, by decide⟩, by decide⟩, rfl⟩, by decide +kernel⟩

/-- A line for `completion_partial` which is accepted. -/
example : completions plain ['l', 's', ' ', 'x'] = some (some ⟨true, false, true, true⟩) := by decide +kernel

end Verif.ParseErr
