import Verif.Lemmas.TagsDef
/-! The parts of parsed input are its words. -/
namespace Verif.Tags
open Verif.Nom Verif.File
open Verif.Parse (Env Str ws)

/-- A part with the text at its place. -/
def seen (w : Str) (n : Node) : NodeType × Option Str := (n.ty, n.tag.str w)

/-- The parts are those words. -/
def Same (w : Str) (ns : List Node) (l : List (NodeType × Str)) : Prop := (ns.map (seen w)).Perm (l.map fun p => (p.1, some p.2))

theorem Same.nil {w : Str} : Same w [] [] := List.Perm.nil

theorem Same.append {w : Str} {a b : List Node} {c d : List (NodeType × Str)} (h : Same w a c) (h2 : Same w b d) : Same w (a ++ b) (c ++ d) := by
  unfold Same at *
  rw [List.map_append, List.map_append]
  exact h.append h2

theorem Same.cons {w : Str} {t : Span} {ty : NodeType} {x : Str} {b : List Node} {d : List (NodeType × Str)} (h : t.str w = some x) (h2 : Same w b d) :
    Same w (⟨t, ty⟩ :: b) ((ty, x) :: d) := by
  unfold Same at *
  rw [List.map_cons, List.map_cons]
  have e : seen w ⟨t, ty⟩ = (ty, some x) := by unfold seen; dsimp only; rw [h]
  rw [e]
  exact h2.cons _

mutual
theorem sameE {w : Str} : ∀ (e : LExpr) (y : Parse.Expr), e.usesPath = false → e.text w = some y → Same w e.leaves (wordsE y)
  | .mk t bs o, y, hu, h => by
    simp only [LExpr.text] at h
    obtain ⟨_, _, h⟩ := Option.bind_eq_some_iff.1 h
    obtain ⟨bs', h1, h⟩ := Option.bind_eq_some_iff.1 h
    obtain ⟨o', _, h⟩ := Option.map_eq_some_iff.1 h
    subst h
    exact sameBs bs bs' hu h1
theorem sameBs {w : Str} : ∀ (bs : List LBlk) (y : List Parse.Blk), pathsBs bs = false → textBs w bs = some y → Same w (leavesBs bs) (wordsBs y)
  | [], y, _, h => by cases h; exact .nil
  | b :: bs, y, hu, h => by
    simp only [pathsBs, Bool.or_eq_false_iff] at hu
    simp only [textBs] at h
    obtain ⟨b', h1, h⟩ := Option.bind_eq_some_iff.1 h
    obtain ⟨bs', h2, h⟩ := Option.map_eq_some_iff.1 h
    subst h
    exact (sameB b b' hu.1 h1).append (sameBs bs bs' hu.2 h2)
theorem sameB {w : Str} : ∀ (b : LBlk) (y : Parse.Blk), b.usesPath = false → b.text w = some y → Same w b.leaves (wordsB y)
  | .mk a (.path r cs) c ts, y, hu, h => by simp [LBlk.usesPath] at hu
  | .mk a (.single t) c ts, y, hu, h => by
    simp only [LBlk.usesPath, Bool.or_eq_false_iff] at hu
    simp only [LBlk.text] at h
    obtain ⟨_, _, h⟩ := Option.bind_eq_some_iff.1 h
    obtain ⟨o', h1, h⟩ := Option.bind_eq_some_iff.1 h
    obtain ⟨_, _, h⟩ := Option.bind_eq_some_iff.1 h
    obtain ⟨ts', h2, h⟩ := Option.map_eq_some_iff.1 h
    subst h
    obtain ⟨x, h3, h4⟩ := Option.map_eq_some_iff.1 h1
    subst h4
    exact .cons h3 (sameTs ts ts' hu.2 h2)
theorem sameTs {w : Str} : ∀ (ts : List LTerm) (y : List Parse.Term), pathsTs ts = false → textTs w ts = some y → Same w (leavesTs ts) (wordsTs y)
  | [], y, _, h => by cases h; exact .nil
  | b :: bs, y, hu, h => by
    simp only [pathsTs, Bool.or_eq_false_iff] at hu
    simp only [textTs] at h
    obtain ⟨b', h1, h⟩ := Option.bind_eq_some_iff.1 h
    obtain ⟨bs', h2, h⟩ := Option.map_eq_some_iff.1 h
    subst h
    exact (sameT b b' hu.1 h1).append (sameTs bs bs' hu.2 h2)
theorem sameT {w : Str} : ∀ (t : LTerm) (y : Parse.Term), t.usesPath = false → t.text w = some y → Same w t.leaves (wordsT y)
  | .flag t, y, _, h => by
    obtain ⟨x, h1, h⟩ := Option.map_eq_some_iff.1 h
    subst h
    exact .cons h1 .nil
  | .arg a, y, hu, h => by
    simp only [LTerm.text] at h
    obtain ⟨x, h1, h⟩ := Option.map_eq_some_iff.1 h
    subst h
    exact sameA a x hu h1
theorem sameA {w : Str} : ∀ (a : LArg) (y : Parse.Arg), a.usesPath = false → a.text w = some y → Same w a.leaves (wordsA y)
  | .ident t, y, _, h => by
    obtain ⟨x, h1, h⟩ := Option.map_eq_some_iff.1 h
    subst h
    exact .cons h1 .nil
  | .num t, y, _, h => by
    obtain ⟨x, h1, h⟩ := Option.map_eq_some_iff.1 h
    subst h
    exact .cons h1 .nil
  | .var t, y, _, h => by
    obtain ⟨x, h1, h⟩ := Option.map_eq_some_iff.1 h
    subst h
    exact .cons h1 .nil
  | .pound c t, y, _, h => by
    simp only [LArg.text] at h
    split at h
    · rename_i h1
      cases h
      exact .cons h1 .nil
    · cases h
  | .expr e, y, hu, h => by
    simp only [LArg.text] at h
    obtain ⟨x, h1, h⟩ := Option.map_eq_some_iff.1 h
    subst h
    exact sameE e x hu h1
  | .dot t op lhs rhs out, y, hu, h => by
    simp only [LArg.text] at h
    split at h
    · rename_i h0
      obtain ⟨_, _, h⟩ := Option.bind_eq_some_iff.1 h
      obtain ⟨l', h1, h⟩ := Option.bind_eq_some_iff.1 h
      obtain ⟨r', h2, h⟩ := Option.bind_eq_some_iff.1 h
      obtain ⟨_, _, h⟩ := Option.map_eq_some_iff.1 h
      subst h
      have h3 := (sameA lhs l' hu h1).append (Same.cons (ty := .command) h0 (Same.cons (ty := .ident) h2 .nil))
      unfold Same at *
      refine List.Perm.trans ?_ h3
      refine List.Perm.map _ ?_
      simp only [LArg.leaves]
      exact List.perm_middle.symm
    · cases h
end

theorem same_all {w : Str} {β α : Type} {f : β → Option α} {g : β → List Node} {e : α → List (NodeType × Str)} (h : ∀ b a, f b = some a → Same w (g b) (e a)) :
    ∀ (bs : List β) (as : List α), allO f bs = some as → Same w (bs.flatMap g) (as.flatMap e)
  | [], as, h1 => by cases h1; exact .nil
  | b :: bs, as, h1 => by
    simp only [allO] at h1
    obtain ⟨b', h2, h1⟩ := Option.bind_eq_some_iff.1 h1
    obtain ⟨bs', h3, h1⟩ := Option.map_eq_some_iff.1 h1
    subst h1
    simp only [List.flatMap_cons]
    exact (h b b' h2).append (same_all h bs bs' h3)

theorem same_map {w : Str} {β α : Type} {f : β → Option α} {g : β → Node} {e : α → NodeType × Str} (h : ∀ b a, f b = some a → Same w [g b] [e a])
    (bs : List β) (as : List α) (h1 : allO f bs = some as) : Same w (bs.map g) (as.map e) := by
  have := same_all (g := fun b => [g b]) (e := fun b => [e b]) h bs as h1
  rwa [← List.map_eq_flatMap, ← List.map_eq_flatMap] at this

theorem sameF {w : Str} (f : LField) (y : Parse.Field) (h : f.text w = some y) : Same w f.leaves (wordsF y) := by
  obtain ⟨n, h1, h⟩ := Option.bind_eq_some_iff.1 h
  obtain ⟨t, h2, h⟩ := Option.bind_eq_some_iff.1 h
  obtain ⟨ps, h3, h⟩ := Option.map_eq_some_iff.1 h
  subst h
  refine .cons h1 (.cons h2 (same_map ?_ _ _ h3))
  intro b a hb
  exact .cons hb .nil

theorem sameV {w : Str} (v : Span × Option (List LField)) (y : Str × Option (List Parse.Field)) (h : variantText w v = some y) : Same w (variantLeaves v) (wordsV y) := by
  obtain ⟨n, h1, h⟩ := Option.bind_eq_some_iff.1 h
  obtain ⟨fs, h2, h⟩ := Option.map_eq_some_iff.1 h
  subst h
  obtain ⟨v1, v2⟩ := v
  cases v2 with
  | none => cases h2; exact .cons h1 .nil
  | some l =>
    obtain ⟨fs', h3, h4⟩ := Option.map_eq_some_iff.1 h2
    subst h4
    exact .cons h1 (same_all sameF _ _ h3)

theorem skip_d {r : Str} : skip isMulti ('d' :: r) = 'd' :: r := rfl

theorem str_start {w pre r : Str} (e : w = pre ++ r) {t : Span} (h1 : t.start = 0) (h2 : t.stop = size pre) : t.str w = some pre := by
  have := str_mk (w := w) (i := w) (t := pre) (r := r) List.suffix_rfl e
  unfold mkTag at this
  rw [off_self] at this
  obtain ⟨a, b⟩ := t
  cases h1; cases h2
  rwa [Nat.zero_add] at this

theorem impl_word {k : Env} {w r : Str} {d : LDefImpl} (h : definitionImpl k w = .ok r d) (hp : ['d', 'e', 'f', ' '].isPrefixOf w = true) :
    (defTag d.name).str w = some ['d', 'e', 'f'] := by
  obtain ⟨r0, e⟩ := List.isPrefixOf_iff_prefix.1 hp
  unfold definitionImpl at h
  obtain ⟨i1, name, h1, h⟩ := PR.bind_ok.1 h
  obtain ⟨i2, ty, h2, h⟩ := PR.bind_ok.1 h
  obtain ⟨i3, ps, h3, h⟩ := PR.bind_ok.1 h
  obtain ⟨b, h4, h5⟩ := PR.map_ok.1 h
  subst h5
  dsimp only
  unfold lDefOp at h1
  obtain ⟨i4, o, h6, h7⟩ := PR.bind_ok.1 h1
  unfold ws at h6
  obtain ⟨i5, o', h8, h9⟩ := PR.bind_ok.1 h6
  cases h9
  have hw : skip isMulti w = w := by rw [← e]; exact skip_d
  rw [hw] at h8
  obtain ⟨i6, _, h9, h10⟩ := PR.bind_ok.1 h8
  have e2 := tag_ok.1 h9
  have hi : i6 <:+ w := ⟨_, e2.symm⟩
  have hs := lOp_sim k w i6 hi
  rcases hs.cases with ⟨r', b', a', e3, e4, h11, h12⟩ | ⟨e3, e4⟩ | ⟨e3, e4⟩
  · rw [e3] at h10
    cases h10
    cases o with
    | path _ _ => cases h7
    | single t =>
      cases h7
      have e5 : name = _ := h12.2.2
      have e6 : off w i6 = 4 := off_pre e2
      refine str_start (r := ' ' :: i6) e2 rfl ?_
      rw [e5]
      show off w i6 - 1 = _
      rw [e6]; rfl
  · rw [e3] at h10; cases h10
  · rw [e3] at h10; cases h10

theorem ty_word {k : Env} {w r : Str} {d : LDefTy} (h : definitionType k w = .ok r d) (hp : ['d', 'e', 'f', '-', 't', 'y', ' '].isPrefixOf w = true) :
    (defTag d.name).str w = some ['d', 'e', 'f', '-', 't', 'y'] := by
  obtain ⟨r0, e⟩ := List.isPrefixOf_iff_prefix.1 hp
  unfold definitionType at h
  obtain ⟨i1, name, h1, h⟩ := PR.bind_ok.1 h
  obtain ⟨i2, ty, h2, h⟩ := PR.bind_ok.1 h
  have hd : d.name = name := by
    split at h
    · cases h; rfl
    · cases h
  rw [hd]
  unfold ws at h1
  obtain ⟨i5, o', h8, h9⟩ := PR.bind_ok.1 h1
  cases h9
  have hw : skip isMulti w = w := by rw [← e]; exact skip_d
  rw [hw] at h8
  obtain ⟨i6, _, h9, h10⟩ := PR.bind_ok.1 h8
  have e2 := tag_ok.1 h9
  have hi : i6 <:+ w := ⟨_, e2.symm⟩
  have hs := lName_sim k w i6 hi
  rcases hs.cases with ⟨r', b', a', e3, e4, h11, h12⟩ | ⟨e3, e4⟩ | ⟨e3, e4⟩
  · rw [e3] at h10
    cases h10
    have e5 : name = _ := h12.2.2
    have e6 : off w i6 = 7 := off_pre e2
    refine str_start (r := ' ' :: i6) e2 rfl ?_
    rw [e5]
    show off w i6 - 1 = _
    rw [e6]; rfl
  · rw [e3] at h10; cases h10
  · rw [e3] at h10; cases h10

theorem def_word {k : Env} {w r : Str} {x : LParsed} (h : parse k w = .ok r x) :
    match x with
    | .impl d => (defTag d.name).str w = some ['d', 'e', 'f']
    | .ty d => (defTag d.name).str w = some ['d', 'e', 'f', '-', 't', 'y']
    | .expr _ => True := by
  unfold parse at h
  split at h
  · rename_i hp
    obtain ⟨d, h1, rfl⟩ := PR.map_ok.1 h
    exact impl_word h1 hp
  · split at h
    · rename_i hp
      obtain ⟨d, h1, rfl⟩ := PR.map_ok.1 h
      exact ty_word h1 hp
    · obtain ⟨d, h1, rfl⟩ := PR.map_ok.1 h
      exact True.intro

theorem same_words {k : Env} {w r : Str} {x : LParsed} {y : Parse.Parsed} (h : parse k w = .ok r x) (hu : x.usesPath = false) (ht : x.text w = some y) :
    Same w x.leaves (words y) := by
  have hd := def_word h
  cases x with
  | expr e =>
    obtain ⟨z, h1, rfl⟩ := Option.map_eq_some_iff.1 ht
    exact sameE e z hu h1
  | ty d =>
    obtain ⟨z, h1, rfl⟩ := Option.map_eq_some_iff.1 ht
    obtain ⟨n, h2, h1⟩ := Option.bind_eq_some_iff.1 h1
    obtain ⟨b, h3, rfl⟩ := Option.map_eq_some_iff.1 h1
    obtain ⟨dn, db⟩ := d
    cases db with
    | sum vs =>
      obtain ⟨z, h4, rfl⟩ := Option.map_eq_some_iff.1 h3
      exact .cons hd (.cons h2 (same_all sameV _ _ h4))
    | product fs =>
      obtain ⟨z, h4, rfl⟩ := Option.map_eq_some_iff.1 h3
      exact .cons hd (.cons h2 (same_all sameF _ _ h4))
  | impl d =>
    obtain ⟨z, h1, rfl⟩ := Option.map_eq_some_iff.1 ht
    obtain ⟨n, h2, h1⟩ := Option.bind_eq_some_iff.1 h1
    obtain ⟨t, h3, h1⟩ := Option.bind_eq_some_iff.1 h1
    obtain ⟨ps, h4, h1⟩ := Option.bind_eq_some_iff.1 h1
    obtain ⟨e, h5, rfl⟩ := Option.map_eq_some_iff.1 h1
    obtain ⟨dn, dt, dp, de⟩ := d
    refine .cons hd (.cons h2 ?_)
    rw [List.append_assoc]
    refine Same.append ?_ (Same.append (same_map ?_ _ _ h4) (sameE de e hu h5))
    · cases dt with
      | none => cases h3; exact .nil
      | some t =>
        obtain ⟨z, h6, rfl⟩ := Option.map_eq_some_iff.1 h3
        exact .cons h6 .nil
    · intro b a hb
      obtain ⟨n', h6, hb⟩ := Option.bind_eq_some_iff.1 hb
      obtain ⟨_, _, rfl⟩ := Option.map_eq_some_iff.1 hb
      exact .cons h6 .nil

end Verif.Tags
