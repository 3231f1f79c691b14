import Verif.Props.ParseDefs
/-! Expressions and definitions: cases which meet the theorems' hypotheses, and what cannot be written. -/
namespace Verif.Parse
open Verif.Nom Verif.File

mutual
/-- Equality of expressions, to compare them by computation. -/
def eqE : Expr → Expr → Bool
  | .mk a s, .mk b t => eqBs a b && decide (s = t)
def eqBs : List Blk → List Blk → Bool
  | [], [] => true
  | a :: as, b :: bs => eqB a b && eqBs as bs
  | _, _ => false
def eqB : Blk → Blk → Bool
  | .mk i o u ts, .mk j p v us => decide (i = j) && decide (o = p) && decide (u = v) && eqTs ts us
def eqTs : List Term → List Term → Bool
  | [], [] => true
  | a :: as, b :: bs => eqT a b && eqTs as bs
  | _, _ => false
def eqT : Term → Term → Bool
  | .flag s, .flag t => decide (s = t)
  | .arg a, .arg b => eqA a b
  | _, _ => false
def eqA : Arg → Arg → Bool
  | .ident s, .ident t => decide (s = t)
  | .num s, .num t => decide (s = t)
  | .pound c, .pound d => decide (c = d)
  | .var s, .var t => decide (s = t)
  | .expr e, .expr f => eqE e f
  | .dot l r o, .dot m s p => eqA l m && decide (r = s) && decide (o = p)
  | _, _ => false
end

mutual
theorem eqE_eq : ∀ a b, eqE a b = true → a = b
  | .mk a s, .mk b t, h => by
    simp only [eqE, Bool.and_eq_true, decide_eq_true_eq] at h
    rw [eqBs_eq a b h.1, h.2]
theorem eqBs_eq : ∀ a b, eqBs a b = true → a = b
  | [], [], _ => rfl
  | [], _ :: _, h => by simp [eqBs] at h
  | _ :: _, [], h => by simp [eqBs] at h
  | a :: as, b :: bs, h => by
    simp only [eqBs, Bool.and_eq_true] at h
    rw [eqB_eq a b h.1, eqBs_eq as bs h.2]
theorem eqB_eq : ∀ a b, eqB a b = true → a = b
  | .mk i o u ts, .mk j p v us, h => by
    simp only [eqB, Bool.and_eq_true, decide_eq_true_eq] at h
    obtain ⟨⟨⟨h1, h2⟩, h3⟩, h4⟩ := h
    rw [h1, h2, h3, eqTs_eq ts us h4]
theorem eqTs_eq : ∀ a b, eqTs a b = true → a = b
  | [], [], _ => rfl
  | [], _ :: _, h => by simp [eqTs] at h
  | _ :: _, [], h => by simp [eqTs] at h
  | a :: as, b :: bs, h => by
    simp only [eqTs, Bool.and_eq_true] at h
    rw [eqT_eq a b h.1, eqTs_eq as bs h.2]
theorem eqT_eq : ∀ a b, eqT a b = true → a = b
  | .flag s, .flag t, h => by simp only [eqT, decide_eq_true_eq] at h; rw [h]
  | .arg a, .arg b, h => by rw [eqA_eq a b (by simpa [eqT] using h)]
  | .flag _, .arg _, h => by simp [eqT] at h
  | .arg _, .flag _, h => by simp [eqT] at h
theorem eqA_eq : ∀ a b, eqA a b = true → a = b
  | .ident s, b, h => by
    cases b <;> simp [eqA] at h
    rw [h]
  | .num s, b, h => by
    cases b <;> simp [eqA] at h
    rw [h]
  | .pound s, b, h => by
    cases b <;> simp [eqA] at h
    rw [h]
  | .var s, b, h => by
    cases b <;> simp [eqA] at h
    rw [h]
  | .expr e, b, h => by
    cases b with
    | expr f => rw [eqE_eq e f (by simpa [eqA] using h)]
    | _ => simp [eqA] at h
  | .dot l r o, b, h => by
    cases b with
    | dot m s p =>
      simp only [eqA, Bool.and_eq_true, decide_eq_true_eq] at h
      rw [eqA_eq l m h.1.1, h.1.2, h.2]
    | _ => simp [eqA] at h
end

/-- The parser reads exactly this expression. -/
def reads (r : PR Expr) (e : Expr) : Bool :=
  match r with
  | .ok [] f => eqE f e
  | _ => false

theorem reads_eq {r : PR Expr} {e : Expr} (h : reads r e = true) : r = .ok [] e := by
  unfold reads at h
  split at h
  · rw [eqE_eq _ _ h]
  · cases h

/-- The same for a definition. -/
def readsDef (r : PR DefImpl) (d : DefImpl) : Bool :=
  match r with
  | .ok [] f => decide (f.name = d.name) && decide (f.inTy = d.inTy) && decide (f.params = d.params) && eqE f.body d.body
  | _ => false

theorem readsDef_eq {r : PR DefImpl} {d : DefImpl} (h : readsDef r d = true) : r = .ok [] d := by
  unfold readsDef at h
  split at h
  · rename_i f
    simp only [Bool.and_eq_true, decide_eq_true_eq] at h
    obtain ⟨⟨⟨h1, h2⟩, h3⟩, h4⟩ := h
    have h5 := eqE_eq _ _ h4
    cases f; cases d
    simp_all
  · cases h

/-- ASCII classes, numbers of digits, and a few commands. -/
def plain : Env where
  cls := ⟨Char.isAlpha, Char.isAlphanum⟩
  isNum s := !s.isEmpty && s.all Char.isDigit
  known s := s = "ls".toList || s = "eq".toList || s = ['-'] || s = ['/']

/-- The laws hold for ASCII. -/
theorem plain_laws : Laws plain where
  alnum c h := by simp_all [plain, Char.isAlphanum]
  punct := by decide
  num q s h := by rcases h with rfl | rfl <;> simp [plain, Char.isDigit] <;> decide

/-- `:Table filter:Table "col 1" { eq 3 | not:Bool }:Bool --deep $x.'y"z':Num | std/math::abs #t`. -/
def sample : Expr :=
  .mk [.mk (some "Table".toList) (.single "filter".toList) (some "Table".toList)
      [.arg (.ident "col 1".toList),
       .arg (.expr (.mk [.mk none (.single "eq".toList) none [.arg (.num "3".toList)],
          .mk none (.single "not".toList) (some "Bool".toList) []] (some "Bool".toList))),
       .flag "deep".toList,
       .arg (.dot (.var "x".toList) "y\"z".toList (some "Num".toList))],
    .mk none (.path false ["std".toList, "math::abs".toList]) none [.arg (.pound 't')]] none

theorem plain_name {s : Str} (h : (s.head?.any Char.isAlpha && s.all plain.cls.ident) = true) : IsName plain.cls s := by
  simp only [Bool.and_eq_true, Option.any_eq_true, List.all_eq_true] at h
  obtain ⟨⟨c, h1, h2⟩, h3⟩ := h
  cases s with
  | nil => cases h1
  | cons d ds =>
    simp at h1
    subst h1
    exact ⟨⟨d, ds, rfl, h2⟩, h3⟩

theorem sample_good : GoodE plain sample := by
  have n1 : ∀ s : Str, (s.head?.any Char.isAlpha && s.all plain.cls.ident) = true → IsOpName plain.cls s :=
    fun s h => ⟨[s], by simp, by simpa using plain_name h, by simp [join]⟩
  refine ⟨by simp, ⟨⟨plain_name (by decide), Or.inr (n1 _ (by decide)), plain_name (by decide), ?_⟩,
    ⟨trivial, ⟨rfl, by decide, ?_⟩, trivial, ⟨by decide, by decide⟩, trivial⟩, trivial⟩, trivial⟩
  · refine ⟨Or.inl (by unfold Quotable; decide), ⟨by simp, ⟨⟨trivial, Or.inr (n1 _ (by decide)), trivial,
      ⟨by decide, by decide, by decide, by decide, by decide, by decide⟩, trivial⟩,
      ⟨trivial, Or.inr (n1 _ (by decide)), plain_name (by decide), trivial⟩, trivial⟩, plain_name (by decide)⟩,
      Or.inl (by unfold Quotable; decide),
      ⟨plain_name (by decide), by simp, by simp, by unfold Quotable; decide, plain_name (by decide)⟩, trivial⟩
  · intro c hc
    simp only [List.mem_cons, List.not_mem_nil, or_false] at hc
    rcases hc with rfl | rfl
    · exact n1 _ (by decide)
    · exact ⟨["math".toList, "abs".toList], by simp, by
        intro n hn
        simp only [List.mem_cons, List.not_mem_nil, or_false] at hn
        rcases hn with rfl | rfl <;> exact plain_name (by decide), by decide⟩

/-- `expression_round_trip` applies to an expression with everything in it. -/
example : expression plain (write sample) = .ok [] sample :=
  expression_round_trip plain_laws sample sample_good

example : write sample =
    ":Table filter:Table \"col 1\" { eq 3 | not:Bool }:Bool --\"deep\" $x.'y\"z':Num | std/math::abs #t".toList := by
  decide +kernel

/-- A word written bare is quoted in canonical form, a command in the place of an argument is put in braces. -/
example : expression plain "ls foo eq 1".toList = .ok [] (.mk [.mk none (.single "ls".toList) none
    [.arg (.ident "foo".toList), .arg (.expr (.mk [.mk none (.single "eq".toList) none
      [.arg (.num "1".toList)]] none))]] none) := reads_eq (by decide +kernel)

/-- `definition_round_trip`, `type_round_trip`, `parse_reread`: definitions which can be read. -/
example : definitionImpl plain "def foo Num (a:Str b) {ls $a|eq $b}".toList =
    .ok [] ⟨"foo".toList, some "Num".toList, [⟨"a".toList, some "Str".toList⟩, ⟨"b".toList, none⟩],
      .mk [.mk none (.single "ls".toList) none [.arg (.var "a".toList)],
        .mk none (.single "eq".toList) none [.arg (.var "b".toList)]] none⟩ := readsDef_eq (by decide +kernel)

example : definitionType plain "def-ty A :: X | Y {a:Num b:Map<Str Num>}|Z".toList =
    .ok [] ⟨"A".toList, .sum [("X".toList, none), ("Y".toList, some [⟨"a".toList, "Num".toList, []⟩,
      ⟨"b".toList, "Map".toList, ["Str".toList, "Num".toList]⟩]), ("Z".toList, none)]⟩ := by decide +kernel

/-! ### Limits of the written form -/

/-- A path which starts at the root is never read as one: the slash is taken for the division symbol. -/
theorem rooted_path_never (k : Env) (i r : Str) (cs : List Str) : op k i ≠ .ok r (.path true cs) := by
  intro h
  unfold op at h
  split at h
  · cases h
  · rename_i hs
    obtain ⟨⟨b, ds⟩, h1, h2⟩ := PR.map_ok.1 h
    dsimp only at h2
    split at h2
    · cases h2
    · injection h2 with h3 h4
      subst h3
      unfold path at h1
      dsimp only at h1
      obtain ⟨j, es, _, h6⟩ := PR.bind_ok.1 h1
      unfold pathEnd at h6
      split at h6
      · cases h6
      · injection h6 with _ h7
        injection h7 with h8 _
        cases i with
        | nil => simp [tag, PR.isOk] at h8
        | cons c cs =>
          by_cases hc : c = '/'
          · subst hc
            have : specOp ('/' :: cs) = .ok cs ['/'] := by
              simp [specOp, specOps, List.find?, List.isPrefixOf]
            exact hs _ _ this
          · have : tag ['/'] (c :: cs) = .err := by
              simp [tag, List.isPrefixOf, Ne.symm hc]
            rw [this] at h8
            simp [PR.isOk] at h8

/-- Text after the last argument which is no argument is taken for another block, without a pipe: `ls --`
subtracts `-` from what `ls` yields. -/
theorem block_without_pipe : expression plain "ls --".toList =
    .ok [] (.mk [.mk none (.single "ls".toList) none [], .mk none (.single ['-']) none
      [.arg (.expr (.mk [.mk none (.single ['-']) none []] none))]] none) := reads_eq (by decide +kernel)

/-- A blank between empty brackets is an error, in a definition of a command or a type. -/
theorem blank_in_brackets :
    ((definitionImpl plain "def foo ( ) { ls }".toList).isOk, (definitionImpl plain "def foo () { ls }".toList).isOk,
      (definitionType plain "def-ty A { }".toList).isOk, (definitionType plain "def-ty A {}".toList).isOk) =
    (false, true, false, true) := by decide +kernel

/-- After a space `def` is the name of a command, at the start of the input it is a definition. -/
theorem space_matters : ((expression plain " def x".toList).isOk, (parse plain " def x".toList).isOk,
    (parse plain "def x".toList).isOk) = (true, true, false) := by decide +kernel

/-- A dot after a number or a bare word belongs to it. -/
theorem dot_in_word : expression plain "ls a.b".toList =
    .ok [] (.mk [.mk none (.single "ls".toList) none [.arg (.ident "a.b".toList)]] none) := reads_eq (by decide +kernel)

/-- A type may have no variants. -/
theorem no_variants : definitionType plain "def-ty A ::".toList = .ok [] ⟨['A'], .sum []⟩ := by decide +kernel

end Verif.Parse
