import Verif.Spec.Offer
import Verif.Props.Tags
import Verif.Props.ParseErr
import Verif.Props.ParseRound
/-! The last block of a line, and where its command stands. -/
namespace Verif.Offer
open Verif Verif.Nom Verif.Tags
open Verif.Parse (ws many0 manyLoop GoodBs GoodB writeBs writeB)

theorem writeBs_snoc (b : Parse.Blk) : ∀ bs : List Parse.Blk, bs ≠ [] → writeBs (bs ++ [b]) = writeBs bs ++ ([' ', '|', ' '] ++ writeB b)
  | [], h => absurd rfl h
  | [a], _ => by simp [writeBs]
  | a :: c :: bs, _ => by
    have ih := writeBs_snoc b (c :: bs) (by simp)
    show writeB a ++ [' ', '|', ' '] ++ writeBs (c :: bs ++ [b]) = (writeB a ++ [' ', '|', ' '] ++ writeBs (c :: bs)) ++ _
    rw [ih]
    simp only [List.append_assoc]

theorem goodBs_snoc {k : Parse.Env} {b : Parse.Blk} (hb : GoodB k b) : ∀ {bs : List Parse.Blk}, GoodBs k bs → GoodBs k (bs ++ [b])
  | [], _ => ⟨hb, trivial⟩
  | _ :: _, h => ⟨h.1, goodBs_snoc hb h.2⟩

theorem multi_free {k : Parse.Env} (L : Parse.Laws k) {s : Text} (h : Parse.IsOp k.cls (.single s)) : ∀ c ∈ s, isMulti c = false := by
  rcases h with h | ⟨ss, hne, hall, rfl⟩
  · revert h
    revert s
    decide
  · have hn : ∀ n ∈ ss, ∀ c ∈ n, isMulti c = false := fun n hn c hm => by
      have := (hall n hn).2 c hm
      cases hc : isMulti c with
      | false => rfl
      | true =>
        rw [L.ident_off (by unfold isMulti at hc; simp only [Bool.or_eq_true, beq_iff_eq] at hc; rcases hc with ((h | h) | h) | h <;> simp [h])] at this
        cases this
    cases ss with
    | nil => exact absurd rfl hne
    | cons s ss =>
      rw [Parse.join_cons]
      intro c hm
      rcases List.mem_append.1 hm with hm | hm
      · exact hn s (List.mem_cons_self ..) c hm
      · obtain ⟨t, ht, hm⟩ := List.mem_flatMap.1 hm
        rcases List.mem_append.1 hm with hm | hm
        · simp only [List.mem_cons, List.not_mem_nil, or_false, or_self] at hm
          rw [hm]; decide
        · exact hn t (List.mem_cons_of_mem _ ht) c hm

/-- The last block was read at some place, up to what remains. -/
def LastAt (w : Text) (pb : Parser LBlk) (r : Text) (bs : List LBlk) : Prop := ∃ j x, j <:+ w ∧ pb j = .ok r x ∧ bs.getLast? = some x

theorem pipes_last {w : Text} {pb : Parser LBlk} (hb : ∀ j r x, j <:+ w → pb j = .ok r x → r <:+ w) : ∀ (n : Nat) (i : Text) (acc : List LBlk) (r : Text) (bs : List LBlk),
    i <:+ w → LastAt w pb i acc → lPipes pb n i acc = .ok r bs → r <:+ w ∧ LastAt w pb r bs
  | 0, i, acc, r, bs, hi, ha, h => by cases h; exact ⟨hi, ha⟩
  | n + 1, i, acc, r, bs, hi, ha, h => by
    unfold lPipes at h
    split at h
    · rename_i j
      obtain ⟨i1, x, h1, h2⟩ := PR.bind_ok.1 h
      have hj : j <:+ w := (List.suffix_cons _ _).trans hi
      exact pipes_last hb n i1 _ r bs (hb j i1 x hj h1) ⟨j, x, hj, h1, by simp⟩ h2
    · cases h; exact ⟨hi, ha⟩

theorem expr_last {w : Text} {lb : Parser LBlk} (hb : ∀ j r x, j <:+ w → ws lb j = .ok r x → r <:+ w) {r : Text} {t : Span} {bs : List LBlk} {out : Option Span}
    (h : lExpr w lb w = .ok r (.mk t bs out)) : LastAt w (ws lb) r bs := by
  unfold lExpr at h
  obtain ⟨i, x, h1, h⟩ := PR.bind_ok.1 h
  obtain ⟨i2, bs2, h2, h⟩ := PR.bind_ok.1 h
  have hl := pipes_last hb _ _ _ _ _ (hb _ _ _ List.suffix_rfl h1) ⟨w, x, List.suffix_rfl, h1, rfl⟩ h2
  split at h
  · rename_i r' y h3
    cases h
    exact ⟨i2, y, hl.1, h3, by simp⟩
  · cases h
    exact hl.2

theorem many_none {α : Type} {f : Parser α} : ∀ (n : Nat) (i : Text) (acc : List α) (r : Text) (l : List α), manyLoop f n i acc = .ok r l →
    acc.length ≤ l.length ∧ (l.length = acc.length → r = i)
  | 0, i, acc, r, l, h => by cases h
  | n + 1, i, acc, r, l, h => by
    rw [manyLoop] at h
    split at h
    · cases h; exact ⟨Nat.le_refl _, fun _ => rfl⟩
    · cases h
    · split at h
      · cases h
      · have := (many_none n _ _ _ _ h).1
        rw [List.length_append] at this
        simp only [List.length_cons, List.length_nil] at this
        exact ⟨by omega, fun e => by omega⟩

/-- A command without arguments, read up to blanks: its tag ends where the blanks begin. -/
theorem block_call {k : Parse.Env} {w j r : Text} (hj : j <:+ w) {m : Nat} {s : Span} (h : lBlockN k w m j = .ok r (.mk none (.single s) none [])) :
    r <:+ w ∧ s.stop = off w r ∧ s.start < s.stop := by
  cases m with
  | zero => cases h
  | succ m =>
    rw [lBlockN, lBlock] at h
    obtain ⟨i1, t1, h1, h⟩ := PR.bind_ok.1 h
    obtain ⟨i2, o, h2, h⟩ := PR.bind_ok.1 h
    obtain ⟨i3, t3, h3, h⟩ := PR.bind_ok.1 h
    obtain ⟨ts, h4, h⟩ := PR.map_ok.1 h
    cases h
    cases lOptTy_none h1 rfl
    cases lOptTy_none h3 rfl
    have h4 := (many_none _ _ _ _ _ h4).2 rfl
    subst h4
    have hs : skip isMulti j <:+ w := (skip_suffix _ j).trans hj
    rcases (lOp_sim k w _ hs).cases with ⟨r, b, a, e1, e2, e3, e4⟩ | ⟨e1, e2⟩ | ⟨e1, e2⟩
    · rw [e1] at h2
      cases h2
      have e5 : s = ⟨off w (skip isMulti j), off w r⟩ := e4.2.2
      rw [e5]
      exact ⟨e4.1.trans hs, rfl, e4.2.1⟩
    · rw [e1] at h2; cases h2
    · rw [e1] at h2; cases h2

theorem textO_none {w : Text} {a : Option Span} (h : textO w a = some none) : a = none := by
  cases a with
  | none => rfl
  | some a =>
    have h' : (a.str w).map some = some none := h
    obtain ⟨_, _, h'⟩ := Option.map_eq_some_iff.1 h'
    cases h'

theorem call_text {w n : Text} {x : LBlk} (h : x.text w = some (call n)) : ∃ s, x = .mk none (.single s) none [] ∧ s.str w = some n := by
  obtain ⟨a, o, c, ts⟩ := x
  unfold LBlk.text at h
  obtain ⟨a', h1, h⟩ := Option.bind_eq_some_iff.1 h
  obtain ⟨o', h2, h⟩ := Option.bind_eq_some_iff.1 h
  obtain ⟨c', h3, h⟩ := Option.bind_eq_some_iff.1 h
  obtain ⟨ts', h4, h⟩ := Option.map_eq_some_iff.1 h
  unfold call at h
  injection h with e1 e2 e3 e4
  subst e1 e2 e3 e4
  have k1 := textO_none h1
  have k3 := textO_none h3
  have k4 : ts = [] := by
    cases ts with
    | nil => rfl
    | cons t ts =>
      unfold textTs at h4
      obtain ⟨_, _, h4⟩ := Option.bind_eq_some_iff.1 h4
      obtain ⟨_, _, h4⟩ := Option.map_eq_some_iff.1 h4
      cases h4
  subst k1 k3 k4
  cases o with
  | single s =>
    unfold LOp.text at h2
    obtain ⟨t, h5, h2⟩ := Option.map_eq_some_iff.1 h2
    cases h2
    exact ⟨s, rfl, h5⟩
  | path _ cs =>
    unfold LOp.text at h2
    obtain ⟨t, h5, h2⟩ := Option.map_eq_some_iff.1 h2
    cases h2

theorem textBs_last {w : Text} {b : Parse.Blk} : ∀ {xs : List LBlk} {bs : List Parse.Blk} {x : LBlk}, textBs w xs = some (bs ++ [b]) → xs.getLast? = some x → x.text w = some b
  | [], bs, x, _, hx => by cases hx
  | y :: ys, bs, x, h, hx => by
    unfold textBs at h
    obtain ⟨a, h1, h⟩ := Option.bind_eq_some_iff.1 h
    obtain ⟨as, h2, h3⟩ := Option.map_eq_some_iff.1 h
    cases ys with
    | nil =>
      cases hx
      cases h2
      cases bs with
      | nil => cases h3; exact h1
      | cons c bs => cases bs <;> cases h3
    | cons z ys =>
      rw [List.getLast?_cons_cons] at hx
      cases bs with
      | nil =>
        have h : a :: as = [b] := h3
        injection h with _ h4
        subst h4
        unfold textBs at h2
        obtain ⟨_, _, h2⟩ := Option.bind_eq_some_iff.1 h2
        obtain ⟨_, _, h2⟩ := Option.map_eq_some_iff.1 h2
        cases h2
      | cons c bs =>
        have h : a :: as = c :: (bs ++ [b]) := h3
        injection h with _ h4
        subst h4
        exact textBs_last h2 hx

theorem skip_nil {p : Char → Bool} {i : Text} (h : skip p i = []) : ∀ c ∈ i, p c = true := by
  induction i with
  | nil => intro c hc; cases hc
  | cons d i ih =>
    unfold skip at h ih
    rw [List.dropWhile_cons] at h
    split at h
    · rename_i hd
      intro c hc
      rcases List.mem_cons.1 hc with rfl | hc
      · exact hd
      · exact ih h c hc
    · cases h

/-- The line with a command at its end is read, and the part at its last character is that command. -/
theorem last_command {k : Parse.Env} (L : Parse.Laws k) {bs : List Parse.Blk} (hg : GoodBs k bs) {n : Text} (hn : Parse.IsOp k.cls (.single n)) {w : Text}
    (hw : w = writeBs (bs ++ [call n])) :
    ∃ t xs out s, Tags.expression k w = .ok [] (.mk t xs out) ∧ (⟨s, .command⟩ : Node) ∈ leavesBs xs ∧ s.str w = some n ∧ s.start ≤ size w - 1 ∧ size w - 1 < s.stop := by
  have hc : GoodB k (call n) := ⟨trivial, hn, trivial, trivial⟩
  have hgs := goodBs_snoc hc hg
  have hd := Parse.depthBs_le L _ hgs
  have e1 := Parse.expr_round L (bs := bs ++ [call n]) (by simp) (Parse.goodBs_mem L _ hgs) (Parse.roundBs L _ hgs (w.length + 1) (by rw [hw]; omega))
      (R := []) ⟨Or.inl rfl, Or.inl rfl⟩
  rw [List.append_nil, ← hw] at e1
  have hsim := lBlockN_sim k w (w.length + 1)
  rcases (lExpr_sim hsim w List.suffix_rfl).cases with ⟨r, b, a, h1, h2, h3, h4⟩ | ⟨h1, h2⟩ | ⟨h1, h2⟩
  · rw [e1] at h2
    cases h2
    obtain ⟨t, xs, out⟩ := b
    obtain ⟨j, x, hj, hx, hlast⟩ := expr_last (fun j r x hj h => by
      rcases ((hsim.ws (R := fun _ _ _ => True) fun _ _ _ _ _ _ _ _ => trivial) j hj).cases with ⟨r', b, a, h1, h2, h3, h4⟩ | ⟨h1, h2⟩ | ⟨h1, h2⟩
      · rw [h1] at h; cases h; exact h4.1.trans hj
      · rw [h1] at h; cases h
      · rw [h1] at h; cases h) h1
    have htx : textBs w xs = some (bs ++ [call n]) := by
      unfold LExpr.text at h3
      obtain ⟨_, _, h3⟩ := Option.bind_eq_some_iff.1 h3
      obtain ⟨ys, h5, h3⟩ := Option.bind_eq_some_iff.1 h3
      obtain ⟨_, _, h3⟩ := Option.map_eq_some_iff.1 h3
      injection h3 with h3 _
      rw [h5, h3]
    obtain ⟨s, rfl, hs⟩ := call_text (textBs_last htx hlast)
    unfold Parse.ws at hx
    obtain ⟨r, y, h5, h6⟩ := PR.bind_ok.1 hx
    injection h6 with h6 h7
    subst h7
    obtain ⟨b1, b2, b3⟩ := block_call ((skip_suffix _ j).trans hj) h5
    have hr : r = [] := by
      cases hrr : r.getLast? with
      | none => exact List.getLast?_eq_none_iff.1 hrr
      | some c =>
        exfalso
        have hm := skip_nil h6 c (List.mem_of_getLast? hrr)
        obtain ⟨p, hp⟩ := b1
        have hl : w.getLast? = some c := by rw [← hp, List.getLast?_append, hrr]; rfl
        have hne : n ≠ [] := by
          rintro rfl
          rcases hn with h | ⟨ss, h, hall, he⟩
          · exact absurd h (by decide)
          · cases ss with
            | nil => exact h rfl
            | cons a ss =>
              obtain ⟨⟨c, cs, ha, _⟩, _⟩ := hall a (List.mem_cons_self ..)
              rw [Parse.join_cons, ha] at he
              cases he
        have hwn : ∃ p, w = p ++ n := by
          rw [hw]
          cases bs with
          | nil => exact ⟨[], by simp [writeBs, writeB, call, Parse.writeOp, Parse.writeTy, Parse.writeTs]⟩
          | cons b bs => exact ⟨writeBs (b :: bs) ++ [' ', '|', ' '], by
              rw [writeBs_snoc _ _ (by simp)]
              simp [writeB, call, Parse.writeOp, Parse.writeTy, Parse.writeTs]⟩
        obtain ⟨q, hq⟩ := hwn
        rw [hq, List.getLast?_append] at hl
        cases hnl : n.getLast? with
        | none => exact hne (List.getLast?_eq_none_iff.1 hnl)
        | some d =>
          rw [hnl] at hl
          cases hl
          rw [multi_free L hn _ (List.mem_of_getLast? hnl)] at hm
          cases hm
    subst hr
    rw [off_nil] at b2
    refine ⟨t, xs, out, s, ?_, ?_, hs, by omega, by omega⟩
    · unfold Tags.expression Parse.noTrailing
      rw [h1]
      rfl
    · obtain ⟨ys, hys⟩ : ∃ ys, xs = ys ++ [LBlk.mk none (.single s) none []] := by
        obtain ⟨ys, hys⟩ := List.getLast?_eq_some_iff.1 hlast
        exact ⟨ys, hys⟩
      rw [hys, leavesBs_snoc]
      exact List.mem_append_right _ (List.mem_cons_self ..)
  · rw [e1] at h2; cases h2
  · rw [e1] at h2; cases h2

end Verif.Offer
