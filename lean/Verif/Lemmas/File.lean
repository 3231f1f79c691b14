import Verif.Spec.File
namespace Verif.File

/-! ### Lines -/

theorem tiled_linesGo (cs : List Char) : ∀ (o : Nat) (acc : List Char), '\n' ∉ acc →
    Tiled o (acc ++ cs) (linesGo o acc cs) := by
  induction cs with
  | nil =>
    intro o acc h
    simp only [linesGo, List.append_nil]
    split
    · rename_i he; rw [List.isEmpty_iff.1 he]; exact .nil o
    · rename_i he; exact .last o acc h (by simpa using he)
  | cons c cs ih =>
    intro o acc h
    simp only [linesGo]
    split
    · rename_i hc; subst hc
      unfold stripCr
      split
      · rename_i hl
        obtain ⟨a, rfl⟩ : ∃ a, acc = a ++ ['\r'] := by
          rw [List.getLast?_eq_some_iff] at hl; exact hl
        have := Tiled.crlf o a cs (linesGo (o + (a ++ ['\r']).length + 1) [] cs)
          (fun hn => h (List.mem_append_left _ hn))
          (by simpa [Nat.add_assoc] using ih (o + (a ++ ['\r']).length + 1) [] (by simp))
        simpa using this
      · rename_i hl
        exact .lf o acc cs _ h hl (by simpa using ih (o + acc.length + 1) [] (by simp))
    · rename_i hc
      have := ih o (acc ++ [c]) (by
        intro hn
        rcases List.mem_append.1 hn with hn | hn
        · exact h hn
        · exact hc (List.mem_singleton.1 hn).symm)
      simpa using this

theorem tiled_lines (s : Sl) : Tiled s.off s.str s.lines := by
  have := tiled_linesGo s.str s.off [] (by simp)
  exact this

theorem linesGo_line (l : List Char) : ∀ (o : Nat) (acc rest : List Char), '\n' ∉ l →
    linesGo o acc (l ++ rest) = linesGo o (acc ++ l) rest := by
  induction l with
  | nil => intro o acc rest _; simp
  | cons c l ih =>
    intro o acc rest h
    have hc : c ≠ '\n' := fun e => h (by simp [e])
    simp only [List.cons_append, linesGo, if_neg hc]
    rw [ih o (acc ++ [c]) rest (fun hn => h (by simp [hn]))]
    simp

theorem tiled_unique {o : Nat} {s : List Char} {ls : List Sl} (h : Tiled o s ls) :
    linesGo o [] s = ls := by
  induction h with
  | nil o => rfl
  | last o l h1 h2 =>
    have := linesGo_line l o [] [] h1
    simp only [List.append_nil] at this
    rw [this]; simp [linesGo, h2]
  | lf o l rest ls h1 h2 h3 ih =>
    rw [linesGo_line l o [] _ h1]
    simp [linesGo, stripCr, h2, ih]
  | crlf o l rest ls h1 h3 ih =>
    rw [linesGo_line l o [] _ h1]
    simp only [List.nil_append, linesGo, show ('\r' : Char) ≠ '\n' by decide, if_false, if_true]
    simp only [stripCr, List.getLast?_append, List.getLast?_singleton, Option.some_or, if_true,
      List.dropLast_concat, List.length_append, List.length_singleton, List.cons.injEq, true_and]
    simpa [Nat.add_assoc] using ih

/-- The ending `e` of a line `l` that is followed by `rest`. -/
def Eol (l e rest : List Char) : Prop :=
  (e = [] ∧ rest = [] ∧ l ≠ []) ∨ (e = ['\n'] ∧ l.getLast? ≠ some '\r') ∨ e = ['\r', '\n']

theorem tiled_inv {o : Nat} {x : List Char} {l : Sl} {r : List Sl} (h : Tiled o x (l :: r)) :
    l.off = o ∧ '\n' ∉ l.str ∧ ∃ e rest, x = l.str ++ e ++ rest ∧
      Tiled (o + (l.str ++ e).length) rest r ∧ Eol l.str e rest := by
  generalize hL : l :: r = L at h
  cases h with
  | nil => cases hL
  | last _ l' h1 h2 =>
    simp only [List.cons.injEq] at hL
    obtain ⟨rfl, rfl⟩ := hL
    exact ⟨rfl, h1, [], [], by simp, .nil _, Or.inl ⟨rfl, rfl, h2⟩⟩
  | lf _ l' rest ls h1 h2 h3 =>
    simp only [List.cons.injEq] at hL
    obtain ⟨rfl, rfl⟩ := hL
    exact ⟨rfl, h1, ['\n'], rest, by simp, by simpa [Nat.add_assoc] using h3, Or.inr (Or.inl ⟨rfl, h2⟩)⟩
  | crlf _ l' rest ls h1 h3 =>
    simp only [List.cons.injEq] at hL
    obtain ⟨rfl, rfl⟩ := hL
    exact ⟨rfl, h1, ['\r', '\n'], rest, by simp, by simpa [Nat.add_assoc] using h3, Or.inr (Or.inr rfl)⟩

theorem tiled_mk {o : Nat} {l e rest : List Char} {r : List Sl} (h1 : '\n' ∉ l)
    (h2 : Tiled (o + (l ++ e).length) rest r) (h3 : Eol l e rest) :
    Tiled o (l ++ e ++ rest) (⟨o, l⟩ :: r) := by
  rcases h3 with ⟨rfl, rfl, h⟩ | ⟨rfl, h⟩ | rfl
  · have := tiled_unique h2
    simp only [linesGo, List.isEmpty_nil, if_true] at this
    subst this
    simpa using Tiled.last o l h1 h
  · simpa using Tiled.lf o l rest r h1 h (by simpa [Nat.add_assoc] using h2)
  · simpa using Tiled.crlf o l rest r h1 (by simpa [Nat.add_assoc] using h2)

theorem tiled_nil_inv {o : Nat} {x : List Char} (h : Tiled o x []) : x = [] := by
  cases h; rfl

/-- Lines lie one after the other. -/
theorem tiled_split (a : List Sl) : ∀ {o : Nat} {s : List Char} {b : List Sl}, Tiled o s (a ++ b) →
    ∃ x y, s = x ++ y ∧ Tiled (o + x.length) y b ∧ Tiled o x a := by
  induction a with
  | nil => intro o s b h; exact ⟨[], s, rfl, by simpa using h, .nil o⟩
  | cons l a ih =>
    intro o s b h
    obtain ⟨h1, h2, e, rest, rfl, h4, h5⟩ := tiled_inv h
    obtain ⟨x, y, rfl, hy, hx⟩ := ih h4
    refine ⟨l.str ++ e ++ x, y, by simp, ?_, ?_⟩
    · simpa [Nat.add_assoc] using hy
    · cases l; simp only at h1; subst h1
      refine tiled_mk h2 hx ?_
      rcases h5 with ⟨h6, h7, h8⟩ | h6
      · exact Or.inl ⟨h6, (List.append_eq_nil_iff.1 h7).1, h8⟩
      · exact Or.inr h6

/-- Cutting the line ending off the last line keeps the lines. -/
theorem tiled_cut (r : List Sl) : ∀ {x : List Char} {o : Nat} {l : Sl}, Tiled o x r →
    r.getLast? = some l → l.str ≠ [] →
    ∃ u e, x = u ++ l.str ++ e ∧ l.off = o + u.length ∧ Tiled o (u ++ l.str) r ∧
      (e = [] ∨ e = ['\n'] ∨ e = ['\r', '\n']) := by
  induction r with
  | nil => intro x o l _ h; simp at h
  | cons a r ih =>
    intro x o l h hl hne
    obtain ⟨h1, h2, e, rest, rfl, h4, h5⟩ := tiled_inv h
    cases r with
    | nil =>
      simp only [List.getLast?_singleton, Option.some.injEq] at hl
      subst hl
      have := tiled_nil_inv h4
      subst this
      refine ⟨[], e, by simp, by simp [h1], ?_, ?_⟩
      · have := Tiled.last o a.str h2 hne
        cases a; simp only at h1; subst h1; simpa using this
      · rcases h5 with ⟨h6, _⟩ | ⟨h6, _⟩ | h6 <;> simp [h6]
    | cons a2 r =>
      rw [List.getLast?_cons_cons] at hl
      obtain ⟨u, e', rfl, ho, ht, he⟩ := ih h4 hl hne
      refine ⟨a.str ++ e ++ u, e', by simp, by rw [ho]; simp; omega, ?_, he⟩
      have h6 : Eol a.str e (u ++ l.str) := by
        rcases h5 with ⟨h6, h7, h8⟩ | h6
        · exact Or.inl ⟨h6, (List.append_eq_nil_iff.1 h7).1, h8⟩
        · exact Or.inr h6
      have := tiled_mk h2 ht h6
      cases a; simp only at h1; subst h1; simpa using this

theorem tiled_no_nl {o : Nat} {x : List Char} {r : List Sl} (h : Tiled o x r) :
    ∀ l ∈ r, '\n' ∉ l.str := by
  induction h with
  | nil => simp
  | last o l h1 h2 => simpa using h1
  | lf o l rest ls h1 h2 h3 ih => simpa [h1] using ih
  | crlf o l rest ls h1 h3 ih => simpa [h1] using ih

/-! ### Trimming -/

theorem dropWhile_nil (p : Char → Bool) (s : List Char) :
    s.dropWhile p = [] ↔ ∀ c ∈ s, p c = true := by
  induction s with
  | nil => simp
  | cons c s ih => by_cases h : p c = true <;> simp [h, ih]

theorem mem_takeWhile (p : Char → Bool) (s : List Char) : ∀ c ∈ s.takeWhile p, p c = true := by
  induction s with
  | nil => simp
  | cons c s ih =>
    by_cases h : p c = true
    · simpa [h] using ih
    · simp [h]

theorem trim_blank (s : List Char) : (trim s).isEmpty = true ↔ ∀ c ∈ s, isWs c = true := by
  unfold trim trimEnd trimStart
  rw [List.isEmpty_iff, List.reverse_eq_nil_iff, dropWhile_nil]
  constructor
  · intro h c hc
    by_cases hw : isWs c = true
    · exact hw
    · have hmem : c ∈ s.dropWhile isWs := by
        have := List.takeWhile_append_dropWhile (p := isWs) (l := s)
        rw [← this] at hc
        rcases List.mem_append.1 hc with hc | hc
        · exact absurd (mem_takeWhile isWs s c hc) hw
        · exact hc
      exact h c (by simpa using hmem)
  · intro h c hc
    exact h c (List.dropWhile_suffix isWs |>.mem (by simpa using hc))

theorem trimStart_ws (w s : List Char) (h : ∀ c ∈ w, isWs c = true) :
    trimStart (w ++ s) = trimStart s := by
  induction w with
  | nil => rfl
  | cons c w ih =>
    have := h c (by simp)
    simp [trimStart, this]
    exact ih (fun c hc => h c (by simp [hc]))

theorem trim_ws (w s : List Char) (h : ∀ c ∈ w, isWs c = true) : trim (w ++ s) = trim s := by
  simp [trim, trimStart_ws w s h]

theorem ws_prefix (s : List Char) (h : ¬ ∀ c ∈ s, isWs c = true) :
    ∃ w c r, s = w ++ c :: r ∧ (∀ c ∈ w, isWs c = true) ∧ isWs c = false := by
  induction s with
  | nil => exact absurd (by simp) h
  | cons c s ih =>
    by_cases hc : isWs c = true
    · obtain ⟨w, d, r, h1, h2, h3⟩ := ih (by
        intro h'; apply h; intro d hd
        rcases List.mem_cons.1 hd with rfl | hd
        · exact hc
        · exact h' d hd)
      refine ⟨c :: w, d, r, by simp [h1], ?_, h3⟩
      intro d hd
      rcases List.mem_cons.1 hd with rfl | hd
      · exact hc
      · exact h2 d hd
    · exact ⟨[], c, s, rfl, by simp, by simpa using hc⟩

theorem trimEnd_head (c : Char) (r : List Char) (h : isWs c = false) :
    ∃ r', trimEnd (c :: r) = c :: r' := by
  unfold trimEnd
  simp only [List.reverse_cons]
  rw [List.dropWhile_append]
  split
  · simp [h]
  · simp

theorem comment_iff (l : Sl) : (∃ r, trim l.str = '#' :: r) ↔ Comment l := by
  have hash : isWs '#' = false := by decide
  constructor
  · rintro ⟨r, hr⟩
    have hne : ¬ ∀ c ∈ l.str, isWs c = true := by
      intro h; rw [← trim_blank, hr] at h; simp at h
    obtain ⟨w, c, r', h1, h2, h3⟩ := ws_prefix l.str hne
    rw [h1, trim_ws _ _ h2] at hr
    have hs : trimStart (c :: r') = c :: r' := by simp [trimStart, h3]
    rw [trim, hs] at hr
    obtain ⟨q, hq⟩ := trimEnd_head c r' h3
    rw [hq] at hr
    simp only [List.cons.injEq] at hr
    exact ⟨w, r', by rw [h1, hr.1], h2⟩
  · rintro ⟨w, r, h1, h2⟩
    rw [h1, trim_ws _ _ h2]
    have hs : trimStart ('#' :: r) = '#' :: r := by simp [trimStart, hash]
    obtain ⟨q, hq⟩ := trimEnd_head '#' r hash
    exact ⟨q, by rw [trim, hs, hq]⟩

theorem not_blank_of_comment {l : Sl} (h : Comment l) : ¬ Blank l := by
  obtain ⟨w, r, h1, h2⟩ := h
  intro hb
  have := hb '#' (by simp [h1])
  simp [show isWs '#' = false by decide] at this

/-! ### Blocks -/

theorem blocks_blank {l : Sl} {ls : List Sl} {rs : List (List Sl)} (hl : Blank l)
    (h : Blocks ls rs) : Blocks (l :: ls) rs := by
  cases h with
  | done _ hb => exact .done _ (by simpa [hl] using hb)
  | block bs r rest rs h1 h2 h3 h4 h5 =>
    have := Blocks.block (l :: bs) r rest rs (by simpa [hl] using h1) h2 h3 h4 h5
    simpa using this

/-- Start and stop of a run. -/
def ext (r : List Sl) : Nat × Nat := ((r.head?.map (·.off)).getD 0, (r.getLast?.map (·.stop)).getD 0)

theorem splitLoop_spec (ls : List Sl) :
    (∀ ss, ∃ rs, Blocks ls rs ∧ splitLoop ls ss true = ss ++ rs.map ext) ∧
    (∀ ss (r : List Sl), r ≠ [] → (∀ l ∈ r, ¬ Blank l) →
      ∃ m rest rs, ls = m ++ rest ∧ (∀ l ∈ m, ¬ Blank l) ∧ (∀ l, rest.head? = some l → Blank l) ∧
        Blocks rest rs ∧
        splitLoop ls (ss ++ [ext r]) false = ss ++ (ext (r ++ m)) :: rs.map ext) := by
  induction ls with
  | nil =>
    refine ⟨fun ss => ⟨[], .done [] (by simp), by simp [splitLoop]⟩, fun ss r h1 h2 => ?_⟩
    exact ⟨[], [], [], rfl, by simp, by simp, .done [] (by simp), by simp [splitLoop]⟩
  | cons l ls ih =>
    by_cases hb : (trim l.str).isEmpty = true
    · have hbl : Blank l := (trim_blank _).1 hb
      refine ⟨fun ss => ?_, fun ss r h1 h2 => ?_⟩
      · obtain ⟨rs, h3, h4⟩ := ih.1 ss
        exact ⟨rs, blocks_blank hbl h3, by rw [splitLoop, if_pos hb]; exact h4⟩
      · obtain ⟨rs, h3, h4⟩ := ih.1 (ss ++ [ext r])
        refine ⟨[], l :: ls, rs, rfl, by simp, by simpa using hbl, blocks_blank hbl h3, ?_⟩
        rw [splitLoop, if_pos hb, h4]; simp
    · have hbl : ¬ Blank l := fun h => hb ((trim_blank _).2 h)
      refine ⟨fun ss => ?_, fun ss r h1 h2 => ?_⟩
      · obtain ⟨m, rest, rs, h3, h4, h5, h6, h7⟩ := ih.2 ss [l] (by simp) (by simpa using hbl)
        refine ⟨([l] ++ m) :: rs, ?_, ?_⟩
        · have := Blocks.block [] ([l] ++ m) rest rs (by simp) (by simp) (by simpa [hbl] using h4) h5 h6
          simpa [h3] using this
        · rw [splitLoop, if_neg hb, if_pos rfl]
          exact h7
      · obtain ⟨m, rest, rs, h3, h4, h5, h6, h7⟩ := ih.2 ss (r ++ [l]) (by simp) (by
          intro x hx
          rcases List.mem_append.1 hx with hx | hx
          · exact h2 x hx
          · rw [List.mem_singleton.1 hx]; exact hbl)
        refine ⟨l :: m, rest, rs, by simp [h3], by simpa [hbl] using h4, h5, h6, ?_⟩
        rw [splitLoop, if_neg hb, if_neg (by simp)]
        have : ext (r ++ [l]) = ((ext r).1, l.stop) := by
          cases r with
          | nil => exact absurd rfl h1
          | cons a r => simp [ext, List.getLast?_append, List.getLast?_cons]
        simp only [List.dropLast_concat, List.getLast?_concat, Option.getD_some]
        rw [this] at h7
        rw [h7]; simp

theorem splitItems_spec (s : Sl) : ∃ rs, Blocks s.lines rs ∧
    splitItems s = rs.map fun r => s.sub (ext r).1 (ext r).2 := by
  obtain ⟨rs, h1, h2⟩ := (splitLoop_spec s.lines).1 []
  refine ⟨rs, h1, ?_⟩
  rw [splitItems, h2]; simp

/-- Every block is a contiguous part of the lines. -/
theorem blocks_mem {ls : List Sl} {rs : List (List Sl)} (h : Blocks ls rs) :
    ∀ r ∈ rs, r ≠ [] ∧ (∀ l ∈ r, ¬ Blank l) ∧ ∃ a b, ls = a ++ r ++ b := by
  induction h with
  | done => simp
  | block bs r rest rs h1 h2 h3 h4 h5 ih =>
    intro q hq
    rcases List.mem_cons.1 hq with rfl | hq
    · exact ⟨h2, h3, bs, rest, rfl⟩
    · obtain ⟨h6, h7, a, b, h8⟩ := ih q hq
      exact ⟨h6, h7, bs ++ r ++ a, b, by simp [h8]⟩

/-! ### Doc comments -/

/-- A line's doc text. -/
def docLine (l : Sl) : List Char :=
  match trim l.str with
  | '#' :: r => trim r ++ ['\n']
  | _ => []

theorem docLoop_spec (ls : List Sl) : ∀ (doc : List Char) (t : Nat),
    ∃ cs q, ls = cs ++ q ∧ (∀ c ∈ cs, Comment c) ∧ (∀ l, q.head? = some l → ¬ Comment l) ∧
      docLoop ls doc t = (doc ++ (cs.map docLine).flatten, (cs.getLast?.map (·.stop)).getD t) := by
  induction ls with
  | nil => intro doc t; exact ⟨[], [], rfl, by simp, by simp, by simp [docLoop]⟩
  | cons l ls ih =>
    intro doc t
    by_cases hc : Comment l
    · obtain ⟨r, hr⟩ := (comment_iff l).2 hc
      obtain ⟨cs, q, h1, h2, h3, h4⟩ := ih (doc ++ trim r ++ ['\n']) l.stop
      refine ⟨l :: cs, q, by simp [h1], by simpa [hc] using h2, h3, ?_⟩
      simp only [docLoop, hr]
      rw [h4]
      cases cs with
      | nil => simp [docLine, hr]
      | cons a cs => simp [docLine, hr, List.getLast?_cons]
    · refine ⟨[], l :: ls, rfl, by simp, by simpa using hc, ?_⟩
      simp only [docLoop]
      split
      · rename_i r hr; exact absurd ((comment_iff l).1 ⟨r, hr⟩) hc
      · simp

end Verif.File
