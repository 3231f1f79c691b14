import Verif.Lemmas.FileRender
/-! Properties of reading a source file: C01 (splitting into items), C02 (what the batch holds),
C03 (line numbers), C57 (directives), C58 (documentation). -/
namespace Verif.File
open Verif.Nom

/-- What kind of item a piece of code is. -/
def KindOf (code : List Char) (k : Kind) : Prop :=
  ("def-ty".toList <+: code ∧ k = .type_) ∨
  (¬ "def-ty".toList <+: code ∧ "def".toList <+: code ∧ k = .impl) ∨
  (¬ "def".toList <+: code ∧ k = .expr)

theorem kindOf_kind (code : List Char) : KindOf code (kind code) := by
  unfold kind KindOf
  by_cases h1 : "def-ty".toList <+: code
  · rw [if_pos (List.isPrefixOf_iff_prefix.2 h1)]; exact Or.inl ⟨h1, rfl⟩
  · rw [if_neg (fun h => h1 (List.isPrefixOf_iff_prefix.1 h))]
    by_cases h2 : "def".toList <+: code
    · rw [if_pos (List.isPrefixOf_iff_prefix.2 h2)]; exact Or.inr (Or.inl ⟨h1, h2, rfl⟩)
    · rw [if_neg (fun h => h2 (List.isPrefixOf_iff_prefix.1 h))]; exact Or.inr (Or.inr ⟨h2, rfl⟩)

theorem Each.mono {α β : Type} {R S : α → β → Prop} (h : ∀ a b, R a b → S a b) :
    ∀ {as : List α} {bs : List β}, Each R as bs → Each S as bs := by
  intro as bs he
  induction he with
  | nil => exact .nil
  | cons h1 _ ih => exact .cons (h _ _ h1) ih

theorem Each.mem_right {α β : Type} {R : α → β → Prop} {as : List α} {bs : List β} (h : Each R as bs) :
    ∀ b ∈ bs, ∃ a ∈ as, R a b := by
  induction h with
  | nil => simp
  | cons h1 _ ih =>
    intro b hb
    rcases List.mem_cons.1 hb with rfl | hb
    · exact ⟨_, by simp, h1⟩
    · obtain ⟨a, ha, hR⟩ := ih b hb; exact ⟨a, by simp [ha], hR⟩

/-- C01. A file that is read has a header (blank space, comment lines, directive lines) and a body. The
body's lines are grouped into blocks: maximal runs of lines that are not blank. Each block gives one
item, in order, with the block's code and line, and the file holds those items sorted by kind. -/
theorem file_splits_into_items (k : Classes) (head : List Char → Bool) (text : List Char) (f : File)
    (h : file k head text = .ok f) :
    ∃ doc body p lines blocks items, Layout k text doc f.directives body ∧
      text = p ++ body ∧ Tiled p.length body lines ∧ Blocks lines blocks ∧
      Each (fun b (x : Kind × Item) => ItemOf text b x.2.code x.2.line ∧ KindOf x.2.code x.1) blocks items ∧
      f.types = (items.filter (·.1 = .type_)).map (·.2) ∧
      f.impls = (items.filter (·.1 = .impl)).map (·.2) ∧
      f.exprs = (items.filter (·.1 = .expr)).map (·.2) := by
  obtain ⟨doc, body, p, lines, blocks, items, h1, _, h2, h3, h4, h5, h6, h7, h8, _⟩ :=
    file_items k head text f h
  have e : ∀ kd, ofKind kd items = (items.filter (·.1 = kd)).map (·.2) := by
    intro kd; rfl
  refine ⟨doc, body, p, lines, blocks, items, h1, h2, h3, h4, h5.mono fun b x hx => ⟨hx.1, ?_⟩,
    by rw [h6, e], by rw [h7, e], by rw [h8, e]⟩
  rw [hx.2.1]; exact kindOf_kind _

/-- C01. The blocks of a text are determined by the text. -/
theorem blocks_determined {ls : List Sl} {a b : List (List Sl)} (ha : Blocks ls a) (hb : Blocks ls b) :
    a = b := by
  have uniq : ∀ (P : Sl → Prop) (x y x' y' : List Sl), (∀ l ∈ x, P l) → (∀ l, y.head? = some l → ¬ P l) →
      (∀ l ∈ x', P l) → (∀ l, y'.head? = some l → ¬ P l) → x ++ y = x' ++ y' → x = x' ∧ y = y' := by
    intro P x
    induction x with
    | nil =>
      intro y x' y' _ hy hx' _ e
      cases x' with
      | nil => exact ⟨rfl, e⟩
      | cons l x' =>
        rw [List.nil_append] at e
        exact absurd (hx' l (by simp)) (hy l (by rw [e]; rfl))
    | cons l x ih =>
      intro y x' y' hx hy hx' hy' e
      cases x' with
      | nil =>
        rw [List.nil_append] at e
        exact absurd (hx l (by simp)) (hy' l (by rw [← e]; rfl))
      | cons l' x' =>
        simp only [List.cons_append, List.cons.injEq] at e
        obtain ⟨e1, e2⟩ := ih y x' y' (fun m hm => hx m (by simp [hm])) hy
          (fun m hm => hx' m (by simp [hm])) hy' e.2
        exact ⟨by rw [e.1, e1], e2⟩
  induction ha generalizing b with
  | done bs h1 =>
    generalize hL : bs = L at hb
    cases hb with
    | done => rfl
    | block bs' r rest rs g1 g2 g3 g4 g5 =>
      cases r with
      | nil => exact absurd rfl g2
      | cons l r => exact absurd (h1 l (by rw [hL]; simp)) (g3 l (by simp))
  | block bs r rest rs h1 h2 h3 h4 h5 ih =>
    generalize hL : bs ++ r ++ rest = L at hb
    cases hb with
    | done _ g1 =>
      cases r with
      | nil => exact absurd rfl h2
      | cons l r => exact absurd (g1 l (by rw [← hL]; simp)) (h3 l (by simp))
    | block bs' r' rest' rs' g1 g2 g3 g4 g5 =>
      have nb : ∀ (r rest : List Sl), r ≠ [] → (∀ l ∈ r, ¬ Blank l) →
          ∀ l, (r ++ rest).head? = some l → ¬ Blank l := by
        intro r rest hr h l hl
        cases r with
        | nil => exact absurd rfl hr
        | cons m r => simp at hl; subst hl; exact h m (by simp)
      rw [List.append_assoc, List.append_assoc] at hL
      obtain ⟨_, e⟩ := uniq Blank bs (r ++ rest) bs' (r' ++ rest') h1 (nb _ _ h2 h3) g1 (nb _ _ g2 g3) hL
      obtain ⟨e1, e2⟩ := uniq (fun l => ¬ Blank l) r rest r' rest' h3 (fun l hl hn => hn (h4 l hl)) g3
        (fun l hl hn => hn (g4 l hl)) e
      subst e1 e2
      rw [ih g5]

/-- C01. Lines are determined by the text. -/
theorem lines_determined {o : Nat} {s : List Char} {a b : List Sl} (ha : Tiled o s a) (hb : Tiled o s b) :
    a = b := by rw [← tiled_unique ha, ← tiled_unique hb]

/-- C01. A file is read when its directives parse, the header of each definition parses, and it has
fewer than 65536 lines; in particular a file without `def` items and brackets always is. -/
theorem file_is_read (k : Classes) (head : List Char → Bool) (text : List Char)
    (hb : '[' ∉ text) (hh : ∀ code, "def".toList <+: code → head code = true)
    (hl : lineOf text text.length < 65536) : ∃ f, file k head text = .ok f := by
  unfold file
  simp only
  obtain ⟨c, y, ls, q, h1, h2, _⟩ := docComment_spec (text.takeWhile isWs) (trimStart text)
  rw [h2]
  simp only
  have hy : '[' ∉ y := by
    intro hm
    apply hb
    have : '[' ∈ text.takeWhile isWs ++ trimStart text := by
      rw [h1]; simp [hm]
    simpa [trimStart] using this
  have hd : directives k (y.length + 1) y [] = some ([], y) := by
    have : directiveLine k y = .err := by
      unfold directiveLine
      cases hc : chr '[' (trimStart y) with
      | err => rfl
      | fail =>
        exfalso
        cases ht : trimStart y with
        | nil => simp [ht, chr] at hc
        | cons d t =>
          rw [ht] at hc; simp only [chr] at hc
          split at hc <;> cases hc
      | ok r a =>
        exfalso
        rw [chr_ok] at hc
        have : '[' ∈ y.takeWhile isWs ++ trimStart y := by rw [hc]; simp
        exact hy (by simpa [trimStart] using this)
    simp [directives, opt, this, PR.bind]
  rw [hd]
  simp only
  refine itemLoop_total head text _ ?_ hl _ _ _
  intro it _ hk
  rcases kindOf_kind (docComment it).2.trim.str with ⟨h, _⟩ | ⟨_, h, _⟩ | ⟨_, h⟩
  · refine hh _ (List.IsPrefix.trans ?_ h); decide
  · exact hh _ h
  · exact absurd h hk

/-- C02. The batch made from a file holds the file's items, each exactly once: first the types, then the
functions, then the expressions, in file order within each kind, with their code, documentation and
line. It runs in parallel unless `no-parallelise` is given, and stops at the first failure exactly when
`fail-fast` is given. -/
theorem batch_contents (k : Classes) (head : List Char → Bool) (text : List Char) (b : Batch)
    (h : parseStr k head text = .ok b) :
    ∃ f, file k head text = .ok f ∧
      b.items = f.types.map (fun i => ⟨.type_, i.doc, i.line, i.code⟩) ++
        f.impls.map (fun i => ⟨.impl, i.doc, i.line, i.code⟩) ++
        f.exprs.map (fun i => ⟨.expr, i.doc, i.line, i.code⟩) ∧
      (b.parallelise = true ↔ Directive.noParallelise ∉ f.directives) ∧
      (b.failFast = true ↔ Directive.failFast ∈ f.directives) := by
  unfold parseStr at h
  cases hf : file k head text with
  | error e => simp [hf, bind, Except.bind] at h
  | ok f =>
    simp only [hf, bind, Except.bind, pure, Except.pure] at h
    cases h
    refine ⟨f, rfl, rfl, ?_, ?_⟩
    · simp only [Bool.not_eq_true', List.any_eq_false, beq_iff_eq]
      exact ⟨fun h hm => h _ hm rfl, fun h x hx e => h (e ▸ hx)⟩
    · simp

/-- C02. Every item of the batch comes from one block and every block gives one item: a stable
reordering by kind. -/
theorem batch_is_the_blocks_by_kind (k : Classes) (head : List Char → Bool) (text : List Char) (b : Batch)
    (h : parseStr k head text = .ok b) :
    ∃ doc ds body p lines blocks, ∃ items : List BatchItem, Layout k text doc ds body ∧
      text = p ++ body ∧ Tiled p.length body lines ∧ Blocks lines blocks ∧
      Each (fun bl x => ItemOf text bl x.code x.line ∧ KindOf x.code x.kind) blocks items ∧
      b.items = items.filter (·.kind = .type_) ++ items.filter (·.kind = .impl) ++
        items.filter (·.kind = .expr) := by
  obtain ⟨f, hf, hi, _⟩ := batch_contents k head text b h
  obtain ⟨doc, body, p, lines, blocks, items, h1, h2, h3, h4, h5, h6, h7, h8⟩ :=
    file_splits_into_items k head text f hf
  refine ⟨doc, f.directives, body, p, lines, blocks,
    items.map (fun x => ⟨x.1, x.2.doc, x.2.line, x.2.code⟩), h1, h2, h3, h4, ?_, ?_⟩
  · clear h4 h6 h7 h8
    induction h5 with
    | nil => exact .nil
    | cons hx _ ih => exact .cons hx ih
  · have e : ∀ (kd : Kind), ((items.filter (·.1 = kd)).map (·.2)).map
        (fun i => (⟨kd, i.doc, i.line, i.code⟩ : BatchItem)) =
        (items.map (fun x => (⟨x.1, x.2.doc, x.2.line, x.2.code⟩ : BatchItem))).filter (·.kind = kd) := by
      intro kd
      clear h5 h6 h7 h8
      induction items with
      | nil => rfl
      | cons x xs ih =>
        by_cases hx : x.1 = kd
        · simp [hx]; simpa using ih
        · simp [hx]; simpa using ih
    rw [hi, h6, h7, h8, e, e, e]

/-- C03. The line reported for an item is the line of the file on which its code starts. -/
theorem line_numbers (k : Classes) (head : List Char → Bool) (text : List Char) (b : Batch)
    (h : parseStr k head text = .ok b) :
    ∀ x ∈ b.items, ∃ pre post, text = pre ++ x.code ++ post ∧ x.line = pre.count '\n' + 1 ∧
      x.line ≤ 65535 := by
  intro x hx
  obtain ⟨f, hf, hi, _⟩ := batch_contents k head text b h
  obtain ⟨doc, body, p, lines, blocks, items, h1, _, h2, h3, h4, h5, h6, h7, h8, _⟩ :=
    file_items k head text f hf
  have : ∃ kd it, it ∈ items ∧ x = ⟨kd, it.2.doc, it.2.line, it.2.code⟩ := by
    rw [hi, h6, h7, h8] at hx
    simp only [List.mem_append, List.mem_map, ofKind, List.mem_filter] at hx
    rcases hx with (⟨i, ⟨y, ⟨hy, _⟩, rfl⟩, rfl⟩ | ⟨i, ⟨y, ⟨hy, _⟩, rfl⟩, rfl⟩) |
      ⟨i, ⟨y, ⟨hy, _⟩, rfl⟩, rfl⟩
    · exact ⟨_, y, hy, rfl⟩
    · exact ⟨_, y, hy, rfl⟩
    · exact ⟨_, y, hy, rfl⟩
  obtain ⟨kd, it, hit, rfl⟩ := this
  obtain ⟨_, _, _, _, hlt, pre, post, ht, hl⟩ := h5.mem_right it hit
  refine ⟨pre, post, ht, ?_, by simp only; omega⟩
  simp only
  rw [hl, lineOf]
  have : text.take pre.length = pre := by rw [ht, List.append_assoc, List.take_left]
  rw [this]

/-- C03. A file with an expression after 65535 or more lines is not read with a wrong line: it panics. -/
theorem too_many_lines_panics (k : Classes) (head : List Char → Bool) (n : Nat) (hn : 65535 ≤ n) :
    file k head (List.replicate n '\n' ++ ['a']) = .error .panic := by
  have h1 : (List.replicate n '\n' ++ ['a']).takeWhile isWs = List.replicate n '\n' ∧
      (List.replicate n '\n' ++ ['a']).dropWhile isWs = ['a'] :=
    takeWhile_stop isWs _ _ (fun c hc => by rw [List.eq_of_mem_replicate hc]; decide)
      (fun c hc => by simp at hc; subst hc; decide)
  have hw : trim ['a'] = ['a'] := by decide
  have hs : trimStart ['a'] = ['a'] := by decide
  have hl : ∀ m, (Sl.mk m ['a']).lines = [⟨m, ['a']⟩] := fun _ => rfl
  have hd : ∀ m, docComment ⟨m, ['a']⟩ = ([], ⟨m, ['a']⟩) := by
    intro m
    simp [docComment, hl, docLoop, hw, Sl.sub, Sl.stop]
  have hdir : directives k 2 ['a'] [] = some ([], ['a']) := by
    simp [directives, opt, directiveLine, hs, chr, PR.bind]
  have hsp : ∀ m, splitItems ⟨m, ['a']⟩ = [⟨m, ['a']⟩] := by
    intro m
    simp [splitItems, hl, splitLoop, hw, Sl.sub, Sl.stop]
  have ht : ∀ m, (Sl.mk m ['a']).trim = ⟨m, ['a']⟩ := by
    intro m; simp [Sl.trim, hs, hw]; decide
  have h2 : trimStart (List.replicate n '\n' ++ ['a']) = ['a'] := h1.2
  unfold file
  rw [h1.1, h2]
  simp only [List.length_replicate, hd, List.length_cons, List.length_nil, hdir, List.isEmpty_nil,
    List.length_append, Nat.zero_add, Nat.add_sub_cancel, hsp]
  rw [itemLoop_cons]
  simp only [hd, ht]
  have hk : kind ['a'] = .expr := by decide
  rw [if_pos (Or.inl hk)]
  have hln : lineNum (List.replicate n '\n' ++ ['a']) ⟨n, ['a']⟩ = .error .panic := by
    unfold lineNum
    have : (List.replicate n '\n' ++ ['a']).take n = List.replicate n '\n' := by
      have := List.take_left (l₁ := List.replicate n '\n') (l₂ := ['a'])
      rwa [List.length_replicate] at this
    simp only [this, List.countP_replicate]
    rw [if_neg (by simp; omega)]
  rw [hln]

/-- C57. Directives written on bracketed lines at the top of a file are read back as written. -/
theorem directives_round_trip (k : Classes) (hk : k.Ok) (head : List Char → Bool)
    (lines : List (List Directive)) (hne : lines ≠ []) (hw : ∀ l ∈ lines, l ≠ [] ∧ ∀ d ∈ l, d.Wf k)
    (body : List Char) (hb : (trimStart body).head? ≠ some '[') :
    (∀ f, file k head ((lines.map renderLine).flatten ++ body) = .ok f → f.directives = lines.flatten) ∧
    ((∀ code, head code = true) →
      lineOf ((lines.map renderLine).flatten ++ body) ((lines.map renderLine).flatten ++ body).length < 65536 →
      ∃ f, file k head ((lines.map renderLine).flatten ++ body) = .ok f) := by
  have hbody : directiveLine k body = .err := by
    unfold directiveLine
    cases hs : trimStart body with
    | nil => rfl
    | cons c s =>
      have : c ≠ '[' := by rw [hs] at hb; simpa using hb
      simp [chr, this, PR.bind]
  generalize ht : (lines.map renderLine).flatten ++ body = text
  obtain ⟨s, hs⟩ : ∃ s, text = '[' :: s := by
    cases lines with
    | nil => exact absurd rfl hne
    | cons l ls => exact ⟨List.intercalate [' '] (l.map renderDirective) ++ ']' :: '\n' ::
        ((ls.map renderLine).flatten ++ body), by rw [← ht]; simp [renderLine]⟩
  have hws : isWs '[' = false := by decide
  have h1 : text.takeWhile isWs = [] := by rw [hs]; simp [hws]
  have h2 : trimStart text = text := by rw [hs]; simp [trimStart, hws]
  have h3 : (docComment ⟨0, text⟩).2 = ⟨0, text⟩ := by
    obtain ⟨c, y, ls, q, e1, e2, e3, e4, _, e6, _⟩ := docComment_spec [] text
    cases ls with
    | nil =>
      have := tiled_nil_inv e3
      subst this
      simp only [List.length_nil, List.nil_append, Nat.add_zero] at e1 e2
      rw [e2, e1]
    | cons l ls =>
      exfalso
      obtain ⟨_, _, e, rest, e7, _, _⟩ := tiled_inv e6
      obtain ⟨w, r, e8, e9⟩ := e4 l (by simp)
      rw [hs, e8] at e7
      cases w with
      | nil => simp at e7
      | cons d w =>
        have : d = '[' := by simp at e7; exact e7.1.symm
        have := e9 d (by simp)
        simp_all
  have h4 : directives k (text.length + 1) text [] = some (lines.flatten, body) := by
    rw [← ht]
    have := directives_complete k hk body hbody lines hw
      (((lines.map renderLine).flatten ++ body).length + 1) [] (by
        have : lines.length ≤ ((lines.map renderLine).flatten).length := by
          clear hne hw ht
          induction lines with
          | nil => simp
          | cons l ls ih => simp [renderLine] at ih ⊢; omega
        rw [List.length_append]; omega)
    simpa using this
  unfold file
  rw [h1, h2]
  simp only [List.length_nil]
  rw [h3]
  simp only
  rw [h4]
  simp only
  constructor
  · intro f hf
    obtain ⟨items, _, _, _, _, hd, _⟩ := itemLoop_ok _ _ _ _ _ _ _ hf
    simpa using hd
  · intro hh hl
    exact itemLoop_total head text _ (fun _ _ _ => hh _) hl _ _ _

/-- The documentation recorded for an item with documentation text `d`. -/
def DocIs (x : Option (List Char)) (d : List Char) : Prop :=
  (d = [] ∧ x = none) ∨ (d ≠ [] ∧ x = some d)

theorem docIs_optDoc (d : List Char) : DocIs (optDoc d) d := by
  unfold optDoc DocIs
  cases d <;> simp

/-- C58, partial. Each item after the first of the body carries the comment lines directly above its
code as documentation. So does the first item if the file has directives, or if its header comment is
followed by an empty line; then the header comment documents the file. Otherwise the header comment goes
to the first item. Missing: a first item with comment lines of its own after a header comment that is
separated by a line of spaces or by `\r\n` line endings (`header_comment_replaces_item_comment`). -/
theorem documentation_attached_partial (k : Classes) (head : List Char → Bool) (text : List Char) (f : File)
    (h : file k head text = .ok f) :
    ∃ doc body p lines blocks items, Layout k text doc f.directives body ∧
      text = p ++ body ∧ Tiled p.length body lines ∧ Blocks lines blocks ∧
      Each (fun b (x : Kind × Item) => ItemOf text b x.2.code x.2.line ∧ KindOf x.2.code x.1) blocks items ∧
      f.types = (items.filter (·.1 = .type_)).map (·.2) ∧
      f.impls = (items.filter (·.1 = .impl)).map (·.2) ∧
      f.exprs = (items.filter (·.1 = .expr)).map (·.2) ∧
      Each (fun b x => ∃ d, DocOf b d ∧ DocIs x.2.doc d) blocks.tail items.tail ∧
      (f.directives ≠ [] ∨ "\n\n".toList <+: body →
        DocIs f.doc doc ∧ Each (fun b x => ∃ d, DocOf b d ∧ DocIs x.2.doc d) blocks items) ∧
      (f.directives = [] → ¬ "\n\n".toList <+: body → items ≠ [] →
        f.doc = none ∧ ∀ x, items.head? = some x → DocIs x.2.doc doc) := by
  obtain ⟨doc, body, p, lines, blocks, items, h1, _, h2, h3, h4, h5, h6, h7, h8, h9, h10⟩ :=
    file_items k head text f h
  have e : ∀ kd, ofKind kd items = (items.filter (·.1 = kd)).map (·.2) := by
    intro kd; rfl
  have up : ∀ {bs : List (List Sl)} {xs : List (Kind × Item)},
      Each (fun b x => ∃ d, DocOf b d ∧ x.2.doc = optDoc d) bs xs →
      Each (fun b x => ∃ d, DocOf b d ∧ DocIs x.2.doc d) bs xs :=
    fun hE => hE.mono fun b x ⟨d, hd, hx⟩ => ⟨d, hd, hx ▸ docIs_optDoc d⟩
  have hpre : "\n\n".toList.isPrefixOf body = true ↔ "\n\n".toList <+: body := List.isPrefixOf_iff_prefix
  have h5' : Each (fun b (x : Kind × Item) => ItemOf text b x.2.code x.2.line ∧ KindOf x.2.code x.1)
      blocks items := h5.mono fun b x hx => ⟨hx.1, by rw [hx.2.1]; exact kindOf_kind _⟩
  refine ⟨doc, body, p, lines, blocks, items, h1, h2, h3, h4, h5', by rw [h6, e], by rw [h7, e],
    by rw [h8, e], ?_, ?_, ?_⟩
  · cases hm : (f.directives.isEmpty && !("\n\n".toList.isPrefixOf body)) with
    | false =>
      have := up (h9 hm).2
      cases this with
      | nil => exact .nil
      | cons _ h => exact h
    | true =>
      have := h10 hm
      cases h5 with
      | nil => exact .nil
      | cons _ _ => exact up this.2.2
  · intro hc
    have hm : (f.directives.isEmpty && !("\n\n".toList.isPrefixOf body)) = false := by
      rcases hc with hc | hc
      · cases hd : f.directives with
        | nil => exact absurd hd hc
        | cons a b => rfl
      · rw [hpre.2 hc]; simp
    obtain ⟨g1, g2⟩ := h9 hm
    exact ⟨g1 ▸ docIs_optDoc doc, up g2⟩
  · intro hd hn hne
    have hm : (f.directives.isEmpty && !("\n\n".toList.isPrefixOf body)) = true := by
      have : "\n\n".toList.isPrefixOf body = false := by
        cases hb : "\n\n".toList.isPrefixOf body with
        | false => rfl
        | true => exact absurd (hpre.1 hb) hn
      rw [hd, this]; rfl
    have := h10 hm
    cases h5 with
    | nil => exact absurd rfl hne
    | cons _ _ =>
      refine ⟨this.1, ?_⟩
      intro x hx
      simp only [List.head?_cons, Option.some.injEq] at hx
      subst hx
      rw [this.2.1]; exact docIs_optDoc doc

/-- ASCII letters and digits. -/
def ascii : Classes := ⟨Char.isAlpha, Char.isAlphanum⟩

/-- C58 fails: after a header comment that is separated by a line holding a space, or in a file with
`\r\n` line endings, the first item gets the header comment and its own comment is lost. -/
theorem header_comment_replaces_item_comment :
    file ascii (fun _ => true) "# a\n \n# b\nfoo".toList =
      .ok ⟨none, [], [], [], [⟨some ['a'], "foo".toList, 4⟩]⟩ ∧
    file ascii (fun _ => true) "# a\r\n\r\n# b\r\nfoo".toList =
      .ok ⟨none, [], [], [], [⟨some ['a'], "foo".toList, 4⟩]⟩ ∧
    file ascii (fun _ => true) "# a\n\n# b\nfoo".toList =
      .ok ⟨some ['a'], [], [], [], [⟨some ['b'], "foo".toList, 4⟩]⟩ := by decide +kernel

/-- C01 counterpart. A block of comments only still becomes an item: an empty expression. -/
theorem comment_block_becomes_empty_item :
    file ascii (fun _ => true) "foo\n\n# note\n\nbar".toList =
      .ok ⟨none, [], [], [], [⟨none, "foo".toList, 1⟩, ⟨some "note".toList, [], 3⟩,
        ⟨none, "bar".toList, 5⟩]⟩ := by decide +kernel

/-- C57 counterpart. A directive line that does not parse is taken as code, and a path component keeps
only its leading identifier. -/
theorem bad_directive_becomes_code :
    file ascii (fun _ => true) "[export()]\nfoo".toList =
      .ok ⟨none, [], [], [], [⟨none, "[export()]\nfoo".toList, 1⟩]⟩ ∧
    file ascii (fun _ => true) "[import(foo.bar/x)]\nfoo".toList =
      .ok ⟨none, [.import_ [⟨.none, ["foo".toList], ['x']⟩]], [], [], [⟨none, "foo".toList, 2⟩]⟩ := by
  decide +kernel

/-! ### The hypotheses are met -/

example : parseStr ascii (fun _ => true)
    "# doc\n\n[no-parallelise fail-fast]\n\ndef-ty A { }\n\n# f\ndef f () { }\n  more\n\n1 + 2\n".toList =
    .ok ⟨[⟨.type_, none, 5, "def-ty A { }".toList⟩,
      ⟨.impl, some ['f'], 8, "def f () { }\n  more".toList⟩, ⟨.expr, none, 11, "1 + 2".toList⟩],
      false, true⟩ := by decide +kernel

example : ascii.Ok := by
  intro c h
  have h' : c.isAlphanum = true := h
  simp only [Char.isAlphanum, Char.isAlpha, Char.isUpper, Char.isLower, Char.isDigit, Bool.or_eq_true,
    Bool.and_eq_true, decide_eq_true_eq] at h'
  refine ⟨?_, ?_, ?_⟩
  · unfold isWs
    have : (65 ≤ c.toNat ∧ c.toNat ≤ 90) ∨ (97 ≤ c.toNat ∧ c.toNat ≤ 122) ∨
        (48 ≤ c.toNat ∧ c.toNat ≤ 57) := by
      rcases h' with (⟨a, b⟩ | ⟨a, b⟩) | ⟨a, b⟩
      · exact Or.inl ⟨a, b⟩
      · exact Or.inr (Or.inl ⟨a, b⟩)
      · exact Or.inr (Or.inr ⟨a, b⟩)
    simp only [Bool.or_eq_false_iff, Bool.and_eq_false_iff, decide_eq_false_iff_not, beq_eq_false_iff_ne]
    omega
  · rintro rfl; exact absurd h (by decide)
  · rintro rfl; exact absurd h (by decide)

/-- Directives that meet the hypotheses of the round trip. -/
example : Directive.Wf ascii (.import_ [⟨.root, ["lib".toList, "..".toList], "*".toList⟩]) ∧
    Directive.Wf ascii (.export_ ["f".toList, "Ty*".toList]) := by
  refine ⟨⟨by simp, ?_⟩, by simp, ?_⟩
  · intro i hi
    simp at hi; subst hi
    refine ⟨?_, ⟨⟨by decide, by decide⟩, by decide⟩⟩
    intro s hs
    simp at hs
    rcases hs with rfl | rfl
    · exact Or.inr ⟨⟨'l', ['i', 'b'], rfl, by decide⟩, by decide⟩
    · exact Or.inl rfl
  · intro g hg
    simp at hg
    rcases hg with rfl | rfl
    · exact ⟨by decide, by decide⟩
    · exact ⟨by decide, by decide⟩

end Verif.File
