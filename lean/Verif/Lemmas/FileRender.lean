import Verif.Lemmas.FileLayout
/-! Written directives parse back. -/
namespace Verif.File
open Verif.Nom

theorem takeWhile_stop (p : Char → Bool) (x r : List Char) (hx : ∀ c ∈ x, p c = true)
    (hr : ∀ c, r.head? = some c → p c = false) :
    (x ++ r).takeWhile p = x ∧ (x ++ r).dropWhile p = r := by
  induction x with
  | nil =>
    cases r with
    | nil => simp
    | cons c r => simp [hr c rfl]
  | cons c x ih =>
    have := ih fun d hd => hx d (by simp [hd])
    simp [hx c (by simp), this]

theorem takeWhile1_ok (p : Char → Bool) (x r : List Char) (hne : x ≠ []) (hx : ∀ c ∈ x, p c = true)
    (hr : ∀ c, r.head? = some c → p c = false) : takeWhile1 p (x ++ r) = .ok r x := by
  obtain ⟨h1, h2⟩ := takeWhile_stop p x r hx hr
  simp [takeWhile1, h1, h2, hne]

theorem sepLoop_complete {α β : Type} (sep : Parser β) (f : Parser α) (w : List Char)
    (rend : α → List Char) (Q : List Char → Prop) (x : β) (hw : w ≠ []) (as : List α)
    (hsep : ∀ a ∈ as, ∀ t, ∃ x, sep (w ++ (rend a ++ t)) = .ok (rend a ++ t) x)
    (hf : ∀ a ∈ as, ∀ t, Q t → f (rend a ++ t) = .ok t a)
    (hQ : ∀ t, Q (w ++ t)) (r : List Char) (hr : Q r) (hstop : sep r = .err) :
    ∀ (n : Nat) (acc : List α), as.length ≤ n →
      sepLoop sep f n ((as.map fun a => w ++ rend a).flatten ++ r) acc = .ok r (acc ++ as) := by
  induction as with
  | nil =>
    intro n acc _
    cases n with
    | zero => simp [sepLoop]
    | succ n => simp [sepLoop, hstop]
  | cons a as ih =>
    intro n acc hn
    cases n with
    | zero => simp at hn
    | succ n =>
      have e : ((a :: as).map fun a => w ++ rend a).flatten ++ r =
          w ++ (rend a ++ ((as.map fun a => w ++ rend a).flatten ++ r)) := by simp
      rw [e]
      simp only [sepLoop]
      obtain ⟨x, hx⟩ := hsep a (by simp) ((as.map fun a => w ++ rend a).flatten ++ r)
      rw [hx]
      simp only
      have hlen : (rend a ++ ((as.map fun a => w ++ rend a).flatten ++ r)).length ≠
          (w ++ (rend a ++ ((as.map fun a => w ++ rend a).flatten ++ r))).length := by
        have : w.length ≠ 0 := by simpa using hw
        rw [List.length_append (as := w)]; omega
      rw [if_neg hlen]
      have hq : Q ((as.map fun a => w ++ rend a).flatten ++ r) := by
        cases as with
        | nil => simpa using hr
        | cons b bs => simpa [List.append_assoc] using hQ (rend b ++ ((bs.map fun a => w ++ rend a).flatten ++ r))
      rw [hf a (by simp) _ hq]
      simp only
      rw [ih (fun b hb => hsep b (by simp [hb])) (fun b hb => hf b (by simp [hb])) n _ (by simpa using hn)]
      simp

theorem intercalate_cons (w a : List Char) (as : List (List Char)) :
    List.intercalate w (a :: as) = a ++ (as.map fun a => w ++ a).flatten := by
  induction as generalizing a with
  | nil => simp [List.intercalate]
  | cons b bs ih =>
    have : List.intercalate w (a :: b :: bs) = a ++ w ++ List.intercalate w (b :: bs) := by
      simp [List.intercalate, List.intersperse]
    rw [this, ih]
    simp

theorem length_flatten (w : List Char) (hw : w ≠ []) (as : List (List Char)) :
    as.length ≤ (as.map fun a => w ++ a).flatten.length := by
  induction as with
  | nil => simp
  | cons a as ih =>
    have : w.length ≠ 0 := by simpa using hw
    simp only [List.length_cons, List.map_cons, List.flatten_cons, List.length_append]
    omega

theorem sepList1_complete {α β : Type} (sep : Parser β) (f : Parser α) (w : List Char)
    (rend : α → List Char) (Q : List Char → Prop) (hw : w ≠ []) (as : List α) (hne : as ≠ [])
    (hsep : ∀ a ∈ as, ∀ t, ∃ x, sep (w ++ (rend a ++ t)) = .ok (rend a ++ t) x)
    (hf : ∀ a ∈ as, ∀ t, Q t → f (rend a ++ t) = .ok t a)
    (hQ : ∀ t, Q (w ++ t)) (r : List Char) (hr : Q r) (hstop : sep r = .err) :
    sepList1 sep f (List.intercalate w (as.map rend) ++ r) = .ok r as := by
  cases as with
  | nil => exact absurd rfl hne
  | cons a as =>
    rw [List.map_cons, intercalate_cons, List.append_assoc, List.map_map]
    unfold sepList1
    have hq : Q ((as.map ((fun a => w ++ a) ∘ rend)).flatten ++ r) := by
      cases as with
      | nil => simpa using hr
      | cons b bs =>
        simpa [List.append_assoc] using hQ (rend b ++ ((bs.map ((fun a => w ++ a) ∘ rend)).flatten ++ r))
    rw [hf a (by simp) _ hq]
    simp only [PR.bind]
    have hlen : as.length ≤ ((as.map ((fun a => w ++ a) ∘ rend)).flatten ++ r).length := by
      have := length_flatten w hw (as.map rend)
      rw [List.map_map] at this
      rw [List.length_append]
      simp only [List.length_map] at this
      omega
    obtain ⟨x, _⟩ : ∃ x : Unit, True := ⟨(), trivial⟩
    cases as with
    | nil =>
      simp only [List.map_nil, List.flatten_nil, List.nil_append]
      cases hr' : r.length with
      | zero => rfl
      | succ n => simp [sepLoop, hstop]
    | cons b bs =>
      obtain ⟨x, _⟩ := hsep b (by simp) []
      have := sepLoop_complete sep f w rend Q x hw (b :: bs) (fun c hc => hsep c (by simp_all))
        (fun c hc => hf c (by simp_all)) hQ r hr hstop _ [a] hlen
      simpa [Function.comp_def] using this

/-- What may follow a glob. -/
def GlobEnd (r : List Char) : Prop := ∃ t, r = ' ' :: t ∨ r = ')' :: t

theorem globEnd_head {r : List Char} (h : GlobEnd r) : ∀ c, r.head? = some c → c = ' ' ∨ c = ')' := by
  obtain ⟨t, rfl | rfl⟩ := h <;> simp

theorem isWs_space : isWs ' ' = true := by decide

theorem isSpace_isWs {c : Char} (h : isWs c = false) : isSpace c = false := by
  by_cases h1 : c = ' '
  · subst h1; exact absurd h (by decide)
  · by_cases h2 : c = '\t'
    · subst h2; exact absurd h (by decide)
    · simp [isSpace, h1, h2]

theorem skip_none (x r : List Char) (hne : x ≠ []) (h : ∀ c ∈ x, isWs c = false) :
    skip isSpace (x ++ r) = x ++ r := by
  cases x with
  | nil => exact absurd rfl hne
  | cons c x => simp [skip, isSpace_isWs (h c (by simp))]

theorem glob_ok (g r : List Char) (hg : GlobText g) (hr : GlobEnd r) : glob (g ++ r) = .ok r g := by
  refine takeWhile1_ok _ g r hg.1 (fun c hc => ?_) fun c hc => ?_
  · have := hg.2 c hc; simp [this.1, this.2]
  · rcases globEnd_head hr c hc with rfl | rfl
    · decide
    · decide

theorem space1_ok (x r : List Char) (hne : x ≠ []) (h : ∀ c, x.head? = some c → isSpace c = false) :
    ∃ y, space1 ([' '] ++ (x ++ r)) = .ok (x ++ r) y := by
  refine ⟨[' '], takeWhile1_ok isSpace [' '] (x ++ r) (by simp) (by simp; decide) fun c hc => ?_⟩
  cases x with
  | nil => exact absurd rfl hne
  | cons d x => exact h c (by simpa using hc)

theorem space1_err (c : Char) (t : List Char) (h : isSpace c = false) : space1 (c :: t) = .err := by
  simp [space1, takeWhile1, h]

theorem exports_ok (gs : List (List Char)) (hne : gs ≠ []) (hg : ∀ g ∈ gs, GlobText g) (r : List Char) :
    exports ('(' :: (List.intercalate [' '] gs ++ ')' :: r)) = .ok r gs := by
  have : sepList1 space1 (fun i => glob (skip isSpace i)) (List.intercalate [' '] (gs.map id) ++ ')' :: r) =
      .ok (')' :: r) gs := by
    refine sepList1_complete space1 _ [' '] id GlobEnd (by simp) gs hne ?_ ?_ ?_ _ ⟨r, Or.inr rfl⟩
      (space1_err _ _ (by decide))
    · intro g hg' t
      refine space1_ok g t (hg g hg').1 fun c hc => isSpace_isWs ((hg g hg').2 c (List.mem_of_head? hc)).1
    · intro g hg' t ht
      simp only [id]
      rw [skip_none g t (hg g hg').1 fun c hc => ((hg g hg').2 c hc).1]
      exact glob_ok g t (hg g hg') ht
    · intro t; exact ⟨t, Or.inl rfl⟩
  rw [List.map_id] at this
  simp only [exports, chr, if_true, PR.bind]
  rw [this]
  simp [skip, isSpace, chr, PR.map]

/-! ### Imports -/

theorem opIdent_complete (k : Classes) (s : List Char) (h1 : ∃ c cs, s = c :: cs ∧ k.alpha c = true)
    (h2 : ∀ c ∈ s, k.ident c = true) : opIdent k s = .ok [] s := by
  obtain ⟨c, cs, rfl, hc⟩ := h1
  have := takeWhile1_ok k.ident (c :: cs) [] (by simp) h2 (by simp)
  simp only [List.append_nil] at this
  simp [opIdent, hc, this]

theorem importPath_complete (k : Classes) (ps : List (List Char))
    (h : ∀ s ∈ ps, s = ['.', '.'] ∨ (∃ c cs, s = c :: cs ∧ k.alpha c = true) ∧ ∀ c ∈ s, k.ident c = true) :
    importPath k ps = .ok [] ps := by
  induction ps with
  | nil => rfl
  | cons p ps ih =>
    have ih := ih fun s hs => h s (by simp [hs])
    simp only [importPath]
    by_cases hp : p = ['.', '.']
    · rw [if_pos hp]; simp [PR.bind, ih, PR.map]
    · rw [if_neg hp]
      rcases h p (by simp) with h | ⟨h1, h2⟩
      · exact absurd h hp
      · rw [opIdent_complete k p h1 h2]; simp [PR.bind, ih, PR.map]

theorem ident_ok (k : Classes) (hk : k.Ok) (c : Char) (h : k.ident c = true) :
    isWs c = false ∧ c ≠ ')' ∧ c ≠ '/' := by
  simp only [Classes.ident, Bool.or_eq_true, beq_iff_eq] at h
  rcases h with (h | h) | h
  · exact hk c h
  · subst h; decide
  · subst h; decide

theorem wf_comps (k : Classes) (hk : k.Ok) (i : Import) (h : i.Wf k) :
    ∀ s ∈ i.path ++ [i.glob], CompText s := by
  intro s hs
  rcases List.mem_append.1 hs with hs | hs
  · rcases h.1 s hs with rfl | ⟨h1, h2⟩
    · exact ⟨⟨by simp, by decide⟩, by decide⟩
    · refine ⟨⟨?_, fun c hc => ?_⟩, fun hc => (ident_ok k hk _ (h2 _ hc)).2.2 rfl⟩
      · obtain ⟨c, cs, rfl, _⟩ := h1; simp
      · have := ident_ok k hk c (h2 c hc); exact ⟨this.1, this.2.1⟩
  · simp at hs; subst hs; exact h.2

theorem importPrefix_complete (p : Prefix) (t : List Char) (h : t.head? ≠ some '/') :
    importPrefix (renderPrefix p ++ t) = (t, p) := by
  cases p with
  | none =>
    cases t with
    | nil => rfl
    | cons c t =>
      have : c ≠ '/' := by simpa using h
      simp only [renderPrefix, List.nil_append]
      unfold importPrefix
      split
      · rename_i h1; simp at h1; exact absurd h1.1 this
      · rename_i h1; simp at h1; exact absurd h1.1 this
      · rfl
  | root =>
    cases t with
    | nil => rfl
    | cons c t =>
      have : c ≠ '/' := by simpa using h
      simp only [renderPrefix, List.cons_append, List.nil_append]
      unfold importPrefix
      split
      · rename_i h1; simp at h1; exact absurd h1.1 this
      · rename_i h1; simp at h1; rw [h1]
      · rename_i h1; simp at h1
  | plugins => rfl

theorem import_complete (k : Classes) (hk : k.Ok) (i : Import) (h : i.Wf k) (r : List Char)
    (hr : GlobEnd r) : import_ k (renderImport i ++ r) = .ok r i := by
  have hcomps := wf_comps k hk i h
  have hhead : (List.intercalate ['/'] (i.path ++ [i.glob]) ++ r).head? ≠ some '/' := by
    have : ∃ a as, i.path ++ [i.glob] = a :: as := by
      cases hp : i.path with
      | nil => exact ⟨_, _, rfl⟩
      | cons a as => exact ⟨_, _, rfl⟩
    obtain ⟨a, as, ha⟩ := this
    rw [ha, intercalate_cons]
    have hca := hcomps a (by rw [ha]; simp)
    cases a with
    | nil => exact absurd rfl hca.1.1
    | cons c cs =>
      simp only [List.cons_append, List.head?_cons, ne_eq, Option.some.injEq]
      rintro rfl
      exact hca.2 (by simp)
  have hsep : sepList1 (chr '/') (takeTill1 fun c => isWs c || c == ')' || c == '/')
      (List.intercalate ['/'] ((i.path ++ [i.glob]).map id) ++ r) = .ok r (i.path ++ [i.glob]) := by
    refine sepList1_complete (chr '/') _ ['/'] id (fun r => ∃ t, r = ' ' :: t ∨ r = ')' :: t ∨ r = '/' :: t)
      (by simp) _ (by simp) ?_ ?_ ?_ r ?_ ?_
    · intro a _ t; exact ⟨(), by simp [chr]⟩
    · intro a ha t ht
      have hca := hcomps a ha
      refine takeWhile1_ok _ a t hca.1.1 (fun c hc => ?_) fun c hc => ?_
      · have := hca.1.2 c hc
        have h3 : c ≠ '/' := by rintro rfl; exact hca.2 hc
        simp [this.1, this.2, h3]
      · obtain ⟨u, rfl | rfl | rfl⟩ := ht
        · simp at hc; subst hc; decide
        · simp at hc; subst hc; decide
        · simp at hc; subst hc; decide
    · intro t; exact ⟨t, Or.inr (Or.inr rfl)⟩
    · obtain ⟨t, h | h⟩ := hr
      · exact ⟨t, Or.inl h⟩
      · exact ⟨t, Or.inr (Or.inl h)⟩
    · obtain ⟨t, rfl | rfl⟩ := hr <;> simp [chr]
  rw [List.map_id] at hsep
  unfold import_
  rw [renderImport, List.append_assoc, importPrefix_complete _ _ hhead]
  simp only
  rw [hsep]
  have hglob : glob i.glob = .ok [] i.glob := by
    have := takeWhile1_ok (fun c => !(isWs c || c == ')')) i.glob [] h.2.1.1
      (fun c hc => by have := h.2.1.2 c hc; simp [this.1, this.2]) (by simp)
    rw [List.append_nil] at this
    exact this
  simp [PR.bind, hglob, importPath_complete k i.path h.1]

theorem renderImport_head (k : Classes) (hk : k.Ok) (i : Import) (h : i.Wf k) :
    ∃ c cs, renderImport i = c :: cs ∧ isSpace c = false := by
  have hcomps := wf_comps k hk i h
  have hs : isSpace '/' = false := by decide
  unfold renderImport
  cases i.prefix_ with
  | root => exact ⟨_, _, rfl, hs⟩
  | plugins => exact ⟨_, _, rfl, hs⟩
  | none =>
    have : ∃ a as, i.path ++ [i.glob] = a :: as := by
      cases hp : i.path with
      | nil => exact ⟨_, _, rfl⟩
      | cons a as => exact ⟨_, _, rfl⟩
    obtain ⟨a, as, ha⟩ := this
    have hca := hcomps a (by rw [ha]; simp)
    rw [ha, intercalate_cons]
    cases a with
    | nil => exact absurd rfl hca.1.1
    | cons c cs => exact ⟨c, _, rfl, isSpace_isWs (hca.1.2 c (by simp)).1⟩

theorem imports_ok (k : Classes) (hk : k.Ok) (is : List Import) (hne : is ≠ []) (hi : ∀ i ∈ is, i.Wf k)
    (r : List Char) :
    imports k ('(' :: (List.intercalate [' '] (is.map renderImport) ++ ')' :: r)) = .ok r is := by
  have : sepList1 space1 (fun i => import_ k (skip isSpace i))
      (List.intercalate [' '] (is.map renderImport) ++ ')' :: r) = .ok (')' :: r) is := by
    refine sepList1_complete space1 _ [' '] renderImport GlobEnd (by simp) is hne ?_ ?_ ?_ _ ⟨r, Or.inr rfl⟩
      (space1_err _ _ (by decide))
    · intro i hi' t
      obtain ⟨c, cs, h1, h2⟩ := renderImport_head k hk i (hi i hi')
      refine space1_ok _ t (by rw [h1]; simp) fun d hd => ?_
      rw [h1] at hd; simp at hd; rw [← hd]; exact h2
    · intro i hi' t ht
      obtain ⟨c, cs, h1, h2⟩ := renderImport_head k hk i (hi i hi')
      have : skip isSpace (renderImport i ++ t) = renderImport i ++ t := by
        rw [h1]; simp [skip, h2]
      rw [this]
      exact import_complete k hk i (hi i hi') t ht
    · intro t; exact ⟨t, Or.inl rfl⟩
  simp only [imports, chr, if_true, PR.bind]
  rw [this]
  simp [skip, isSpace, chr, PR.map]

/-! ### Lines -/

theorem tag_err (a b : Char) (t i : List Char) (h : a ≠ b) : tag (a :: t) (b :: i) = .err := by
  simp [tag, h]

theorem tag_self (t r : List Char) : tag t (t ++ r) = .ok r () := tag_ok.2 rfl

theorem toks : "no-parallelise".toList = 'n' :: "o-parallelise".toList ∧
    "fail-fast".toList = 'f' :: "ail-fast".toList ∧ "import".toList = 'i' :: "mport".toList ∧
    "export".toList = 'e' :: "xport".toList ∧ "import(".toList = "import".toList ++ ['('] ∧
    "export(".toList = "export".toList ++ ['('] := by decide

theorem directive_complete (k : Classes) (hk : k.Ok) (d : Directive) (h : d.Wf k) (r : List Char) :
    directive k (renderDirective d ++ r) = .ok r d := by
  obtain ⟨t1, t2, t3, t4, t5, t6⟩ := toks
  have sk : ∀ (c : Char) (s t : List Char), isSpace c = false → s = c :: t → skip isSpace s = s := by
    rintro c s t hc rfl; simp [skip, hc]
  have r1 : renderDirective .noParallelise = "no-parallelise".toList := rfl
  have r2 : renderDirective .failFast = "fail-fast".toList := rfl
  have r3 : ∀ is, renderDirective (.import_ is) =
    "import(".toList ++ List.intercalate [' '] (is.map renderImport) ++ [')'] := fun _ => rfl
  have r4 : ∀ gs, renderDirective (.export_ gs) =
    "export(".toList ++ List.intercalate [' '] gs ++ [')'] := fun _ => rfl
  cases d with
  | noParallelise =>
    have e : skip isSpace (renderDirective .noParallelise ++ r) = "no-parallelise".toList ++ r := by
      rw [r1]
      exact sk 'n' _ ("o-parallelise".toList ++ r) (by decide) (by rw [t1, List.cons_append])
    unfold directive
    rw [e]
    simp only [tag_self]
  | failFast =>
    have e : skip isSpace (renderDirective .failFast ++ r) = "fail-fast".toList ++ r := by
      rw [r2]
      exact sk 'f' _ ("ail-fast".toList ++ r) (by decide) (by rw [t2, List.cons_append])
    have e1 : tag "no-parallelise".toList ("fail-fast".toList ++ r) = .err := by
      rw [t1, t2, List.cons_append]; exact tag_err _ _ _ _ (by decide)
    unfold directive
    rw [e]
    simp only [tag_self, e1]
  | import_ is =>
    generalize hs : '(' :: (List.intercalate [' '] (is.map renderImport) ++ ')' :: r) = s
    have e0 : renderDirective (.import_ is) ++ r = "import".toList ++ s := by
      rw [r3, t5, ← hs]; simp
    have e : skip isSpace (renderDirective (.import_ is) ++ r) = "import".toList ++ s := by
      rw [e0]
      exact sk 'i' _ ("mport".toList ++ s) (by decide) (by rw [t3, List.cons_append])
    have e1 : tag "no-parallelise".toList ("import".toList ++ s) = .err := by
      rw [t1, t3, List.cons_append]; exact tag_err _ _ _ _ (by decide)
    have e2 : tag "fail-fast".toList ("import".toList ++ s) = .err := by
      rw [t2, t3, List.cons_append]; exact tag_err _ _ _ _ (by decide)
    have := imports_ok k hk is h.1 h.2 r
    rw [hs] at this
    unfold directive
    rw [e]
    simp only [tag_self, e1, e2, this, PR.map]
  | export_ gs =>
    generalize hs : '(' :: (List.intercalate [' '] gs ++ ')' :: r) = s
    have e0 : renderDirective (.export_ gs) ++ r = "export".toList ++ s := by
      rw [r4, t6, ← hs]; simp
    have e : skip isSpace (renderDirective (.export_ gs) ++ r) = "export".toList ++ s := by
      rw [e0]
      exact sk 'e' _ ("xport".toList ++ s) (by decide) (by rw [t4, List.cons_append])
    have e1 : tag "no-parallelise".toList ("export".toList ++ s) = .err := by
      rw [t1, t4, List.cons_append]; exact tag_err _ _ _ _ (by decide)
    have e2 : tag "fail-fast".toList ("export".toList ++ s) = .err := by
      rw [t2, t4, List.cons_append]; exact tag_err _ _ _ _ (by decide)
    have e3 : tag "import".toList ("export".toList ++ s) = .err := by
      rw [t3, t4, List.cons_append]; exact tag_err _ _ _ _ (by decide)
    have := exports_ok gs h.1 h.2 r
    rw [hs] at this
    unfold directive
    rw [e]
    simp only [tag_self, e1, e2, e3, this, PR.map]

theorem renderDirective_head (d : Directive) : ∃ c cs, renderDirective d = c :: cs ∧ isSpace c = false := by
  cases d with
  | noParallelise => exact ⟨_, _, rfl, by decide⟩
  | failFast => exact ⟨_, _, rfl, by decide⟩
  | import_ is => exact ⟨_, _, rfl, by decide⟩
  | export_ gs => exact ⟨_, _, rfl, by decide⟩

theorem directiveLine_complete (k : Classes) (hk : k.Ok) (ds : List Directive) (hne : ds ≠ [])
    (h : ∀ d ∈ ds, d.Wf k) (r : List Char) :
    directiveLine k (renderLine ds ++ r) = .ok ('\n' :: r) ds := by
  have : sepList1 space1 (directive k) (List.intercalate [' '] (ds.map renderDirective) ++ ']' :: '\n' :: r) =
      .ok (']' :: '\n' :: r) ds := by
    refine sepList1_complete space1 _ [' '] renderDirective (fun _ => True) (by simp) ds hne ?_ ?_ ?_ _ trivial
      (space1_err _ _ (by decide))
    · intro d _ t
      obtain ⟨c, cs, h1, h2⟩ := renderDirective_head d
      refine space1_ok _ t (by rw [h1]; simp) fun e he => ?_
      rw [h1] at he; simp at he; rw [← he]; exact h2
    · intro d hd t _; exact directive_complete k hk d (h d hd) t
    · intro _; trivial
  have hws : isWs '[' = false := by decide
  have hb : isSpace ']' = false := by decide
  unfold directiveLine renderLine
  simp only [List.cons_append, List.nil_append, List.append_assoc, trimStart, List.dropWhile_cons, hws,
    Bool.false_eq_true, if_false, chr, if_true, PR.bind]
  rw [this]
  simp [cut, skip, hb, PR.map]

theorem directives_complete (k : Classes) (hk : k.Ok) (body : List Char) (hb : directiveLine k body = .err)
    (lines : List (List Directive)) : (∀ l ∈ lines, l ≠ [] ∧ ∀ d ∈ l, d.Wf k) →
    ∀ (n : Nat) (ds : List Directive), lines.length < n →
    directives k n ((lines.map renderLine).flatten ++ body) ds = some (ds ++ lines.flatten, body) := by
  induction lines with
  | nil =>
    intro _ n ds hn
    cases n with
    | zero => omega
    | succ n => simp [directives, opt, hb, PR.bind]
  | cons l ls ih =>
    intro h n ds hn
    cases n with
    | zero => omega
    | succ n =>
      have hl := h l (by simp)
      simp only [List.map_cons, List.flatten_cons, List.append_assoc, directives, opt]
      rw [directiveLine_complete k hk l hl.1 hl.2]
      simp only [PR.bind, cut, lineEnding, PR.map]
      rw [ih (fun x hx => h x (by simp [hx])) n _ (by simpa using hn)]
      simp

end Verif.File
