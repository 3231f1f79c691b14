import Verif.Model.ParseErr
import Verif.Lemmas.Parse
/-! The parser with errors is the parser. -/
namespace Verif.ParseErr
open Verif Verif.Nom Verif.File Verif.Parse

/-- The result without the errors. -/
def XR.erase {α : Type} : XR α → PR α
  | .ok r a => .ok r a
  | .err _ => .err
  | .fail _ => .fail

variable {α β : Type}

theorem erase_bind (x : XR α) (f : Str → α → XR β) : (x.bind f).erase = x.erase.bind fun r a => (f r a).erase := by cases x <;> rfl

theorem erase_map (f : α → β) (x : XR α) : (x.map f).erase = x.erase.map f := by cases x <;> rfl

theorem erase_mapErr (f : Err → Err) (x : XR α) : (x.mapErr f).erase = x.erase := by cases x <;> rfl

/-- One parser is the other with errors. -/
def Is (p : XParser α) (q : Parser α) : Prop := ∀ i, (p i).erase = q i

theorem is_expecting {x : Expecting} {p : XParser α} {q : Parser α} (h : Is p q) : Is (expecting x p) q := fun i => (erase_mapErr _ _).trans (h i)

theorem is_context {n : String} {p : XParser α} {q : Parser α} (h : Is p q) : Is (context n p) q := fun i => (erase_mapErr _ _).trans (h i)

theorem is_cut {p : XParser α} {q : Parser α} (h : Is p q) : Is (xcut p) (cut q) := fun i => by
  have := h i
  unfold xcut cut
  rw [← this]
  cases p i <;> rfl

theorem is_opt {p : XParser α} {q : Parser α} (h : Is p q) : Is (xopt p) (opt q) := fun i => by
  have := h i
  unfold xopt opt
  rw [← this]
  cases p i <;> rfl

theorem is_tag (t : Str) : Is (xtag t) (tag t) := fun i => by
  unfold xtag tag
  split <;> rfl

theorem is_chr (c : Char) : Is (xchr c) (chr c) := fun i => by
  unfold xchr chr
  cases i with
  | nil => rfl
  | cons d r => dsimp only; split <;> rfl

theorem is_takeWhile1 (p : Char → Bool) : Is (xtakeWhile1 p) (takeWhile1 p) := fun i => by
  unfold xtakeWhile1 takeWhile1
  split <;> rfl

theorem is_takeTill1 (p : Char → Bool) : Is (xtakeTill1 p) (takeTill1 p) := is_takeWhile1 _

theorem is_bind {p : XParser α} {q : Parser α} {f : Str → α → XR β} {g : Str → α → PR β} (h : Is p q) (hf : ∀ r a, (f r a).erase = g r a) :
    Is (fun i => (p i).bind f) fun i => (q i).bind g := fun i => by
  show ((p i).bind f).erase = _
  rw [erase_bind, h i]
  congr
  funext r a
  exact hf r a

theorem is_map {p : XParser α} {q : Parser α} (f : α → β) (h : Is p q) : Is (fun i => (p i).map f) fun i => (q i).map f := fun i => by
  show ((p i).map f).erase = _
  rw [erase_map, h i]

theorem sepLoop_is {sep : XParser β} {sep' : Parser β} {f : XParser α} {f' : Parser α} (hs : Is sep sep') (hf : Is f f') :
    ∀ n i acc, (xsepLoop sep f n i acc).erase = sepLoop sep' f' n i acc
  | 0, _, _ => rfl
  | n + 1, i, acc => by
    unfold xsepLoop sepLoop
    have h1 := hs i
    rw [← h1]
    cases sep i with
    | err e => rfl
    | fail e => rfl
    | ok i1 b =>
      dsimp only
      by_cases hl : i1.length = i.length
      · rw [if_pos hl, show (XR.ok i1 b).erase = .ok i1 b from rfl]
        dsimp only
        rw [if_pos hl]
        rfl
      · rw [if_neg hl, show (XR.ok i1 b).erase = .ok i1 b from rfl]
        dsimp only
        rw [if_neg hl]
        have h2 := hf i1
        rw [← h2]
        cases f i1 with
        | err e => rfl
        | fail e => rfl
        | ok i2 a => exact sepLoop_is hs hf n i2 _

theorem is_sepList1 {sep : XParser β} {sep' : Parser β} {f : XParser α} {f' : Parser α} (hs : Is sep sep') (hf : Is f f') :
    Is (xsepList1 sep f) (sepList1 sep' f') := is_bind hf fun _ _ => sepLoop_is hs hf _ _ _

theorem is_sepList0 {sep : XParser β} {sep' : Parser β} {f : XParser α} {f' : Parser α} (hs : Is sep sep') (hf : Is f f') :
    Is (xsepList0 sep f) (sepList0 sep' f') := fun i => by
  unfold xsepList0 sepList0
  have h2 := hf i
  rw [← h2]
  cases f i with
  | err e => rfl
  | fail e => rfl
  | ok i a => exact sepLoop_is hs hf _ _ _

theorem is_ws {p : XParser α} {q : Parser α} (h : Is p q) : Is (xws p) (ws q) := fun i => by
  unfold xws ws
  rw [erase_bind, h]
  rfl

theorem manyLoop_is {f : XParser α} {f' : Parser α} (hf : Is f f') : ∀ n i acc, (xmanyLoop f n i acc).erase = manyLoop f' n i acc
  | 0, _, _ => rfl
  | n + 1, i, acc => by
    unfold xmanyLoop manyLoop
    have h := hf i
    rw [← h]
    cases f i with
    | err e => rfl
    | fail e => rfl
    | ok i1 a =>
      dsimp only
      by_cases hl : i1.length = i.length
      · rw [if_pos hl, show (XR.ok i1 a).erase = .ok i1 a from rfl]
        dsimp only
        rw [if_pos hl]
        rfl
      · rw [if_neg hl, show (XR.ok i1 a).erase = .ok i1 a from rfl]
        dsimp only
        rw [if_neg hl]
        exact manyLoop_is hf n i1 _

theorem is_many0 {f : XParser α} {f' : Parser α} (hf : Is f f') : Is (xmany0 f) (many0 f') := fun _ => manyLoop_is hf _ _ _

theorem is_many1 {f : XParser α} {f' : Parser α} (hf : Is f f') : Is (xmany1 f) (many1 f') := by
  refine is_bind (p := fun i => firstErr i (f i)) (fun i => ?_) (fun _ _ => manyLoop_is hf _ _ _)
  rw [← hf i]
  show (firstErr i (f i)).erase = _
  cases f i <;> rfl

/-! ### The parsers -/

variable (k : Env)

theorem is_opIdent (c : Classes) : Is (xopIdent c) (opIdent c) := fun i => by
  cases i with
  | nil => rfl
  | cons a s =>
    rw [xopIdent, opIdent]
    split
    · rfl
    · exact is_takeWhile1 _ _

theorem is_optTy : Is (xoptTy k) (optTy k) :=
  is_opt (is_bind (is_chr ':') fun r _ => is_expecting (is_cut (is_context (is_opIdent k.cls))) r)

theorem opTail_is : ∀ n i acc, (xopTail k n i acc).erase = opTail k n i acc
  | 0, _, _ => rfl
  | n + 1, i, acc => by
    unfold xopTail opTail
    have h := is_bind (is_tag [':', ':']) (fun r _ => is_opIdent k.cls r) i
    dsimp only at h
    rw [← h]
    cases (xtag [':', ':'] i).bind fun i _ => xopIdent k.cls i with
    | err e => rfl
    | fail e => rfl
    | ok r t => exact opTail_is n r _

theorem is_opName : Is (xopName k) (opName k) := is_bind (is_opIdent k.cls) fun _ _ => opTail_is k _ _ _

theorem pathEnd_is (i r : Str) (x : α) : (xpathEnd i r x).erase = pathEnd r x := by
  unfold xpathEnd pathEnd
  split
  · rfl
  · rfl
  · rename_i h1 h2
    split
    · rename_i s
      exact absurd rfl (h2 s)
    · rfl

theorem is_path : Is (xpath k) (path k) := fun i => by
  unfold xpath path
  rw [erase_bind, is_sepList1 (is_tag ['/']) (is_opName k)]
  congr
  funext r cs
  exact pathEnd_is _ _ _

theorem is_op : Is (xop k) (op k) := fun i => by
  unfold xop op
  cases specOp i with
  | ok r t => rfl
  | err =>
    dsimp only
    rw [erase_map, is_path]
    congr
    funext p
    obtain ⟨b, cs⟩ := p
    rcases cs with _ | ⟨c, _ | ⟨d, cs⟩⟩ <;> rfl
  | fail =>
    dsimp only
    rw [erase_map, is_path]
    congr
    funext p
    obtain ⟨b, cs⟩ := p
    rcases cs with _ | ⟨c, _ | ⟨d, cs⟩⟩ <;> rfl

theorem is_wrapped (q : Char) : Is (xwrapped q) (wrapped q) :=
  is_bind (is_chr q) fun r _ => by rw [erase_map, is_chr]

theorem is_ident : Is xident ident := fun i => by
  unfold xident ident
  split
  · rfl
  · exact is_wrapped _ _
  · exact is_wrapped _ _
  · rw [is_takeTill1]
    split <;> first | rfl | (exfalso; simp_all; done)

theorem is_flag : Is xflag flag := is_bind (is_tag _) fun r _ => is_ident r

theorem is_infixRhs : Is (xinfixRhs k) (infixRhs k) := fun i => by
  unfold xinfixRhs infixRhs
  split
  · exact is_ident _
  · exact is_ident _
  · rw [is_opIdent]
    split <;> first | rfl | (exfalso; simp_all; done)

theorem infixLoop_is : ∀ n i a, (xinfixLoop k n i a).erase = infixLoop k n i a
  | 0, _, _ => rfl
  | n + 1, i, a => by
    unfold xinfixLoop infixLoop
    split
    · rw [erase_bind, is_cut (is_infixRhs k)]
      congr
      funext i rhs
      rw [erase_bind, is_optTy]
      congr
      funext i out
      exact infixLoop_is n _ _
    · split
      · exfalso; simp_all
      · rfl

theorem is_term {p : XParser Arg} {q : Parser Arg} (h : Is p q) : Is (xterm k p) (term k q) := fun i => by
  unfold xterm term
  split
  · rw [erase_map, is_flag]
  · rw [erase_map, erase_bind, h]
    congr
    funext i a
    exact infixLoop_is k _ _ _

theorem is_block {p : XParser Arg} {q : Parser Arg} (h : Is p q) : Is (xblock k p) (block k q) := fun i => by
  unfold xblock block
  rw [erase_bind, is_optTy]
  congr
  funext i inTy
  rw [erase_bind, is_expecting (q := fun i => op k (skip isMulti i)) (fun i => is_op k _)]
  congr
  funext i o
  rw [erase_bind, is_optTy]
  congr
  funext i out
  rw [erase_map, is_many0 (is_ws (is_term k h))]

theorem is_blk {p : XParser Blk} {q : Parser Blk} (h : Is p q) : Is (xblk p) (ws q) := is_context (is_ws h)

theorem pipes_is {p : XParser Blk} {q : Parser Blk} (h : Is p q) : ∀ n i acc, (xpipes p n i acc).erase = pipes q n i acc
  | 0, _, _ => rfl
  | n + 1, i, acc => by
    unfold xpipes pipes
    split
    · rw [erase_bind, h]
      congr
      funext i x
      exact pipes_is h n _ _
    · split
      · exfalso; simp_all
      · rfl

theorem is_expr {p : XParser Blk} {q : Parser Blk} (h : Is p q) : Is (xexpr p) (expr q) := fun i => by
  unfold xexpr expr
  rw [erase_bind, is_blk h]
  congr
  funext i x
  rw [erase_bind, pipes_is (is_blk h)]
  congr
  funext i bs
  have := is_blk h i
  rw [← this]
  cases xblk p i <;> rfl

theorem pound_is (i c : Str) : (xpound i c).erase = match c with
    | [ch] => if ch.utf8Size = 1 then PR.ok i (Arg.pound ch) else .fail
    | _ => .fail := by
  unfold xpound
  rcases c with _ | ⟨a, _ | ⟨b, c⟩⟩
  · rfl
  · dsimp only
    split <;> rfl
  · rfl

theorem word_is {p : XParser Blk} {q : Parser Blk} (h : Is p q) (i : Str) : (xword k p i).erase = match num k i with
    | .ok r s => .ok r (.num s)
    | _ => if knownOp k i then (ws q i).map fun x => .expr (.mk [x] none) else (ident i).map .ident := by
  unfold xword
  have hk : (if knownOp k i = true then XR.map (fun x => Arg.expr (.mk [x] Option.none)) (xws p i) else XR.map .ident (xident i)).erase =
      if knownOp k i then (ws q i).map fun x => .expr (.mk [x] none) else (ident i).map .ident := by
    split
    · rw [erase_map, is_ws h]
    · rw [erase_map, is_ident]
  cases num k i with
  | ok r t => rfl
  | err => exact hk
  | fail => exact hk

theorem is_arg {p : XParser Blk} {q : Parser Blk} (h : Is p q) : Is (xarg k p) (arg k q) := fun i => by
  unfold xarg
  split
  · rw [arg]
    split
    · rfl
    · rw [erase_bind, is_cut (q := fun i => (ws (expr q) i).bind fun i e => (chr '}' i).map fun _ => e)
        (is_bind (is_ws (is_expr h)) fun r e => by rw [erase_map, is_expecting (is_chr '}')])]
      congr
      funext i e
      rw [erase_map, is_optTy]
  · rw [arg]; rfl
  · rw [arg, erase_map, is_opIdent]
  · rw [arg, erase_bind, is_cut (is_expecting (is_opIdent _))]
    congr
    funext i c
    exact pound_is i c
  · rename_i h1 h2 h3 h4
    have ha : arg k q i = if breakonS i then .err else match num k i with
        | .ok r s => .ok r (.num s)
        | _ => if knownOp k i then (ws q i).map fun x => .expr (.mk [x] none) else (ident i).map .ident := by
      unfold arg
      split
      · exact absurd rfl (h1 _)
      · exact absurd rfl (h2 _)
      · exact absurd rfl (h3 _)
      · exact absurd rfl (h4 _)
      · rfl
    rw [ha]
    · by_cases hb : breakonS i = true
      · rw [if_pos hb, if_pos hb]; rfl
      · rw [if_neg hb, if_neg hb]; exact word_is k h i

theorem is_blockN : ∀ n, Is (xblockN k n) (blockN k n)
  | 0 => fun _ => rfl
  | n + 1 => is_block k (is_arg k (is_blockN n))

theorem is_noTrailing {p : XParser α} {q : Parser α} (h : Is p q) : Is (xnoTrailing p) (noTrailing q) := fun i => by
  unfold xnoTrailing noTrailing
  rw [erase_bind, h]
  congr
  funext r a
  split <;> rfl

theorem is_expression : Is (xexpression k) (expression k) := fun i => is_noTrailing (is_expr (is_blockN k _)) i

theorem is_defOp : Is (xdefOp k) (defOp k) := fun i => by
  unfold xdefOp defOp ws
  rw [erase_bind, is_tag]
  dsimp only
  cases tag ['d', 'e', 'f', ' '] (skip isMulti i) with
  | err => rfl
  | fail => rfl
  | ok r u =>
    show ((xop k r).bind fun r_1 o => nameOf r r_1 o).erase = _
    rw [erase_bind, is_op]
    show _ = ((op k r).bind fun r a => PR.ok (skip isMulti r) a).bind _
    cases op k r with
    | err => rfl
    | fail => rfl
    | ok s o => cases o <;> rfl

theorem is_defParam : Is (fun i => (xdefParam k i).map (·.1)) (defParam k) := fun i => by
  show ((xdefParam k i).map (·.1)).erase = _
  rw [erase_map]
  unfold xdefParam defParam
  rw [erase_bind, is_opIdent]
  cases opIdent k.cls i with
  | err => rfl
  | fail => rfl
  | ok r name =>
    dsimp only [PR.bind]
    split
    · rw [erase_map, is_opIdent]
      rename_i r
      show _ = PR.map (fun t => (⟨name, some t⟩ : Param)) (opIdent k.cls r)
      cases opIdent k.cls r <;> rfl
    · rename_i h
      split
      · exact absurd rfl (h _)
      · rfl

theorem manyLoop_map {f : XParser α} {g : α → β} {f' : Parser β} (hf : Is (fun i => (f i).map g) f') :
    ∀ n i (acc : List α), ((xmanyLoop f n i acc).map (·.map g)).erase = manyLoop f' n i (acc.map g)
  | 0, _, _ => rfl
  | n + 1, i, acc => by
    unfold xmanyLoop manyLoop
    have h := hf i
    rw [← h]
    dsimp only
    cases f i with
    | err e => rfl
    | fail e => rfl
    | ok i1 a =>
      dsimp only
      rw [show ((XR.ok i1 a).map g).erase = .ok i1 (g a) from rfl]
      dsimp only
      by_cases hl : i1.length = i.length
      · rw [if_pos hl, if_pos hl]
        rfl
      · rw [if_neg hl, if_neg hl]
        have := manyLoop_map hf n i1 (acc ++ [a])
        rw [List.map_append] at this
        exact this

theorem repeated_nodup : ∀ (seen : List Str) (ps : List (Param × Str)), seen.Nodup →
    (repeated seen ps = none ↔ ((ps.map fun p => p.1.name).Nodup ∧ ∀ p ∈ ps, p.1.name ∉ seen))
  | seen, [], _ => by simp [repeated]
  | seen, p :: ps, hs => by
    unfold repeated
    split
    · rename_i h
      constructor
      · intro e; cases e
      · intro ⟨_, h2⟩; exact absurd h (h2 p (List.mem_cons_self ..))
    · rename_i h
      rw [repeated_nodup (p.1.name :: seen) ps (List.nodup_cons.2 ⟨h, hs⟩), List.map_cons, List.nodup_cons]
      constructor
      · rintro ⟨h1, h2⟩
        refine ⟨⟨?_, h1⟩, ?_⟩
        · intro hm
          obtain ⟨q, hq, e⟩ := List.mem_map.1 hm
          exact h2 q hq (by rw [e]; exact List.mem_cons_self ..)
        · intro q hq
          rcases List.mem_cons.1 hq with e | hq
          · rw [e]; exact h
          · exact fun hm => h2 q hq (List.mem_cons_of_mem _ hm)
      · rintro ⟨⟨h1, h2⟩, h3⟩
        refine ⟨h2, fun q hq hm => ?_⟩
        rcases List.mem_cons.1 hm with e | hm
        · exact h1 (by rw [← e]; exact List.mem_map_of_mem (f := fun p : Param × Str => p.1.name) hq)
        · exact h3 q (List.mem_cons_of_mem _ hq) hm

theorem distinct_is (i : Str) (ps : List (Param × Str)) :
    (distinct i ps).erase = if ((ps.map (·.1)).map (·.name)).Nodup then .ok i (ps.map (·.1)) else .err := by
  unfold distinct
  have h := repeated_nodup [] ps List.nodup_nil
  have e : (ps.map (·.1)).map (·.name) = ps.map fun p => p.1.name := by rw [List.map_map]; rfl
  rw [e]
  cases hr : repeated [] ps with
  | none => rw [if_pos (h.1 hr).1]; rfl
  | some p =>
    rw [if_neg]
    · rfl
    · intro hn
      rw [h.2 ⟨hn, by simp⟩] at hr
      cases hr

theorem is_defParams : Is (xdefParams k) (defParams k) := fun i => by
  unfold xdefParams defParams
  rw [erase_bind, is_chr]
  congr
  funext i _
  have hm := manyLoop_map (f := xws (xdefParam k)) (g := (·.1)) (f' := ws (defParam k)) (fun i => by
    have := is_ws (is_defParam k) i
    rw [← this]
    show ((xws (xdefParam k) i).map (·.1)).erase = _
    unfold xws
    dsimp only
    cases xdefParam k (skip isMulti i) <;> rfl) (i.length + 1) i []
  rw [erase_bind]
  unfold xmany0 many0
  rw [List.map_nil] at hm
  rw [← hm]
  cases xmanyLoop (xws (xdefParam k)) (i.length + 1) i [] with
  | err e => rfl
  | fail e => rfl
  | ok r ps =>
    show ((xchr ')' r).bind fun i _ => distinct i ps).erase = (chr ')' r).bind fun i _ =>
      if ((ps.map (·.1)).map (·.name)).Nodup then PR.ok i (ps.map (·.1)) else PR.err
    rw [erase_bind, is_chr]
    congr
    funext i _
    exact distinct_is _ _

theorem is_definitionImpl : Is (xdefinitionImpl k) (definitionImpl k) := fun i => by
  unfold xdefinitionImpl definitionImpl
  dsimp only
  rw [erase_bind, is_defOp]
  congr
  funext j name
  rw [erase_bind, is_ws (is_opt (is_opIdent k.cls))]
  congr
  funext j inTy
  rw [erase_bind, is_expecting (is_defParams k)]
  congr
  funext j ps
  rw [erase_map]
  congr
  exact is_noTrailing (is_ws (is_bind (is_chr '{') fun i _ => by
    rw [erase_bind, is_ws (is_expr (is_blockN k _))]
    congr
    funext i e
    rw [erase_map, is_chr])) _

theorem is_deftyField : Is (xdeftyField k) (deftyField k) := fun i => by
  unfold xdeftyField deftyField
  rw [erase_bind, is_opIdent]
  congr
  funext i name
  rw [erase_bind, is_cut (is_context (is_chr ':'))]
  congr
  funext i _
  rw [erase_bind, is_cut (is_context (is_opIdent _))]
  congr
  funext i ty
  split
  · rw [erase_map, is_cut (q := fun i => (many1 (ws (opIdent k.cls)) i).bind fun i ps => (ws (chr '>') i).map fun _ => ps)
      (is_bind (is_many1 (is_ws (is_opIdent _))) fun r ps => by rw [erase_map, is_ws (is_chr '>')])]
    rfl
  · rename_i h
    split
    · exact absurd rfl (h _)
    · rfl

theorem is_deftyFields : Is (xdeftyFields k) (deftyFields k) := is_bind (is_chr '{') fun i _ => by
  rw [erase_bind, is_many0 (is_ws (is_deftyField k))]
  congr
  funext i fs
  rw [erase_map, is_chr]

theorem is_deftyVariant : Is (xdeftyVariant k) (deftyVariant k) := is_bind (is_ws (is_opIdent _)) fun i name => by
  rw [erase_map, is_opt (is_ws (is_deftyFields k))]

theorem is_definitionType : Is (xdefinitionType k) (definitionType k) := fun i => by
  unfold xdefinitionType definitionType
  rw [erase_bind, is_ws (q := fun i => (tag ['d', 'e', 'f', '-', 't', 'y', ' '] i).bind fun i _ => opIdent k.cls i)
    (is_bind (is_tag _) fun r _ => is_opIdent _ r)]
  congr
  funext i name
  rw [erase_bind]
  congr
  · unfold xdeftyBody
    cases ws (tag [':', ':']) i with
    | ok r u =>
      dsimp only
      rw [erase_map, is_sepList0 (is_ws (is_chr '|')) (is_ws (is_deftyVariant k))]
    | err =>
      dsimp only
      rw [erase_map, is_deftyFields]
    | fail =>
      dsimp only
      rw [erase_map, is_deftyFields]
  · funext i ty
    split <;> rfl

/-- The parser with errors accepts the same texts, with the same result. -/
theorem is_parse : Is (xparse k) (Parse.parse k) := fun i => by
  unfold xparse Parse.parse
  split
  · rw [erase_map, is_definitionImpl]
  · split
    · rw [erase_map, is_definitionType]
    · rw [erase_map, is_expression]

end Verif.ParseErr
