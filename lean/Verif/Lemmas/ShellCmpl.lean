import Verif.Lemmas.Shell
namespace Verif.Shell

/-! ### The word being completed -/

/-- Split off the trailing run of characters that are not separators. -/
def cut : List Char → List Char × List Char
  | [] => ([], [])
  | c :: l => if (cut l).1 ≠ [] ∨ isSplit c = true then (c :: (cut l).1, (cut l).2)
    else ([], c :: (cut l).2)

theorem cut_append (l : List Char) : (cut l).1 ++ (cut l).2 = l := by
  induction l with
  | nil => rfl
  | cons c l ih =>
    simp only [cut]; split
    · simp [ih]
    · rename_i h
      simp only [not_or, Classical.not_not] at h
      rw [h.1, List.nil_append] at ih
      simp [ih]

theorem cut_word (l : List Char) : ∀ c ∈ (cut l).2, isSplit c = false := by
  induction l with
  | nil => simp [cut]
  | cons c l ih =>
    simp only [cut]; split
    · exact ih
    · rename_i h
      simp only [not_or, Bool.not_eq_true] at h
      intro d hd
      rcases List.mem_cons.1 hd with rfl | hd
      · exact h.2
      · exact ih d hd

theorem cut_pre (l : List Char) : (cut l).1 = [] ∨ ∃ p c, (cut l).1 = p ++ [c] ∧ isSplit c = true := by
  induction l with
  | nil => simp [cut]
  | cons c l ih =>
    simp only [cut]; split
    · rename_i h
      right
      rcases ih with h0 | ⟨p, d, hp, hd⟩
      · rcases h with h | h
        · exact absurd h0 h
        · exact ⟨[], c, by simp [h0], h⟩
      · exact ⟨c :: p, d, by simp [hp], hd⟩
    · exact Or.inl rfl

theorem wordStartLoop_left (before : Nat) (l r : List Char) : ∀ (idx pos : Nat),
    idx + utf8Len l ≤ before →
    wordStartLoop before (l ++ r) idx pos =
      wordStartLoop before r (idx + utf8Len l)
        (if (cut l).1 = [] then pos else idx + utf8Len (cut l).1) := by
  induction l with
  | nil => intro idx pos _; simp [cut, utf8Len]
  | cons c l ih =>
    intro idx pos h
    have hlen : utf8Len (c :: l) = c.utf8Size + utf8Len l := by simp [utf8Len]
    rw [hlen] at h
    rw [List.cons_append, wordStartLoop, if_neg (by omega), ih _ _ (by omega), hlen,
      Nat.add_assoc]
    congr 1
    simp only [cut]
    by_cases h1 : (cut l).1 = []
    · by_cases h2 : isSplit c = true
      · simp [h1, h2, utf8Len]
      · simp [h1, h2]
    · simp [h1, utf8Len, Nat.add_assoc]

theorem wordStartLoop_right (before : Nat) (r : List Char) (pos : Nat) (hp : pos ≤ before) :
    min (wordStartLoop before r before pos) before =
      if r.head?.any isSplit = true then before else pos := by
  cases r with
  | nil => simp [wordStartLoop]; omega
  | cons c cs =>
    have hsz := Char.utf8Size_pos c
    have hstop : ∀ p, wordStartLoop before cs (before + c.utf8Size) p = p := by
      intro p
      cases cs with
      | nil => rfl
      | cons d ds => rw [wordStartLoop, if_pos (by omega)]
    rw [wordStartLoop, if_neg (by omega), hstop]
    cases h : isSplit c <;> simp [h] <;> omega

theorem utf8Len_append (a b : List Char) : utf8Len (a ++ b) = utf8Len a + utf8Len b := by
  simp [utf8Len]

theorem takeBytes_left (l r : List Char) : takeBytes (l ++ r) (utf8Len l) = some l := by
  induction l with
  | nil => cases r <;> rfl
  | cons c l ih =>
    have hsz := Char.utf8Size_pos c
    have hlen : utf8Len (c :: l) = c.utf8Size + utf8Len l := by simp [utf8Len]
    obtain ⟨n, hn⟩ : ∃ n, utf8Len (c :: l) = n + 1 := ⟨utf8Len (c :: l) - 1, by omega⟩
    rw [hn, List.cons_append, takeBytes, if_pos (by omega),
      show n + 1 - c.utf8Size = utf8Len l by omega, ih]; rfl

theorem dropBytes_left (l r : List Char) : dropBytes (l ++ r) (utf8Len l) = some r := by
  induction l with
  | nil => cases r <;> rfl
  | cons c l ih =>
    have hsz := Char.utf8Size_pos c
    have hlen : utf8Len (c :: l) = c.utf8Size + utf8Len l := by simp [utf8Len]
    obtain ⟨n, hn⟩ : ∃ n, utf8Len (c :: l) = n + 1 := ⟨utf8Len (c :: l) - 1, by omega⟩
    rw [hn, List.cons_append, dropBytes, if_pos (by omega),
      show n + 1 - c.utf8Size = utf8Len l by omega, ih]

/-- The word a request picks, given the text on the two sides of the cursor. -/
def wordAt (left right : List Char) : List Char :=
  if right.head?.any isSplit = true then [] else (cut left).2

theorem request_spec (c : Cmpl) (i : Input) (h : i.Ok) :
    c.request i = some
      { c.reset with
        changeset := c.changeset + 1
        replace := wordAt i.abs.left i.abs.right
        insLen := (wordAt i.abs.left i.abs.right).length
        startPos := i.abs.left.length - (wordAt i.abs.left i.abs.right).length
        made := c.made + 1 } := by
  have ⟨h1, h2⟩ := ok_split i h
  have hb : i.bufPos = utf8Len i.abs.left := rfl
  have hcut := cut_append i.abs.left
  have hle : utf8Len (cut i.abs.left).1 ≤ utf8Len i.abs.left := by
    conv => rhs; rw [← hcut]
    rw [utf8Len_append]; omega
  have hws : wordStart i.buf i.bufPos =
      if i.abs.right.head?.any isSplit = true then utf8Len i.abs.left
      else utf8Len (cut i.abs.left).1 := by
    rw [wordStart, hb, h1, wordStartLoop_left _ _ _ _ _ (by omega)]
    rw [Nat.zero_add, wordStartLoop_right _ _ _ (by split <;> omega)]
    split
    · rfl
    · split
      · rename_i h; simp [h, utf8Len]
      · omega
  have hsl : sliceBytes i.buf (wordStart i.buf i.bufPos) i.bufPos
      = some (wordAt i.abs.left i.abs.right) := by
    rw [sliceBytes, hws, if_pos (by split <;> omega), hb, h1, takeBytes_left, Option.bind_some]
    unfold wordAt
    split
    · have := dropBytes_left i.abs.left []
      rw [List.append_nil] at this
      exact this
    · have := dropBytes_left (cut i.abs.left).1 (cut i.abs.left).2
      rw [hcut] at this
      exact this
  have h' : i.pos ≤ i.buf.length := h
  rw [Cmpl.request, if_pos h', hsl, Option.map_some, h2]

/-! ### Choosing completions -/

theorem moveTo_spec (w : Char → Bool) (i : Input) (h : i.Ok) (pre rest : List Char)
    (hb : i.buf = pre ++ rest) :
    ∃ j, i.moveStart.moveRight w (.ch pre.length) = some j ∧ j.Ok ∧ j.abs = ⟨pre, rest⟩ := by
  have h0 : i.moveStart.Ok := by simp [Input.moveStart, Input.Ok]
  obtain ⟨j, h1, h2, h3⟩ := op_spec w i.moveStart h0 (.moveRight (.ch pre.length))
  refine ⟨j, h1, h2, ?_⟩
  rw [h3]
  simp [Cursor.op, Cursor.span, Input.abs, Input.moveStart, hb]

theorem deleteN_spec (n : Nat) : ∀ (i : Input), i.Ok →
    ∃ j, deleteN i n = some j ∧ j.Ok ∧ j.abs = ⟨i.abs.left, i.abs.right.drop n⟩ := by
  induction n with
  | zero => intro i h; exact ⟨i, rfl, h, by simp⟩
  | succ n ih =>
    intro i h
    obtain ⟨j, h1, h2, h3⟩ := op_spec (fun _ => false) i h .delete
    obtain ⟨k, h4, h5, h6⟩ := ih j h2
    have h1' : i.delete = some j := h1
    refine ⟨k, by simp [deleteN, h1', h4], h5, ?_⟩
    rw [h6, h3]
    simp [Cursor.op, List.drop_tail]

/-- The line is `pre`, the chosen text, `suf`, with the cursor after the chosen text. -/
structure Sel (pre word suf : List Char) (x : Tab) : Prop where
  ok : x.input.Ok
  text : x.input.abs = ⟨pre ++ x.cmpl.with_, suf⟩
  start : x.cmpl.startPos = pre.length
  len : x.cmpl.insLen = x.cmpl.with_.length
  word : x.cmpl.replace = word

theorem sel_mv (w : Char → Bool) {pre word suf : List Char} {x : Tab} (h : Sel pre word suf x)
    (next : Bool) :
    ∃ y, x.mvCmpl w next = some (y, .redraw) ∧ Sel pre word suf y ∧
      y.cmpl = { (if next then x.cmpl.next else x.cmpl.prev) with
        insLen := (if next then x.cmpl.next else x.cmpl.prev).with_.length } := by
  have ⟨hb, _⟩ := ok_split x.input h.ok
  rw [h.text] at hb
  simp only [List.append_assoc] at hb
  obtain ⟨j, h1, h2, h3⟩ := moveTo_spec w x.input h.ok pre _ hb
  obtain ⟨k, h4, h5, h6⟩ := deleteN_spec x.cmpl.insLen j h2
  rw [h3] at h6
  simp only [h.len, List.drop_left] at h6
  have hlen : (if next then x.cmpl.next else x.cmpl.prev).insLen = x.cmpl.insLen := by
    cases next <;> rfl
  have hrep : (if next then x.cmpl.next else x.cmpl.prev).replace = x.cmpl.replace := by
    cases next <;> rfl
  have hst : (if next then x.cmpl.next else x.cmpl.prev).startPos = x.cmpl.startPos := by
    cases next <;> rfl
  obtain ⟨m, h7, h8, h9⟩ :=
    insertStr_spec (if next then x.cmpl.next else x.cmpl.prev).with_ k h5
  rw [h6] at h9
  refine ⟨⟨m, x.outputs, _, x.history⟩, ?_, ?_, rfl⟩
  · unfold Tab.mvCmpl
    simp only [Cmpl.replaceWith, h.start, h1, Option.bind_some, hlen, h4, h7, Option.map_some]
  · exact ⟨h8, h9, by simpa [hst] using h.start, rfl, by simpa [hrep] using h.word⟩

/-! ### Replies -/

/-- Everything shown or waiting carries the number of the request it answers. -/
structure CInv (c : Cmpl) : Prop where
  cs : c.changeset = BitVec.ofNat 128 c.made
  items : ∀ it ∈ c.items, it.req = c.made
  inbox : ∀ p ∈ c.inbox, ∃ r, r ≤ c.made ∧ p.changeset = BitVec.ofNat 128 r ∧
    ∀ it ∈ p.items, it.req = r

theorem cinv_new : CInv .new := ⟨by decide, by simp [Cmpl.new], by simp [Cmpl.new]⟩

theorem cinv_reset {c : Cmpl} (h : CInv c) : CInv c.reset :=
  ⟨h.cs, by simp [Cmpl.reset], h.inbox⟩

theorem cinv_request {c d : Cmpl} (i : Input) (h : CInv c) (hr : c.request i = some d) :
    CInv d ∧ d.made = c.made + 1 := by
  unfold Cmpl.request at hr
  split at hr
  · simp only [Option.map_eq_some_iff] at hr
    obtain ⟨word, _, rfl⟩ := hr
    refine ⟨⟨?_, by simp [Cmpl.reset], ?_⟩, rfl⟩
    · simp only [Cmpl.reset, h.cs]
      apply BitVec.eq_of_toNat_eq
      simp [BitVec.toNat_add]
    · intro p hp
      obtain ⟨r, h1, h2⟩ := h.inbox p hp
      exact ⟨r, Nat.le_succ_of_le h1, h2⟩
  · cases hr

theorem cinv_recv {c : Cmpl} (h : CInv c) (hm : c.made < 2 ^ 128) : CInv c.recv := by
  refine ⟨h.cs, ?_, by simp [Cmpl.recv]⟩
  intro it hit
  simp only [Cmpl.recv, List.mem_append, List.mem_flatten, List.mem_map, List.mem_filter,
    beq_iff_eq] at hit
  rcases hit with hit | ⟨l, ⟨p, ⟨hp, hcs⟩, rfl⟩, hit⟩
  · exact h.items it hit
  · obtain ⟨r, h1, h2, h3⟩ := h.inbox p hp
    rw [h3 it hit]
    rw [h2, h.cs] at hcs
    have := congrArg BitVec.toNat hcs
    simp only [BitVec.toNat_ofNat] at this
    rw [Nat.mod_eq_of_lt (by omega), Nat.mod_eq_of_lt hm] at this
    exact this

theorem cinv_reply {c : Cmpl} (h : CInv c) (r : Nat) (hr : r ≤ c.made) (vs : List (List Char)) :
    CInv (c.reply r vs) := by
  unfold Cmpl.reply
  simp only
  split
  · exact h
  · refine ⟨h.cs, h.items, ?_⟩
    intro p hp
    simp only [List.mem_append, List.mem_singleton] at hp
    rcases hp with hp | rfl
    · exact h.inbox p hp
    · refine ⟨r, hr, rfl, ?_⟩
      intro it hit
      simp only [List.mem_map] at hit
      obtain ⟨v, _, rfl⟩ := hit
      rfl

theorem cinv_next {c : Cmpl} (h : CInv c) (n : Nat) : CInv { c.next with insLen := n } :=
  ⟨h.cs, h.items, h.inbox⟩

theorem cinv_prev {c : Cmpl} (h : CInv c) (n : Nat) : CInv { c.prev with insLen := n } :=
  ⟨h.cs, h.items, h.inbox⟩

end Verif.Shell
