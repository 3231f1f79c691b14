/-! Model of the interactive shell's state machines: the input line (`ogma-shell/interface/input.rs`),
the history (`history.rs`), the completions (`completions.rs`), the outputs (`outputs.rs`) and the
event loop over tabs (`mod.rs`). `Option`'s `none` stands for a panic throughout. -/
namespace Verif.Shell

/-! ### Input line -/

/-- `input.rs:2-5` `Mvmt`. -/
inductive Mvmt
  | ch (n : Nat)
  | word
deriving DecidableEq, Repr

/-- `input.rs:7-11` `InputBuffer`; the `buf_changed` flag only drives redrawing and is left out. -/
structure Input where
  buf : List Char
  pos : Nat
deriving DecidableEq, Repr

/-- `input.rs:14-20`. -/
def Input.new : Input := ⟨[], 0⟩

/-- `input.rs:22-26`. -/
def Input.clear (_ : Input) : Input := ⟨[], 0⟩

/-- `input.rs:52-56`; `Vec::insert` panics when the index is past the end. -/
def Input.insert (i : Input) (c : Char) : Option Input :=
  if i.pos ≤ i.buf.length then some ⟨i.buf.take i.pos ++ c :: i.buf.drop i.pos, i.pos + 1⟩ else none

/-- `input.rs:58-62`. -/
def Input.insertStr (i : Input) : List Char → Option Input
  | [] => some i
  | c :: cs => (i.insert c).bind fun i => i.insertStr cs

/-- `Vec::remove`, which panics when the index is not below the length. -/
def removeAt (l : List Char) (k : Nat) : Option (List Char) :=
  if k < l.length then some (l.take k ++ l.drop (k + 1)) else none

/-- `input.rs:65-71`. -/
def Input.backspace (i : Input) : Option Input :=
  if 0 < i.pos then (removeAt i.buf (i.pos - 1)).map fun b => ⟨b, i.pos - 1⟩ else some i

/-- `input.rs:74-79`. -/
def Input.delete (i : Input) : Option Input :=
  if i.pos < i.buf.length then (removeAt i.buf i.pos).map fun b => ⟨b, i.pos⟩ else some i

/-- `input.rs:81-83`. -/
def Input.moveStart (i : Input) : Input := { i with pos := 0 }

/-- `input.rs:107-116`: the `take_while` with its `seen` flag. `w` is
`c.is_alphanumeric() || "-_".contains(c)`. -/
def wordCount (w : Char → Bool) : Bool → List Char → Nat
  | _, [] => 0
  | seen, c :: cs =>
    let b := w c
    let seen := seen || b
    if seen == b then wordCount w seen cs + 1 else 0

/-- `input.rs:104-118` `mv_magnitude`. -/
def mvMagnitude (w : Char → Bool) (by_ : Mvmt) (cs : List Char) : Nat :=
  match by_ with
  | .ch x => x
  | .word => wordCount w false cs

/-- `input.rs:85-88`; slicing `buf[..pos]` panics when `pos` is past the end. -/
def Input.moveLeft (w : Char → Bool) (i : Input) (m : Mvmt) : Option Input :=
  if i.pos ≤ i.buf.length then
    some { i with pos := i.pos - mvMagnitude w m (i.buf.take i.pos).reverse }
  else none

/-- `input.rs:90-93`; slicing `buf[pos..]` panics when `pos` is past the end. -/
def Input.moveRight (w : Char → Bool) (i : Input) (m : Mvmt) : Option Input :=
  if i.pos ≤ i.buf.length then
    some { i with pos := min (i.pos + mvMagnitude w m (i.buf.drop i.pos)) i.buf.length }
  else none

/-- The number of UTF-8 bytes of a character sequence (`String::len`). -/
def utf8Len (cs : List Char) : Nat := (cs.map Char.utf8Size).sum

/-- `input.rs:43-45` `buf_pos`. -/
def Input.bufPos (i : Input) : Nat := utf8Len (i.buf.take i.pos)

/-- The operations of the input line. -/
inductive EditOp
  | clear
  | insert (c : Char)
  | insertStr (s : List Char)
  | backspace
  | delete
  | moveStart
  | moveLeft (m : Mvmt)
  | moveRight (m : Mvmt)
deriving DecidableEq, Repr

def Input.op (w : Char → Bool) (i : Input) : EditOp → Option Input
  | .clear => some i.clear
  | .insert c => i.insert c
  | .insertStr s => i.insertStr s
  | .backspace => i.backspace
  | .delete => i.delete
  | .moveStart => some i.moveStart
  | .moveLeft m => i.moveLeft w m
  | .moveRight m => i.moveRight w m

def Input.ops (w : Char → Bool) (i : Input) : List EditOp → Option Input
  | [] => some i
  | o :: os => (i.op w o).bind fun i => i.ops w os

/-! ### History -/

/-- `history.rs:1`. -/
def histLim : Nat := 100

/-- `history.rs:3-6`. -/
structure History where
  items : List (List Char)
  idx : Option Nat
deriving DecidableEq, Repr

/-- `history.rs:9-14`. -/
def History.new : History := ⟨[], none⟩

/-- `history.rs:16-18`. -/
def History.current (h : History) : Option (List Char) := h.idx.bind fun i => h.items[i]?

/-- `history.rs:20-26`. -/
def History.back (h : History) : History :=
  { h with idx := match h.idx with
    | some 0 => none
    | some x => some (x - 1)
    | none => some (h.items.length - 1) }

/-- `history.rs:28-37`. -/
def History.fwd (h : History) : History :=
  { h with idx :=
    if h.idx = some (h.items.length - 1) then none
    else match h.idx with
      | some x => some (x + 1)
      | none => some 0 }

/-- `history.rs:41-43`: the loop that drops the oldest lines. -/
def dropOld : List (List Char) → List (List Char)
  | [] => []
  | x :: xs => if (x :: xs).length ≥ histLim then dropOld xs else x :: xs

/-- `history.rs:40-46`. -/
def History.add (h : History) (line : List Char) : History := ⟨dropOld h.items ++ [line], none⟩

inductive HistOp
  | add (line : List Char)
  | back
  | fwd
deriving DecidableEq, Repr

def History.op (h : History) : HistOp → History
  | .add l => h.add l
  | .back => h.back
  | .fwd => h.fwd

/-! ### Completions -/

/-- `completions.rs:165-168` `Completion` (the tag is only drawn); `req` is a ghost field naming the
request whose engine call produced the item. -/
structure Item where
  value : List Char
  req : Nat
deriving DecidableEq, Repr

/-- `completions.rs:160-163` `Package`: a reply, carrying the change set of the request it answers. -/
structure Package where
  changeset : BitVec 128
  items : List Item
deriving DecidableEq, Repr

/-- `completions.rs:11-25` `Completions`. `inbox` is the content of the reply channel; `made` is a
ghost counter of the requests made. -/
structure Cmpl where
  changeset : BitVec 128
  inbox : List Package
  items : List Item
  highlighted : Option Nat
  replace : List Char
  startPos : Nat
  insLen : Nat
  made : Nat
deriving DecidableEq, Repr

/-- `completions.rs:28-44`. -/
def Cmpl.new : Cmpl := ⟨0, [], [], none, [], 0, 0, 0⟩

/-- `completions.rs:80-83` `reset`. -/
def Cmpl.reset (c : Cmpl) : Cmpl := { c with items := [], highlighted := none }

/-- `completions.rs:138` `spliton`. -/
def isSplit (c : Char) : Bool := c ∈ [' ', '\t', '\r', '\n', '.', '/', '\\']

/-- `completions.rs:140-148`: the loop of `word_start`, over the remaining characters with their
byte index. -/
def wordStartLoop (before : Nat) : List Char → Nat → Nat → Nat
  | [], _, pos => pos
  | ch :: cs, idx, pos =>
    if idx > before then pos
    else wordStartLoop before cs (idx + ch.utf8Size) (if isSplit ch then idx + ch.utf8Size else pos)

/-- `completions.rs:137-151` `word_start`. -/
def wordStart (s : List Char) (before : Nat) : Nat := min (wordStartLoop before s 0 0) before

/-- Dropping `n` bytes from the front of a string: `&s[n..]`; panics off a character boundary. -/
def dropBytes : List Char → Nat → Option (List Char)
  | cs, 0 => some cs
  | [], _ + 1 => none
  | c :: cs, n + 1 => if c.utf8Size ≤ n + 1 then dropBytes cs (n + 1 - c.utf8Size) else none

/-- Keeping the first `n` bytes of a string: `&s[..n]`; panics off a character boundary. -/
def takeBytes : List Char → Nat → Option (List Char)
  | _, 0 => some []
  | [], _ + 1 => none
  | c :: cs, n + 1 =>
    if c.utf8Size ≤ n + 1 then (takeBytes cs (n + 1 - c.utf8Size)).map (c :: ·) else none

/-- `&s[a..b]`. -/
def sliceBytes (s : List Char) (a b : Nat) : Option (List Char) :=
  if a ≤ b then (takeBytes s b).bind fun p => dropBytes p a else none

/-- `completions.rs:46-65` `request`. Sending the request is the ghost increment of `made`. -/
def Cmpl.request (c : Cmpl) (i : Input) : Option Cmpl :=
  if i.pos ≤ i.buf.length then
    (sliceBytes i.buf (wordStart i.buf i.bufPos) i.bufPos).map fun word =>
      { c.reset with
        changeset := c.changeset + 1
        replace := word
        insLen := word.length
        startPos := i.pos - word.length
        made := c.made + 1 }
  else none

/-- `completions.rs:68-78` `recv`: every waiting reply is taken out of the channel, those for the
current change set are shown. -/
def Cmpl.recv (c : Cmpl) : Cmpl :=
  { c with
    inbox := []
    items := c.items ++ ((c.inbox.filter (·.changeset == c.changeset)).map (·.items)).flatten }

/-- `completions.rs:85-87` `has`. -/
def Cmpl.has (c : Cmpl) : Bool := !c.items.isEmpty

/-- `completions.rs:130-134` `cmpl`, or the text to put back (`completions.rs:125-126`). -/
def Cmpl.with_ (c : Cmpl) : List Char :=
  match c.highlighted.bind fun i => c.items[i]? with
  | some it => it.value
  | none => c.replace

/-- `completions.rs:123-128` `replace_with`: the length to remove, the text to insert, the new
state. -/
def Cmpl.replaceWith (c : Cmpl) : Nat × List Char × Cmpl :=
  (c.insLen, c.with_, { c with insLen := c.with_.length })

/-- `completions.rs:104-114` `highlight_next` without the final `replace_with`. -/
def Cmpl.next (c : Cmpl) : Cmpl :=
  { c with highlighted :=
    if c.highlighted = some (c.items.length - 1) then none
    else match c.highlighted with
      | some i => some (i + 1)
      | none => some 0 }

/-- `completions.rs:117-123` `highlight_prev` without the final `replace_with`. -/
def Cmpl.prev (c : Cmpl) : Cmpl :=
  { c with highlighted := match c.highlighted with
    | some 0 => none
    | some x => some (x - 1)
    | none => some (c.items.length - 1) }

/-- A reply to request number `r` reaches the reply channel (`completions.rs:222-229`: the request's
change set is copied, at most ten items, never an empty package). The change set of the `r`-th
request is `r` modulo `2^128` because `request` adds one each time, starting from zero. -/
def Cmpl.reply (c : Cmpl) (r : Nat) (values : List (List Char)) : Cmpl :=
  let items := (values.take 10).map fun v => ⟨v, r⟩
  if items.isEmpty then c else { c with inbox := c.inbox ++ [⟨BitVec.ofNat 128 r, items⟩] }

/-! ### Outputs -/

/-- `outputs.rs:6-17` `Outputs`; an output is its value and the height of its rendered text. -/
structure Outputs where
  items : List (List Char × Nat)
  limit : Nat
  scroll : Nat
deriving DecidableEq, Repr

/-- `outputs.rs:20-27`. -/
def Outputs.new (limit : Nat) : Outputs := ⟨[], limit, 0⟩

/-- `outputs.rs:38-47` `add`; `h` is the height of the rendered value. -/
def Outputs.add (o : Outputs) (v : List Char) (h : Nat) : Outputs :=
  let items := o.items ++ [(v, h)]
  { o with items := if items.length > o.limit then items.tail else items, scroll := 0 }

/-- `outputs.rs:49-56` `update_width`; `render` gives the new heights. -/
def Outputs.updateWidth (o : Outputs) (render : List Char → Nat) : Outputs :=
  { o with items := o.items.map fun p => (p.1, render p.1), scroll := 0 }

/-- `outputs.rs:58-60` `height`. -/
def Outputs.height (o : Outputs) : Nat := (o.items.map (·.2)).sum

/-- `outputs.rs:70-86` `scroll`; `as u16` keeps the low 16 bits, `saturating_add` is on `u16`. -/
def Outputs.scrollBy (o : Outputs) (lines : Int) : Outputs :=
  if lines = 0 then o
  else if lines > 0 then
    { o with scroll := min (min (o.scroll + lines.toNat) 65535) ((o.height - 1) % 65536) }
  else { o with scroll := o.scroll - (-lines).toNat }

/-! ### Tabs and events -/

/-- `mod.rs:92-102` `TabState`, without what is only drawn. -/
structure Tab where
  input : Input
  outputs : Outputs
  cmpl : Cmpl
  history : History
deriving DecidableEq, Repr

/-- `mod.rs:182-207` `init`; `mod.rs:30` `OUTPUTS_LIM`. -/
def Tab.new : Tab := ⟨.new, .new 100, .new, .new⟩

/-- `mod.rs:138-145` `TermState`, without what is only drawn. -/
structure Term where
  tabs : List Tab
  selected : Nat
  cmplsDrawn : Bool
deriving DecidableEq, Repr

/-- `mod.rs:222-229`. -/
def Term.init : Term := ⟨[.new], 0, false⟩

/-- The key codes `process_event` distinguishes (`crossterm`'s `KeyCode`). -/
inductive Key
  | char (c : Char)
  | enter | tab | esc | left | right | up | down | backspace | delete | pageUp | pageDown | other
deriving DecidableEq, Repr

/-- The modifier sets `process_event` distinguishes. -/
inductive Mods
  | none | shift | ctrl | alt | other
deriving DecidableEq, Repr

/-- `events.rs:10-13` `Event`. -/
inductive Event
  | key (k : Key) (m : Mods)
  | resize
deriving DecidableEq, Repr

/-- `mod.rs:82-89` `EventResult`, ordered by declaration. -/
inductive EvRes
  | none | redraw | inputChanged | eval | brk
deriving DecidableEq, Repr

def EvRes.rank : EvRes → Nat
  | .none => 0 | .redraw => 1 | .inputChanged => 2 | .eval => 3 | .brk => 4

def EvRes.max (a b : EvRes) : EvRes := if a.rank ≤ b.rank then b else a

/-- `mod.rs:156-158` `tab_state`: panics when no tab is selected. -/
def Term.tab (t : Term) : Option Tab := t.tabs[t.selected]?

def Term.setTab (t : Term) (x : Tab) : Term := { t with tabs := t.tabs.set t.selected x }

/-- `mod.rs:166-171` `switch_tab`. -/
def Term.switchTab (t : Term) : Term :=
  { t with selected := if t.selected + 1 ≥ t.tabs.length then 0 else t.selected + 1 }

/-- `mod.rs:160-164` `new_tab`. -/
def Term.newTab (t : Term) : Term :=
  { t with tabs := t.tabs ++ [.new], selected := (t.tabs ++ [Tab.new]).length - 1 }

/-- `mod.rs:173-178` `quit_tab`. -/
def Term.quitTab (t : Term) : Term :=
  (if t.selected < t.tabs.length then { t with tabs := t.tabs.eraseIdx t.selected } else t).switchTab

/-- `mod.rs:483-493` `mv_cursor`. -/
def Tab.mvCursor (w : Char → Bool) (x : Tab) (word left : Bool) : Option (Tab × EvRes) :=
  let m := if word then Mvmt.word else .ch 1
  (if left then x.input.moveLeft w m else x.input.moveRight w m).map fun i =>
    ({ x with input := i, cmpl := x.cmpl.reset }, .redraw)

/-- `mod.rs:833-846` `mv_history`. -/
def Tab.mvHistory (x : Tab) (back : Bool) : Option (Tab × EvRes) :=
  let h := if back then x.history.back else x.history.fwd
  (x.input.clear.insertStr (h.current.getD [])).map fun i =>
    ({ x with history := h, input := i, cmpl := x.cmpl.reset }, .redraw)

/-- `mod.rs:860-862`: the deletion loop. -/
def deleteN (i : Input) : Nat → Option Input
  | 0 => some i
  | n + 1 => i.delete.bind fun i => deleteN i n

/-- `mod.rs:848-866` `mv_completions`. -/
def Tab.mvCmpl (w : Char → Bool) (x : Tab) (next : Bool) : Option (Tab × EvRes) :=
  let start := x.cmpl.startPos
  let (len, with_, c) := (if next then x.cmpl.next else x.cmpl.prev).replaceWith
  ((x.input.moveStart.moveRight w (.ch start)).bind fun i =>
    (deleteN i len).bind fun i => i.insertStr with_).map fun i =>
      ({ x with input := i, cmpl := c }, .redraw)

/-- Apply a tab operation to the selected tab. -/
def Term.onTab (t : Term) (f : Tab → Option (Tab × EvRes)) : Option (Term × EvRes) :=
  t.tab.bind fun x => (f x).map fun (x, r) => (t.setTab x, r)

/-- `mod.rs:296-481` `process_event`. Scrolling and themes do not change the result, except that
scrolling goes through `tab_state`. -/
def processEvent (w : Char → Bool) (t : Term) (e : Event) : Option (Term × EvRes) :=
  t.tab.bind fun x =>
    let hasC := x.cmpl.has
    let scroll (n : Int) := some (t.setTab { x with outputs := x.outputs.scrollBy n }, EvRes.redraw)
    match e with
    | .key (.char 'h') .alt => some (t, .redraw)
    | .key (.char 'q') .alt =>
      let t := t.quitTab
      some (t, if t.tabs.length = 0 then .brk else .redraw)
    | .key (.char 't') .alt => some (t.newTab, .redraw)
    | .key .tab .none => some (t.switchTab, .redraw)
    | .key (.char 'm') .alt => some (t, .redraw)
    | .key .enter .none => some (t, .eval)
    | .key .up .shift => scroll (-5)
    | .key .down .shift => scroll 5
    | .key .pageUp .none => scroll (-25)
    | .key .pageDown .none => scroll 25
    | .key .down .none => t.onTab fun x => if hasC then x.mvCmpl w true else x.mvHistory false
    | .key .up .none => t.onTab fun x => if hasC then x.mvCmpl w false else x.mvHistory true
    | .key .esc .none =>
      if hasC then some (t.setTab { x with cmpl := x.cmpl.reset }, .redraw) else some (t, .none)
    | .key .left .none => t.onTab fun x => x.mvCursor w false true
    | .key .right .none => t.onTab fun x => x.mvCursor w false false
    | .key .left .ctrl => t.onTab fun x => x.mvCursor w true true
    | .key .right .ctrl => t.onTab fun x => x.mvCursor w true false
    | .key .backspace .none | .key .backspace .shift =>
      t.onTab fun x => x.input.backspace.map fun i => ({ x with input := i }, .inputChanged)
    | .key .delete .none =>
      t.onTab fun x => x.input.delete.map fun i => ({ x with input := i }, .inputChanged)
    | .key .enter .shift | .key .enter .alt =>
      t.onTab fun x => (x.input.insert '\n').map fun i => ({ x with input := i }, .inputChanged)
    | .key (.char c) .none | .key (.char c) .shift =>
      t.onTab fun x => (x.input.insert c).map fun i => ({ x with input := i }, .inputChanged)
    | .resize => some (t, .redraw)
    | _ => some (t, .none)

/-- `mod.rs:255-259`: process everything that is waiting, keeping the greatest result. -/
def processEvents (w : Char → Bool) (t : Term) : List Event → Option (Term × EvRes)
  | [] => some (t, .none)
  | e :: es => (processEvent w t e).bind fun (t, r) =>
      (processEvents w t es).map fun (t, r') => (t, r.max r')

/-- `mod.rs:669-739` `eval`, the effect on the tab. `out` is what the evaluator answers with
(`ConfigUpdate`): an output (with its height), and whether the completion engine is replaced. The
progress message typed into the line while waiting is cleared again and is left out. -/
def Tab.afterEval (x : Tab) (out : List Char → Option (List Char × Nat) × Bool) : Tab :=
  { input := x.input.clear
    cmpl := if (out x.input.buf).2 then .new else x.cmpl.reset
    history := x.history.add x.input.buf
    outputs := match (out x.input.buf).1 with
      | some (v, h) => x.outputs.add v h
      | none => x.outputs }

/-- `mod.rs:669-739` `eval`: the line handed to the evaluator, and the state afterwards. -/
def Term.eval (t : Term) (out : List Char → Option (List Char × Nat) × Bool) :
    Option (List Char × Term) :=
  t.tab.map fun x => (x.input.buf, t.setTab (x.afterEval out))

/-- What one turn of the loop did: left the program, evaluated a line, or neither. -/
inductive Cycle
  | quit
  | evaluated (line : List Char)
  | nothing
deriving DecidableEq, Repr

/-- `mod.rs:243-294` `events_cycle`. -/
def cycle (w : Char → Bool) (out : List Char → Option (List Char × Nat) × Bool) (t : Term)
    (es : List Event) : Option (Term × Cycle) :=
  (processEvents w t es).bind fun (t, r) =>
    match r with
    | .inputChanged =>
      t.tab.bind fun x => (x.cmpl.request x.input).map fun c =>
        (({ t with cmplsDrawn := false } : Term).setTab { x with cmpl := c }, .nothing)
    | .brk => some (t, .quit)
    | .eval => (t.eval out).map fun (l, t) => (t, .evaluated l)
    | .redraw => t.tab.map fun _ => (t, .nothing)
    | .none =>
      t.tab.map fun x =>
        if x.cmpl.has && !t.cmplsDrawn then ({ t with cmplsDrawn := true }, .nothing)
        else (t.setTab { x with cmpl := x.cmpl.recv }, .nothing)

/-- What can happen to the running shell: the loop turns with some events waiting, or a completion
thread delivers a reply to the request number `r` of tab `k` (`completions.rs:212-232`). -/
inductive Step
  | poll (es : List Event)
  | reply (k r : Nat) (vs : List (List Char))
deriving DecidableEq, Repr

/-- A reply reaching the channel of tab `k`; only requests that were made are answered. -/
def Term.reply (t : Term) (k r : Nat) (vs : List (List Char)) : Term :=
  match t.tabs[k]? with
  | some x => if r ≤ x.cmpl.made then
      { t with tabs := t.tabs.set k { x with cmpl := x.cmpl.reply r vs } } else t
  | none => t

/-- `mod.rs:236`: the loop, until it is left. The flag says that it was left. -/
def runShell (w : Char → Bool) (out : List Char → Option (List Char × Nat) × Bool) :
    Term → List Step → Option (Term × Bool)
  | t, [] => some (t, false)
  | t, .reply k r vs :: ss => runShell w out (t.reply k r vs) ss
  | t, .poll es :: ss =>
    (cycle w out t es).bind fun (t, c) =>
      match c with
      | .quit => some (t, true)
      | _ => runShell w out t ss

end Verif.Shell
