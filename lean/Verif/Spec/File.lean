import Verif.Model.File
/-! What the outline of a source file is, independently of how it is found. -/
namespace Verif.File

/-- The lines of a text that starts at position `o`: each line is followed by `\n` or `\r\n`, except
that the last line may just end. -/
inductive Tiled : Nat → List Char → List Sl → Prop
  | nil (o : Nat) : Tiled o [] []
  | last (o : Nat) (l : List Char) : '\n' ∉ l → l ≠ [] → Tiled o l [⟨o, l⟩]
  | lf (o : Nat) (l rest : List Char) (ls : List Sl) : '\n' ∉ l → l.getLast? ≠ some '\r' →
      Tiled (o + l.length + 1) rest ls → Tiled o (l ++ '\n' :: rest) (⟨o, l⟩ :: ls)
  | crlf (o : Nat) (l rest : List Char) (ls : List Sl) : '\n' ∉ l →
      Tiled (o + l.length + 2) rest ls → Tiled o (l ++ '\r' :: '\n' :: rest) (⟨o, l⟩ :: ls)

/-- A blank line has only whitespace. -/
def Blank (l : Sl) : Prop := ∀ c ∈ l.str, isWs c = true

/-- A comment line: its first character that is not whitespace is `#`. -/
def Comment (l : Sl) : Prop :=
  ∃ w r, l.str = w ++ '#' :: r ∧ ∀ c ∈ w, isWs c = true

/-- The blocks of a list of lines: maximal groups of lines that are not blank. -/
inductive Blocks : List Sl → List (List Sl) → Prop
  | done (bs : List Sl) : (∀ b ∈ bs, Blank b) → Blocks bs []
  | block (bs r rest : List Sl) (rs : List (List Sl)) : (∀ b ∈ bs, Blank b) → r ≠ [] →
      (∀ l ∈ r, ¬ Blank l) → (∀ l, rest.head? = some l → Blank l) → Blocks rest rs →
      Blocks (bs ++ r ++ rest) (r :: rs)

/-- The characters of `text` from position `a` up to position `b`. -/
def between (text : List Char) (a b : Nat) : List Char := (text.drop a).take (b - a)

/-- The line number of a position: one for the first line, one more after each newline. -/
def lineOf (text : List Char) (pos : Nat) : Nat := (text.take pos).count '\n' + 1

/-- What the item of a block is: the block is comment lines `cs` followed by lines `q` of which the
first is not a comment. The code runs from the start of `q` to the end of the block, trimmed; its line
number is that of the first line of `q`. A block of comments only has empty code, at the line of its
last comment. -/
def ItemOf (text : List Char) (block : List Sl) (code : List Char) (line : Nat) : Prop :=
  ∃ cs q, block = cs ++ q ∧ (∀ c ∈ cs, Comment c) ∧
    match q with
    | [] => code = [] ∧ ∃ c, cs.getLast? = some c ∧ line = lineOf text c.off
    | l :: ls => ¬ Comment l ∧
        (∃ e, (l :: ls).getLast? = some e ∧ code = trim (between text l.off (e.off + e.str.length))) ∧
        line = lineOf text l.off

/-- The text of a comment line: what follows the `#`, trimmed. -/
def commentText (l : Sl) : List Char := trim ((trimStart l.str).drop 1)

/-- The documentation written directly above a block's code: its leading comment lines, joined by
newlines. -/
def DocOf (block : List Sl) (doc : List Char) : Prop :=
  ∃ cs q, block = cs ++ q ∧ (∀ c ∈ cs, Comment c) ∧ (∀ l, q.head? = some l → ¬ Comment l) ∧
    doc = List.intercalate ['\n'] (cs.map commentText)

/-- Two lists of the same length related element by element. -/
inductive Each {α β : Type} (R : α → β → Prop) : List α → List β → Prop
  | nil : Each R [] []
  | cons {a : α} {b : β} {as : List α} {bs : List β} : R a b → Each R as bs → Each R (a :: as) (b :: bs)

/-! ### Directives -/

/-- Items separated by separators, after the first item. -/
inductive Tail {α : Type} (S : List Char → Prop) (R : List Char → α → Prop) : List Char → List α → Prop
  | nil : Tail S R [] []
  | cons {w s t : List Char} {a : α} {as : List α} : S w → R s a → Tail S R t as →
      Tail S R (w ++ s ++ t) (a :: as)

/-- One or more items separated by separators. -/
def SepBy {α : Type} (S : List Char → Prop) (R : List Char → α → Prop) (t : List Char) (xs : List α) :
    Prop :=
  ∃ s a t' as, t = s ++ t' ∧ xs = a :: as ∧ R s a ∧ Tail S R t' as

/-- Spaces or tabs. -/
def Spaces (w : List Char) : Prop := ∀ c ∈ w, c = ' ' ∨ c = '\t'

/-- One or more spaces or tabs. -/
def Spaces1 (w : List Char) : Prop := w ≠ [] ∧ Spaces w

/-- A glob: no whitespace, no closing parenthesis. -/
def GlobText (g : List Char) : Prop := g ≠ [] ∧ ∀ c ∈ g, isWs c = false ∧ c ≠ ')'

/-- A component of an import path as written. -/
def CompText (g : List Char) : Prop := GlobText g ∧ '/' ∉ g

/-- What a written path component stands for: `..` for itself, otherwise the identifier it starts
with; anything after that identifier is ignored. -/
def Component (k : Classes) (s x : List Char) : Prop :=
  (s = ['.', '.'] ∧ x = s) ∨
  (s ≠ ['.', '.'] ∧ ∃ z, s = x ++ z ∧ (∃ c cs, x = c :: cs ∧ k.alpha c = true) ∧
    (∀ c ∈ x, k.ident c = true) ∧ ∀ c, z.head? = some c → k.ident c = false)

/-- An import as written: an optional `/` or `//`, then components separated by `/`; the last one is
the glob. -/
def ImportText (k : Classes) (s : List Char) (i : Import) : Prop :=
  ∃ pre t comps, s = pre ++ t ∧ (pre = ['/', '/'] ∧ i.prefix_ = .plugins ∨ pre = ['/'] ∧ i.prefix_ = .root ∨
      pre = [] ∧ i.prefix_ = .none) ∧
    SepBy (· = ['/']) (fun s a => s = a ∧ CompText s) t (comps ++ [i.glob]) ∧
    Each (Component k) comps i.path

/-- A directive as written, with leading spaces. -/
def DirectiveText (k : Classes) (s : List Char) : Directive → Prop
  | .noParallelise => ∃ w, Spaces w ∧ s = w ++ "no-parallelise".toList
  | .failFast => ∃ w, Spaces w ∧ s = w ++ "fail-fast".toList
  | .import_ is => ∃ w t w', Spaces w ∧ Spaces w' ∧ s = w ++ "import(".toList ++ t ++ w' ++ [')'] ∧
      SepBy Spaces1 (fun s i => ∃ w t, Spaces w ∧ s = w ++ t ∧ ImportText k t i) t is
  | .export_ gs => ∃ w t w', Spaces w ∧ Spaces w' ∧ s = w ++ "export(".toList ++ t ++ w' ++ [')'] ∧
      SepBy Spaces1 (fun s g => ∃ w, Spaces w ∧ s = w ++ g ∧ GlobText g) t gs

/-- A line of directives: whitespace, then a bracketed list on one line, then a line ending. -/
def DirectiveLine (k : Classes) (s : List Char) (ds : List Directive) : Prop :=
  ∃ w t w' e, (∀ c ∈ w, isWs c = true) ∧ Spaces w' ∧ (e = ['\n'] ∨ e = ['\r', '\n']) ∧
    s = w ++ ['['] ++ t ++ w' ++ [']'] ++ e ∧ '\n' ∉ t ∧ SepBy Spaces1 (DirectiveText k) t ds

/-- Any number of lines of directives. -/
inductive DirectiveLines (k : Classes) : List Char → List Directive → Prop
  | nil : DirectiveLines k [] []
  | cons {s t : List Char} {ds es : List Directive} : DirectiveLine k s ds → DirectiveLines k t es →
      DirectiveLines k (s ++ t) (ds ++ es)

/-! ### Writing directives -/

def renderPrefix : Prefix → List Char
  | .none => []
  | .root => ['/']
  | .plugins => ['/', '/']

def renderImport (i : Import) : List Char :=
  renderPrefix i.prefix_ ++ List.intercalate ['/'] (i.path ++ [i.glob])

def renderDirective : Directive → List Char
  | .noParallelise => "no-parallelise".toList
  | .failFast => "fail-fast".toList
  | .import_ is => "import(".toList ++ List.intercalate [' '] (is.map renderImport) ++ [')']
  | .export_ gs => "export(".toList ++ List.intercalate [' '] gs ++ [')']

def renderLine (ds : List Directive) : List Char :=
  ['['] ++ List.intercalate [' '] (ds.map renderDirective) ++ [']', '\n']

/-- An import that can be written: path components are `..` or identifiers. -/
def Import.Wf (k : Classes) (i : Import) : Prop :=
  (∀ s ∈ i.path, s = ['.', '.'] ∨ (∃ c cs, s = c :: cs ∧ k.alpha c = true) ∧ ∀ c ∈ s, k.ident c = true) ∧
    CompText i.glob

/-- A directive that can be written. -/
def Directive.Wf (k : Classes) : Directive → Prop
  | .import_ is => is ≠ [] ∧ ∀ i ∈ is, i.Wf k
  | .export_ gs => gs ≠ [] ∧ ∀ g ∈ gs, GlobText g
  | _ => True

/-- Letters and digits are not whitespace, parentheses or slashes. -/
def Classes.Ok (k : Classes) : Prop :=
  ∀ c, k.alnum c = true → isWs c = false ∧ c ≠ ')' ∧ c ≠ '/'

/-- The parts of a file: blank space, all the comment lines that follow it, holding the documentation
`doc`, then directive lines, and the body with the items. -/
def Layout (k : Classes) (text doc : List Char) (ds : List Directive) (body : List Char) : Prop :=
  ∃ w c d ls q, text = w ++ c ++ d ++ body ∧ (∀ x ∈ w, isWs x = true) ∧
    Tiled w.length c ls ∧ (∀ l ∈ ls, Comment l) ∧ doc = List.intercalate ['\n'] (ls.map commentText) ∧
    Tiled w.length (c ++ d ++ body) (ls ++ q) ∧ (∀ l, q.head? = some l → ¬ Comment l) ∧
    DirectiveLines k d ds

end Verif.File
