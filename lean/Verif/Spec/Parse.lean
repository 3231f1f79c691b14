import Verif.Model.Parse
/-! How expressions and definitions are written in canonical form, and which ones can be written at all. -/
namespace Verif.Parse
open Verif.Nom Verif.File

/-- A quoted word: in double quotes, or in single quotes if it contains double quotes. -/
def quote (s : Str) : Str := if '"' ∈ s then '\'' :: s ++ ['\''] else '"' :: s ++ ['"']

/-- A word: quoted, or bare if it contains both kinds of quotes. -/
def writeWord (s : Str) : Str := if '"' ∈ s ∧ '\'' ∈ s then s else quote s

/-- A type after a colon, if there is one. -/
def writeTy : Option Str → Str
  | none => []
  | some t => ':' :: t

/-- Joins texts with a separator between them. -/
def join (sep : Str) : List Str → Str
  | [] => []
  | [s] => s
  | s :: ss => s ++ sep ++ join sep ss

def writeOp : Op → Str
  | .single t => t
  | .path rooted cs => (if rooted then ['/'] else []) ++ join ['/'] cs

mutual
/-- Blocks are separated by ` | `. -/
def writeBs : List Blk → Str
  | [] => []
  | [b] => writeB b
  | b :: bs => writeB b ++ [' ', '|', ' '] ++ writeBs bs
/-- `:In op:Out term term …`. -/
def writeB : Blk → Str
  | .mk inTy o outTy ts =>
    (match inTy with
      | none => []
      | some t => ':' :: t ++ [' ']) ++ writeOp o ++ writeTy outTy ++ writeTs ts
/-- Each term is preceded by a space. -/
def writeTs : List Term → Str
  | [] => []
  | t :: ts => ' ' :: writeT t ++ writeTs ts
def writeT : Term → Str
  | .flag s => '-' :: '-' :: writeWord s
  | .arg a => writeA a
/-- Nested expressions are in braces. -/
def writeA : Arg → Str
  | .ident s => writeWord s
  | .num s => s
  | .pound c => ['#', c]
  | .var s => '$' :: s
  | .expr e => '{' :: ' ' :: writeE e
  | .dot lhs rhs out => writeA lhs ++ '.' :: quote rhs ++ writeTy out
/-- The inside of braces, with the closing one and the type after it. -/
def writeE : Expr → Str
  | .mk bs out => writeBs bs ++ ' ' :: '}' :: writeTy out
end

/-- A whole expression. -/
def write : Expr → Str
  | .mk bs _ => writeBs bs

/-- A name: a letter, then letters, digits, `-` and `_`. -/
def IsName (k : Classes) (s : Str) : Prop :=
  (∃ c cs, s = c :: cs ∧ k.alpha c = true) ∧ ∀ c ∈ s, k.ident c = true

/-- Names joined with `::`. -/
def IsOpName (k : Classes) (s : Str) : Prop :=
  ∃ ss : List Str, ss ≠ [] ∧ (∀ n ∈ ss, IsName k n) ∧ s = join [':', ':'] ss

/-- A symbol, a name, or at least two names in a path which does not start at the root: a leading `/` is
the division symbol. -/
def IsOp (k : Classes) : Op → Prop
  | .single t => t ∈ specOps ∨ IsOpName k t
  | .path rooted cs => rooted = false ∧ 2 ≤ cs.length ∧ ∀ c ∈ cs, IsOpName k c

def IsTy (k : Classes) : Option Str → Prop
  | none => True
  | some t => IsName k t

/-- The text of a number: without break characters, and not starting like another kind of argument. -/
def IsNum (k : Env) (s : Str) : Prop :=
  k.isNum s = true ∧ s ≠ [] ∧ (∀ c ∈ s, breakon c = false) ∧ s.head? ≠ some '$' ∧ s.head? ≠ some '#' ∧
    ¬ ['-', '-'] <+: s

/-- One kind of quote is free to write the word with. -/
def Quotable (s : Str) : Prop := ¬ ('"' ∈ s ∧ '\'' ∈ s)

/-- A word which can be written bare: no break characters, and not starting with a quote. -/
def IsBare (s : Str) : Prop :=
  s ≠ [] ∧ (∀ c ∈ s, breakon c = false) ∧ s.head? ≠ some '"' ∧ s.head? ≠ some '\''

/-- A word of a flag: one kind of quote is free, or it can be written bare. -/
def IsWord (s : Str) : Prop := Quotable s ∨ IsBare s

/-- A word as an argument: if it has to be written bare, it is nothing else, neither a variable, special
literal, flag, number, nor starting with a defined command. -/
def IsArgWord (k : Env) (s : Str) : Prop :=
  Quotable s ∨ (IsBare s ∧ s.head? ≠ some '$' ∧ s.head? ≠ some '#' ∧ ¬ ['-', '-'] <+: s ∧
    k.isNum s = false ∧ knownOp k s = false)

mutual
/-- The names, operators, types, numbers and words are ones. -/
def GoodE (k : Env) : Expr → Prop
  | .mk bs out => bs ≠ [] ∧ GoodBs k bs ∧ IsTy k.cls out
def GoodBs (k : Env) : List Blk → Prop
  | [] => True
  | b :: bs => GoodB k b ∧ GoodBs k bs
def GoodB (k : Env) : Blk → Prop
  | .mk inTy o outTy ts => IsTy k.cls inTy ∧ IsOp k.cls o ∧ IsTy k.cls outTy ∧ GoodTs k ts
def GoodTs (k : Env) : List Term → Prop
  | [] => True
  | t :: ts => GoodT k t ∧ GoodTs k ts
def GoodT (k : Env) : Term → Prop
  | .flag s => IsWord s
  | .arg a => GoodA k a
/-- A dot cannot follow a number or a bare word: it would be read as part of it. -/
def GoodA (k : Env) : Arg → Prop
  | .ident s => IsArgWord k s
  | .num s => IsNum k s
  | .pound c => k.cls.alpha c = true ∧ c.utf8Size = 1
  | .var s => IsName k.cls s
  | .expr e => GoodE k e
  | .dot lhs rhs out =>
    GoodA k lhs ∧ (∀ s, lhs ≠ .num s) ∧ (∀ s, lhs = .ident s → Quotable s) ∧ Quotable rhs ∧ IsTy k.cls out
end

/-- The input type of a definition, if there is one. -/
def writeIn : Option Str → Str
  | none => []
  | some t => t ++ [' ']

def writeParam (p : Param) : Str := p.name ++ writeTy p.ty

/-- `def name Type (param param:Type …) { body }`. -/
def writeDef (d : DefImpl) : Str :=
  ['d', 'e', 'f', ' '] ++ d.name ++ ' ' ::
    (writeIn d.inTy ++ '(' :: (join [' '] (d.params.map writeParam) ++ ')' :: ' ' :: '{' :: ' ' :: writeE d.body))

/-- `name:Type` or `name:Type<Type Type …>`. -/
def writeField (f : Field) : Str :=
  f.name ++ ':' :: f.ty ++ if f.params = [] then [] else '<' :: join [' '] f.params ++ ['>']

def writeFields (fs : List Field) : Str := '{' :: join [' '] (fs.map writeField) ++ ['}']

def writeVariant (v : Str × Option (List Field)) : Str :=
  v.1 ++ match v.2 with
    | none => []
    | some fs => ' ' :: writeFields fs

/-- `def-ty Name {field field …}` or `def-ty Name :: Variant | Variant …`. -/
def writeDefTy (d : DefTy) : Str :=
  ['d', 'e', 'f', '-', 't', 'y', ' '] ++ d.name ++ ' ' ::
    (match d.body with
    | .product fs => writeFields fs
    | .sum vs => ':' :: ':' :: ' ' :: join [' ', '|', ' '] (vs.map writeVariant))

/-- The name is one of a command, parameters have different names, and the body is an expression without a
type after it. -/
def GoodDef (k : Env) (d : DefImpl) : Prop :=
  IsOp k.cls (.single d.name) ∧ IsTy k.cls d.inTy ∧ (∀ p ∈ d.params, IsName k.cls p.name ∧ IsTy k.cls p.ty) ∧
    (d.params.map (·.name)).Nodup ∧ GoodE k d.body ∧ d.body = d.body.setOut none

def GoodField (k : Env) (f : Field) : Prop :=
  IsName k.cls f.name ∧ IsName k.cls f.ty ∧ ∀ p ∈ f.params, IsName k.cls p

def GoodVariant (k : Env) (v : Str × Option (List Field)) : Prop :=
  IsName k.cls v.1 ∧ ∀ fs, v.2 = some fs → ∀ f ∈ fs, GoodField k f

def GoodDefTy (k : Env) (d : DefTy) : Prop :=
  IsName k.cls d.name ∧
    match d.body with
    | .product fs => ∀ f ∈ fs, GoodField k f
    | .sum vs => ∀ v ∈ vs, GoodVariant k v

/-- What the user enters: a definition, or an expression after a space, which keeps it from being taken for a
definition. -/
def writeInput : Parsed → Str
  | .impl d => writeDef d
  | .ty d => writeDefTy d
  | .expr e => ' ' :: write e

/-- What is used about the Unicode classes and `Number::from_str`: letters count as letters or digits, the
punctuation and white space which the grammar uses is neither, and no number starts with a quote. -/
structure Laws (k : Env) : Prop where
  alnum : ∀ c, k.cls.alpha c = true → k.cls.alnum c = true
  punct : ∀ c ∈ [' ', '\t', '\r', '\n', '"', '\'', '.', ':', '/', '{', '}', '|', '(', ')', '<', '>', '$', '#',
    '\\', '+', '*', '×', '÷', '=', '!', '-', '_'], k.cls.alnum c = false
  num : ∀ q s, (q = '"' ∨ q = '\'') → k.isNum (q :: s) = false

end Verif.Parse
