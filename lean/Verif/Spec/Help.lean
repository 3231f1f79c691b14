import Verif.Model.Help
import Verif.Spec.Tags
/-! What C82 says about help: which lines it consists of, and what a terminal shows of a coloured text. -/
namespace Verif.Help
open Verif

/-- What a terminal shows: escape sequences, from the escape character to the next `m`, are left out. -/
def plainGo : Bool → Text → Text
  | _, [] => []
  | false, c :: s => if c = '\x1b' then plainGo true s else c :: plainGo false s
  | true, c :: s => if c = 'm' then plainGo false s else plainGo true s

def plain (s : Text) : Text := plainGo false s

/-- The lines of a description. -/
def splitNl : Text → List Text
  | [] => [[]]
  | c :: s => if c = '\n' then [] :: splitNl s else match splitNl s with
    | [] => [[c]]
    | l :: ls => (c :: l) :: ls

/-- Groups of lines with an empty line between them. -/
def between : List (List Text) → List Text
  | [] => []
  | [x] => x
  | x :: xs => x ++ [] :: between xs

/-- How a parameter is shown. -/
def Param.shown : Param → Text
  | .required p => p
  | .optional p => ['['] ++ p ++ [']']
  | .custom p => p
  | .brk => []

/-- The lines of the usage, when this much of the first is there: each parameter after a separator, and a new line with the command at
every break. -/
def usageLines (cmd sep line : Text) : List Param → List Text
  | [] => [line]
  | .brk :: ps => line :: usageLines cmd sep ([' ', '=', '>', ' '] ++ cmd ++ sep) ps
  | p :: ps => usageLines cmd sep (line ++ sep ++ p.shown) ps

/-- The line of a flag. -/
def flagText (f : Text × Text) : Text := [' ', '-', '-'] ++ f.1 ++ [':', ' '] ++ f.2

/-- The lines of the flags. -/
def flagLines (fs : List (Text × Text)) : List Text := if fs = [] then [] else [] :: ['F', 'l', 'a', 'g', 's', ':'] :: fs.map flagText

/-- The lines of an example. -/
def exampleText (e : Text × Text) : List Text := [[' '] ++ e.1, [' ', '=', '>', ' '] ++ e.2]

/-- The lines of the examples. -/
def exampleLines (es : List (Text × Text)) : List Text := if es = [] then [] else [] :: ['E', 'x', 'a', 'm', 'p', 'l', 'e', 's', ':'] :: between (es.map exampleText)

/-- The lines about one implementation: the type of its input, its description, its usage, its flags and its examples. -/
def sectionLines (ty : Option Text) (m : Message) : List Text :=
  (['-', '-', '-', '-', ' ', 'I', 'n', 'p', 'u', 't', ' ', 'T', 'y', 'p', 'e', ':', ' '] ++ tyText ty ++ [' ', '-', '-', '-', '-']) :: (splitNl m.desc ++ ([] :: ['U', 's', 'a', 'g', 'e', ':'] ::
    (usageLines m.cmd (if m.noSpace then [] else [' ']) ([' ', '=', '>', ' '] ++ m.cmd) m.params ++ (flagLines m.flags ++ exampleLines m.examples))))

/-- Text within a line, without escapes. -/
def Word (s : Text) : Prop := '\n' ∉ s ∧ '\r' ∉ s ∧ '\x1b' ∉ s

instance (s : Text) : Decidable (Word s) := by unfold Word; infer_instance

/-- The parts of a message are within lines, and there are no escapes. -/
structure Message.Clean (m : Message) : Prop where
  cmd : Word m.cmd
  params : ∀ p ∈ m.params, Word p.shown
  flags : ∀ f ∈ m.flags, Word f.1 ∧ Word f.2
  examples : ∀ e ∈ m.examples, Word e.1 ∧ Word e.2
  desc : '\r' ∉ m.desc ∧ '\x1b' ∉ m.desc

/-- The code of an example is highlighted as it is (C74). -/
def Highlighted (k : Parse.Env) (code : Text) : Prop := ∃ ps, Tags.syntaxHighlight k code = some ps ∧ Tags.shown ps = code

/-- No line of the description looks like a heading, and the examples are highlighted as they are. -/
structure Message.Calm (k : Parse.Env) (m : Message) : Prop where
  desc : ∀ l ∈ splitNl m.desc, ¬ ['F', 'l', 'a', 'g', 's', ':'] <+: l ∧ ¬ ['E', 'x', 'a', 'm', 'p', 'l', 'e', 's', ':'] <+: l
  examples : ∀ e ∈ m.examples, ¬ ['=', '>', ' '] <+: e.1 ∧ ¬ [' ', '=', '>', ' '] <+: e.2 ∧ Highlighted k e.2

/-- What help looks like without colours. -/
def helpText (desc : Text) (ls : List Text) : Text :=
  asLine (['H', 'e', 'l', 'p', ':', ' '] ++ desc) ++ (asLine ['-', '-', '>', ' ', 's', 'h', 'e', 'l', 'l', ':', '0'] ++ ls.flatMap fun l => asLine ([' ', '|', ' '] ++ l))

end Verif.Help
