/-! The parts of the `nom` crate (7.1.1, `complete` parsers) that ogma's parsers use. The crate is not
in /repo; this follows its documentation and is part of the trusted base. -/
deriving instance DecidableEq for Except

namespace Verif.Nom

/-- `IResult`: success with the remaining input, a recoverable error, or a failure. -/
inductive PR (α : Type) where
  | ok (rest : List Char) (a : α)
  | err
  | fail
deriving DecidableEq, Repr

def PR.map {α β : Type} (f : α → β) : PR α → PR β
  | .ok r a => .ok r (f a)
  | .err => .err
  | .fail => .fail

def PR.bind {α β : Type} (x : PR α) (f : List Char → α → PR β) : PR β :=
  match x with
  | .ok r a => f r a
  | .err => .err
  | .fail => .fail

def PR.isOk {α : Type} : PR α → Bool
  | .ok _ _ => true
  | _ => false

abbrev Parser (α : Type) := List Char → PR α

/-- `nom::combinator::cut`. -/
def cut {α : Type} (p : Parser α) : Parser α := fun i =>
  match p i with
  | .err => .fail
  | r => r

/-- `nom::combinator::opt`. -/
def opt {α : Type} (p : Parser α) : Parser (Option α) := fun i =>
  match p i with
  | .ok r a => .ok r (some a)
  | .err => .ok i none
  | .fail => .fail

/-- `nom::bytes::complete::tag`. -/
def tag (t : List Char) : Parser Unit := fun i =>
  if t.isPrefixOf i then .ok (i.drop t.length) () else .err

/-- `nom::character::complete::char`. -/
def chr (c : Char) : Parser Unit := fun i =>
  match i with
  | [] => .err
  | d :: r => if d = c then .ok r () else .err

/-- `nom::bytes::complete::take_while1`. -/
def takeWhile1 (p : Char → Bool) : Parser (List Char) := fun i =>
  if (i.takeWhile p).isEmpty then .err else .ok (i.dropWhile p) (i.takeWhile p)

/-- `nom::bytes::complete::take_till1`. -/
def takeTill1 (p : Char → Bool) : Parser (List Char) := takeWhile1 (fun c => !p c)

/-- The characters of `space0` and `space1`. -/
def isSpace (c : Char) : Bool := c == ' ' || c == '\t'

/-- The characters of `multispace0`. -/
def isMulti (c : Char) : Bool := c == ' ' || c == '\t' || c == '\r' || c == '\n'

/-- `space0`, `multispace0`: these never fail, only the remaining input matters. -/
def skip (p : Char → Bool) (i : List Char) : List Char := i.dropWhile p

/-- `space1`. -/
def space1 : Parser (List Char) := takeWhile1 isSpace

/-- `nom::character::complete::line_ending`. -/
def lineEnding : Parser Unit
  | '\n' :: r => .ok r ()
  | '\r' :: '\n' :: r => .ok r ()
  | _ => .err

/-- The loop of `nom::multi::separated_list1` after the first element. The fuel is the length of the
input: each turn consumes at least the separator. -/
def sepLoop {α β : Type} (sep : Parser β) (f : Parser α) : Nat → List Char → List α → PR (List α)
  | 0, i, acc => .ok i acc
  | n + 1, i, acc =>
    match sep i with
    | .err => .ok i acc
    | .fail => .fail
    | .ok i1 _ =>
      if i1.length = i.length then .err
      else match f i1 with
        | .err => .ok i acc
        | .fail => .fail
        | .ok i2 a => sepLoop sep f n i2 (acc ++ [a])

/-- `nom::multi::separated_list1`. -/
def sepList1 {α β : Type} (sep : Parser β) (f : Parser α) : Parser (List α) := fun i =>
  (f i).bind fun i a => sepLoop sep f i.length i [a]

end Verif.Nom
