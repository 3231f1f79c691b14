/-! A reader for saved tables, written from the description of the format: records end at a newline, fields at a comma; a
field that starts with a quote is quoted, and inside quotes a backslash starts an escape (C45). -/
namespace Verif.Csv

inductive St
  | start | plain | quoted | esc | brace | uni (n : Nat) | closed
  deriving DecidableEq

structure Reader where
  rows : List (List (List Char))
  row : List (List Char)
  fld : List Char
  st : St

def hexVal (c : Char) : Option Nat :=
  if '0' ≤ c ∧ c ≤ '9' then some (c.toNat - 48)
  else if 'a' ≤ c ∧ c ≤ 'f' then some (c.toNat - 87)
  else none

def unesc : Char → Option Char
  | '0' => some '\x00'
  | 't' => some '\t'
  | 'r' => some '\r'
  | 'n' => some '\n'
  | '\\' => some '\\'
  | '"' => some '"'
  | '\'' => some '\''
  | _ => none

def endField (r : Reader) : Reader := ⟨r.rows, r.row ++ [r.fld], [], .start⟩
def endRow (r : Reader) : Reader := ⟨r.rows ++ [r.row ++ [r.fld]], [], [], .start⟩

def step (r : Reader) (c : Char) : Option Reader :=
  match r.st with
  | .start => if c = '"' then some { r with st := .quoted }
    else if c = ',' then some (endField r) else if c = '\n' then some (endRow r)
    else some { r with fld := r.fld ++ [c], st := .plain }
  | .plain => if c = ',' then some (endField r) else if c = '\n' then some (endRow r)
    else some { r with fld := r.fld ++ [c] }
  | .closed => if c = ',' then some (endField r) else if c = '\n' then some (endRow r) else none
  | .quoted => if c = '"' then some { r with st := .closed } else if c = '\\' then some { r with st := .esc }
    else some { r with fld := r.fld ++ [c] }
  | .esc => if c = 'u' then some { r with st := .brace }
    else (unesc c).map fun d => { r with fld := r.fld ++ [d], st := .quoted }
  | .brace => if c = '{' then some { r with st := .uni 0 } else none
  | .uni n => if c = '}' then some { r with fld := r.fld ++ [Char.ofNat n], st := .quoted }
    else (hexVal c).map fun d => { r with st := .uni (n * 16 + d) }

def steps (r : Reader) : List Char → Option Reader
  | [] => some r
  | c :: cs => (step r c).bind fun r => steps r cs

/-- The records of a file. -/
def readCsv (s : List Char) : Option (List (List (List Char))) :=
  (steps ⟨[], [], [], .start⟩ s).bind fun r => match r.st with
    | .start | .plain | .closed => some (r.rows ++ [r.row ++ [r.fld]])
    | _ => none

end Verif.Csv
