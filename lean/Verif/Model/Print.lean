/-! Model of printing tables (`ogma/src/output/print.rs`) and saving them (`lang/impls/intrinsics/io.rs`). -/
namespace Verif.Print
variable {A : Type}

/-! ### Printing to the terminal -/

/-- What a printed cell holds: the text of a table cell (`fmt_cell` is applied to it) or one of the fillers. -/
inductive Cell (A : Type) : Type
  | cell (a : A)
  | rowsElided (n : Nat)
  | colsElided (n : Nat)
  | dots
  deriving DecidableEq

/-- `print.rs:86-117` `fmt_row`. `cells` is one iterator: what `take` used up is gone before `skip`. -/
def fmtRow (limitCol : Bool) (colsLen : Nat) (header : Bool) (row : List A) : List (Cell A) :=
  let take := if limitCol then 3 else colsLen
  let skip := if limitCol then colsLen - 6 else 0
  (row.take take).map .cell ++
    if limitCol then
      (if header then .colsElided (colsLen - 6) else .dots) :: ((row.drop take).drop skip).map .cell
    else []

/-- What is handed to the table printer: the header, if any, and the rows. -/
structure Printed (A : Type) where
  head : Option (List (Cell A))
  body : List (List (Cell A))
  deriving DecidableEq

/-- `print.rs:16-79` `print_table`, with `ROWS_LIM` 30 and `COLS_LIM` 7; `none`: "table is empty". `hdr`: the table's
`header` mark. The printing of cells and borders is `comfy_table`'s. -/
def printTable (hdr : Bool) (colsLen : Nat) (table : List (List A)) : Option (Printed A) :=
  if table = [] ∨ colsLen = 0 then none
  else
    let limitCol := decide (colsLen > 7)
    let limitRow := decide (table.length > 30)
    let head := if hdr then table.head?.map (fmtRow limitCol colsLen true) else none
    let rows := if hdr then table.drop 1 else table
    let take := if limitRow then 5 else table.length
    let skip := if limitRow then table.length - 11 else 0
    some ⟨head, (rows.take take).map (fmtRow limitCol colsLen false) ++
      if limitRow then
        (.rowsElided (table.length - 10 - if hdr then 1 else 0) :: List.replicate (if limitCol then 6 else colsLen - 1) .dots) ::
          ((rows.drop take).drop skip).map (fmtRow limitCol colsLen false)
      else []⟩

/-! ### Saving as comma separated values -/

/-- The hexadecimal digits of a number, most significant first (`char::escape_unicode`). -/
def hexDigit (n : Nat) : Char := if n < 10 then Char.ofNat (48 + n) else Char.ofNat (87 + n)

def hex (n : Nat) : List Char :=
  if n < 16 then [hexDigit n] else hex (n / 16) ++ [hexDigit (n % 16)]
decreasing_by omega

/-- `char::escape_debug`. `special` says which other characters are written as a number (a parameter: not printable, or
extending a grapheme; the latter only matters for the first character). -/
def escChar (special : Bool) (c : Char) : List Char :=
  if c = '\x00' then ['\\', '0']
  else if c = '\t' then ['\\', 't']
  else if c = '\r' then ['\\', 'r']
  else if c = '\n' then ['\\', 'n']
  else if c = '\\' then ['\\', '\\']
  else if c = '"' then ['\\', '"']
  else if c = '\'' then ['\\', '\'']
  else if special then '\\' :: 'u' :: '{' :: (hex c.toNat ++ ['}'])
  else [c]

/-- `str::escape_debug`. -/
def escape (special : Bool → Char → Bool) : List Char → List Char
  | [] => []
  | c :: cs => escChar (special true c) c ++ cs.flatMap fun d => escChar (special false d) d

/-- `io.rs:350-362`: does the text need quotes? -/
def needsQuotes (s : List Char) : Bool := s.any fun c => c = ',' || c = '"' || c = '\r' || c = '\n'

/-- `io.rs:346-365` `fmt_cell`; `none` is a nil cell. The text is what `print::fmt_cell` gives. -/
def saveCell (special : Bool → Char → Bool) : Option (List Char) → List Char
  | none => []
  | some s => if needsQuotes s then '"' :: (escape special s ++ ['"']) else s

/-- Put a separator between the parts (`io.rs:371-386`: before all but the first). -/
def sepBy (sep : Char) : List (List Char) → List Char
  | [] => []
  | [x] => x
  | x :: y :: l => x ++ sep :: sepBy sep (y :: l)

/-- `io.rs:367-391` `write_file` on a table. -/
def saveTable (special : Bool → Char → Bool) (t : List (List (Option (List Char)))) : List Char :=
  sepBy '\n' (t.map fun r => sepBy ',' (r.map (saveCell special)))

end Verif.Print
