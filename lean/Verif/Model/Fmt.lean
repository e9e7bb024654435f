import Verif.Model.LitCtor
/-!
# The formatter of the standard library

What `{}`, `{:?}` and `{:#?}` do with the pieces that the crate hands to its formatter. Writing into a
`String` never fails, so a formatted value is a text.

`Formatter::pad`, `PadAdapter`, `DebugStruct`, `DebugTuple` and `DebugList` are modelled from the standard
library; since Rust 1.36 the alternate form has a comma after the last field.
-/

namespace PM2

/-- `fmt::Alignment`. -/
inductive Alignment where
  | left
  | right
  | center
deriving Repr, DecidableEq

/-- The options of a formatter that matter here: `{:fill align # width . precision}`. -/
structure FmtOpts where
  alternate : Bool := false
  fill : Char := ' '
  align : Option Alignment := none
  width : Option Nat := none
  precision : Option Nat := none
deriving Repr, DecidableEq

/-- std `Formatter::pad`: the precision is the largest number of characters. -/
def FmtOpts.cut (o : FmtOpts) (s : List Char) : List Char :=
  match o.precision with
  | some max => s.take max
  | none => s

/-- std `Formatter::pad`: `Display for str`, and for `char`. -/
def FmtOpts.pad (o : FmtOpts) (s : List Char) : List Char :=
  let s := o.cut s
  match o.width with
  | none => s
  | some width =>
    if s.length ≥ width then s
    else
      let padding := width - s.length
      let pre := match o.align with
        | none => 0
        | some .left => 0
        | some .right => padding
        | some .center => padding / 2
      List.replicate pre o.fill ++ s ++ List.replicate (padding - pre) o.fill

/-- std `PadAdapter`: four spaces before the first character of every line. The flag says whether a line
begins. -/
def padAdapter : Bool → List Char → List Char
  | _, [] => []
  | onNewline, c :: cs => (if onNewline then [' ', ' ', ' ', ' '] else []) ++ c :: padAdapter (c == '\n') cs

/-- One entry in alternate form: through a new `PadAdapter`, with a comma and a line feed. -/
def prettyEntry (s : List Char) : List Char := padAdapter true (s ++ [',', '\n'])

/-- Entries with commas between them. -/
def commaSep : List (List Char) → List Char
  | [] => []
  | [e] => e
  | e :: es => e ++ [',', ' '] ++ commaSep es

/-- A field of a `DebugStruct`. -/
def debugField (f : List Char × List Char) : List Char := f.1 ++ [':', ' '] ++ f.2

/-- std `DebugStruct`. -/
def debugStruct (alternate : Bool) (name : List Char) (fields : List (List Char × List Char)) : List Char :=
  if fields.isEmpty then name
  else if alternate then
    name ++ [' ', '{', '\n'] ++ fields.flatMap (fun f => prettyEntry (debugField f)) ++ ['}']
  else name ++ [' ', '{', ' '] ++ commaSep (fields.map debugField) ++ [' ', '}']

/-- std `DebugTuple` with a name. -/
def debugTuple (alternate : Bool) (name : List Char) (fields : List (List Char)) : List Char :=
  if fields.isEmpty then name
  else if alternate then name ++ ['(', '\n'] ++ fields.flatMap prettyEntry ++ [')']
  else name ++ ['('] ++ commaSep fields ++ [')']

/-- std `DebugList`. -/
def debugList (alternate : Bool) (entries : List (List Char)) : List Char :=
  if entries.isEmpty then ['[', ']']
  else if alternate then ['[', '\n'] ++ entries.flatMap prettyEntry ++ [']']
  else ['['] ++ commaSep entries ++ [']']

/-- std `Debug for char`: the single quote is escaped, the double quote is not. -/
def debugChar [UnicodeTables] (c : Char) : List Char :=
  ['\''] ++ (if c = '"' then [c] else escapeDebug c) ++ ['\'']

end PM2
