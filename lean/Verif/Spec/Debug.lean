import Verif.Model.Debug
import Verif.Spec.Grammar
/-!
# Specification: what `Debug` prints

`Proper` are the streams whose tokens are valid, at every depth; no rule about joint puncts, and groups may
have no delimiters. `prettyStream` lays the alternate form out line by line, each line with four spaces for
each level.
-/

namespace PM2.Spec

section
variable [UnicodeTables]

/-- The token by itself is valid; for a group, that is to say nothing. -/
inductive TokenOk : TokenTree → Prop
  | ident {sym raw span} : ValidIdent sym → TokenOk (.ident sym raw span)
  | punct {c sp span} : c ∈ punctChars → TokenOk (.punct c sp span)
  | literal {x span} : WholeLiteral x → TokenOk (.literal x span)
  | error {span} : TokenOk (.literal errorText span)
  | group {d inner span} : TokenOk (.group d inner span)

/-- Every token, at any depth, is valid. -/
def Proper (ts : List TokenTree) : Prop := ∀ t, Sub t ts → TokenOk t

end

/-! ## The alternate form, line by line -/

/-- The beginning of a line, `k` levels deep. -/
def margin (k : Nat) : List Char := List.replicate (4 * k) ' '

/-- A text written `k` levels deep: after every line feed comes the margin. -/
def atDepth (k : Nat) (s : List Char) : List Char :=
  s.flatMap fun c => if c = '\n' then '\n' :: margin k else [c]

/-- A line, with a comma at its end. -/
def line (k : Nat) (s : List Char) : List Char := margin k ++ s ++ ",\n".toList

/-- The line of the span. It is left out if it says nothing. -/
def spanLine (k : Nat) (s : Span) : List Char :=
  if s = Span.callSite then []
  else line k ("span: bytes(".toList ++ Nat.toDigits 10 s.lo ++ "..".toList ++ Nat.toDigits 10 s.hi ++ ")".toList)

/-- Between the braces of a struct, which is `k` levels deep. -/
def block (k : Nat) (name body : List Char) : List Char :=
  name ++ " {\n".toList ++ body ++ margin k ++ "}".toList

/-- A list that is `k` levels deep, after the opening bracket. -/
def prettyRest (k : Nat) (empty : Bool) (entries : List Char) : List Char :=
  if empty then "]".toList else "\n".toList ++ entries ++ margin k ++ "]".toList

def delimiterName : Delimiter → List Char
  | .parenthesis => "Parenthesis".toList
  | .brace => "Brace".toList
  | .bracket => "Bracket".toList
  | .none => "None".toList

def spacingName : Spacing → List Char
  | .alone => "Alone".toList
  | .joint => "Joint".toList

section
variable [UnicodeTables]

mutual

def prettyTree (k : Nat) : TokenTree → List Char
  | .group d ts s =>
    block k "Group".toList
      (line (k + 1) ("delimiter: ".toList ++ delimiterName d) ++
        line (k + 1) ("stream: TokenStream [".toList ++ prettyRest (k + 1) ts.isEmpty (prettyEntries (k + 2) ts)) ++ spanLine (k + 1) s)
  | .ident sym raw s =>
    block k "Ident".toList
      (line (k + 1) ("sym: ".toList ++ (if raw then "r#".toList else []) ++ atDepth (k + 1) sym) ++
        spanLine (k + 1) s)
  | .punct ch sp s =>
    block k "Punct".toList
      (line (k + 1) ("char: ".toList ++ litCharacter ch) ++ line (k + 1) ("spacing: ".toList ++ spacingName sp) ++
        spanLine (k + 1) s)
  | .literal repr s =>
    block k "Literal".toList (line (k + 1) ("lit: ".toList ++ atDepth (k + 1) repr) ++ spanLine (k + 1) s)

/-- The lines of the entries of a list. -/
def prettyEntries (k : Nat) : List TokenTree → List Char
  | [] => []
  | t :: ts => line k (prettyTree k t) ++ prettyEntries k ts

end

def prettyStream (ts : List TokenTree) : List Char :=
  "TokenStream [".toList ++ prettyRest 0 ts.isEmpty (prettyEntries 1 ts)

/-! ## The compact form -/

/-- A span, with what separates it from the field before. It is left out if it says nothing. -/
def spanPart (s : Span) : List Char :=
  if s = Span.callSite then []
  else ", span: bytes(".toList ++ Nat.toDigits 10 s.lo ++ "..".toList ++ Nat.toDigits 10 s.hi ++ ")".toList

mutual

def compactTree : TokenTree → List Char
  | .group d ts s =>
    "Group { delimiter: ".toList ++ delimiterName d ++ ", stream: TokenStream [".toList ++ compactEntries ts ++ "]".toList ++
      spanPart s ++ " }".toList
  | .ident sym raw s => "Ident { sym: ".toList ++ (if raw then "r#".toList else []) ++ sym ++ spanPart s ++ " }".toList
  | .punct ch sp s =>
    "Punct { char: ".toList ++ litCharacter ch ++ ", spacing: ".toList ++ spacingName sp ++ spanPart s ++ " }".toList
  | .literal repr s => "Literal { lit: ".toList ++ repr ++ spanPart s ++ " }".toList

/-- Entries, and what separates them. -/
def compactEntries : List TokenTree → List Char
  | [] => []
  | [t] => compactTree t
  | t :: u :: ts => compactTree t ++ ", ".toList ++ compactEntries (u :: ts)

end

def compactStream (ts : List TokenTree) : List Char := "TokenStream [".toList ++ compactEntries ts ++ "]".toList

end

/-- `r` is the text `s` with the options: cut to the precision, then filled up to the width. -/
structure Padded (o : FmtOpts) (s r : List Char) : Prop where
  shape : ∃ cut left right, r = List.replicate left o.fill ++ cut ++ List.replicate right o.fill ∧
    cut <+: s ∧
    (∀ p, o.precision = some p → cut.length = min p s.length) ∧ (o.precision = none → cut = s) ∧
    (∀ w, o.width = some w → left + right = w - cut.length) ∧ (o.width = none → left + right = 0) ∧
    (o.align = none ∨ o.align = some .left → left = 0) ∧
    (o.align = some .right → right = 0) ∧
    (o.align = some .center → right = left ∨ right = left + 1)

end PM2.Spec
