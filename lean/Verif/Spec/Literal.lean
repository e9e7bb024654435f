import Verif.Spec.Tokens
/-!
# Specification: the texts of string, byte and character literals

A grammar for the literals delimited by quotes. Nothing here mentions the parser.
-/

namespace PM2.Spec

/-- The three kinds of string literal: `"…"`, `b"…"`, `c"…"`. -/
inductive StrKind where
  | str
  | byte
  | c
deriving DecidableEq, Repr

/-- A hexadecimal digit. -/
def HexDigit (c : Char) : Prop :=
  ('0' ≤ c ∧ c ≤ '9') ∨ ('a' ≤ c ∧ c ≤ 'f') ∨ ('A' ≤ c ∧ c ≤ 'F')

/-- The value of a hexadecimal digit. -/
def hexDigitVal (c : Char) : Nat :=
  if c ≤ '9' then c.toNat - 48 else if c ≤ 'F' then c.toNat - 55 else c.toNat - 87

/-- The number written by hexadecimal digits, most significant first. -/
def hexNumber (ds : List Char) : Nat := ds.foldl (fun n c => n * 16 + hexDigitVal c) 0

/-- `UniText ds v`: between the braces of `\u{…}`, `ds` denotes the character `v`: a hexadecimal digit,
then digits and underscores, one to six digits in total, the number being a Unicode scalar value. -/
structure UniText (ds : List Char) (v : Char) : Prop where
  first : ∃ d u, ds = d :: u ∧ HexDigit d
  chars : ∀ c ∈ ds, HexDigit c ∨ c = '_'
  count : (ds.filter (· ≠ '_')).length ≤ 6
  value : v.toNat = hexNumber (ds.filter (· ≠ '_'))

/-- Escape sequences of a string literal of kind `k`, without the backslash. -/
inductive Esc (k : StrKind) : List Char → Prop
  | simple {c} : c ∈ ['n', 'r', 't', '\\', '\'', '"'] → Esc k [c]
  | zero : k ≠ .c → Esc k ['0']
  | hexStr {a b} : k = .str → ('0' ≤ a ∧ a ≤ '7') → HexDigit b → Esc k ['x', a, b]
  | hexByte {a b} : k = .byte → HexDigit a → HexDigit b → Esc k ['x', a, b]
  | hexC {a b} : k = .c → HexDigit a → HexDigit b → ¬ (a = '0' ∧ b = '0') → Esc k ['x', a, b]
  | uni {ds v} : k ≠ .byte → UniText ds v → (k = .c → v ≠ '\x00') →
      Esc k ('u' :: '{' :: ds ++ ['}'])
  | newline : Esc k ['\n']
  | crlf : Esc k ['\r', '\n']

/-- Characters that may be written in a literal of kind `k`. -/
def CharOk (k : StrKind) (c : Char) : Prop :=
  match k with
  | .str => True
  | .byte => c.toNat < 128
  | .c => c ≠ '\x00'

/-- The text between the quotes of a cooked string literal. -/
inductive CookedBody (k : StrKind) : List Char → Prop
  | nil : CookedBody k []
  | char {c t} : c ≠ '"' → c ≠ '\\' → c ≠ '\r' → CharOk k c → CookedBody k t → CookedBody k (c :: t)
  | crlf {t} : CookedBody k t → CookedBody k ('\r' :: '\n' :: t)
  | esc {e t} : Esc k e → CookedBody k t → CookedBody k ('\\' :: e ++ t)

/-- The text between the quotes of a raw string literal with `n` hashes: it does not contain the
terminator, and every carriage return is followed by a line feed. -/
structure RawBody (k : StrKind) (n : Nat) (t : List Char) : Prop where
  noTerm : ∀ a b, t = a ++ '"' :: b → ¬ List.replicate n '#' <+: b
  noCr : NoBareCr t
  chars : ∀ c ∈ t, CharOk k c

/-- The prefix letter of a kind. -/
def kindPrefix : StrKind → List Char
  | .str => []
  | .byte => ['b']
  | .c => ['c']

/-- String literals of kind `k`, without suffix. -/
inductive StrText (k : StrKind) : List Char → Prop
  | cooked {b} : CookedBody k b → StrText k (kindPrefix k ++ '"' :: b ++ ['"'])
  | raw {n b} : n ≤ 255 → RawBody k n b →
      StrText k (kindPrefix k ++ 'r' :: List.replicate n '#' ++ '"' :: b ++ '"' :: List.replicate n '#')

/-- What stands between the quotes of a byte literal. -/
inductive ByteElem : List Char → Prop
  | char {c} : c ≠ '\\' → c.toNat < 128 → ByteElem [c]
  | simple {c} : c ∈ ['n', 'r', 't', '\\', '0', '\'', '"'] → ByteElem ['\\', c]
  | hex {a b} : HexDigit a → HexDigit b → ByteElem ['\\', 'x', a, b]

/-- What stands between the quotes of a character literal. -/
inductive CharElem : List Char → Prop
  | char {c} : c ≠ '\\' → CharElem [c]
  | simple {c} : c ∈ ['n', 'r', 't', '\\', '0', '\'', '"'] → CharElem ['\\', c]
  | hex {a b} : ('0' ≤ a ∧ a ≤ '7') → HexDigit b → CharElem ['\\', 'x', a, b]
  | uni {ds v} : UniText ds v → CharElem ('\\' :: 'u' :: '{' :: ds ++ ['}'])

/-- Literals delimited by quotes, without suffix. -/
inductive QuotedText : List Char → Prop
  | str {k x} : StrText k x → QuotedText x
  | byte {e} : ByteElem e → QuotedText ('b' :: '\'' :: e ++ ['\''])
  | char {e} : CharElem e → QuotedText ('\'' :: e ++ ['\''])

/-- The punctuation characters of the language. -/
def punctChars : List Char := "!#$%&'*+,-./:;<=>?@^|~".toList

/-- Names that cannot be raw identifiers. -/
def neverRaw : List (List Char) :=
  ["_", "self", "Self", "super", "crate"].map String.toList

/-- What a literal may end with: nothing or an identifier. -/
def Suffix [UnicodeTables] (suf : List Char) : Prop :=
  suf = [] ∨ ∃ c t, suf = c :: t ∧ isIdentStart c = true ∧ ∀ d ∈ t, isIdentContinue d = true

/-- The text begins like a string literal of kind `k`. -/
def StrStart (k : StrKind) (s : List Char) : Prop :=
  kindPrefix k ++ ['"'] <+: s ∨ kindPrefix k ++ ['r', '"'] <+: s ∨ kindPrefix k ++ ['r', '#'] <+: s

end PM2.Spec
