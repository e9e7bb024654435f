import Verif.Spec.Literal
import Verif.Model.Basic
/-!
# Specification: the value of a string literal

The meaning of the text between the quotes, as a sequence of bytes, following the Rust reference
("Character escapes", "String continuation escapes"). Nothing here mentions the lexer or the
unescaper.
-/

namespace PM2.Spec

/-- The one-character escapes and the byte each stands for. -/
def simpleEscapes : List (Char × UInt8) :=
  [('n', 10), ('r', 13), ('t', 9), ('\\', 92), ('\'', 39), ('"', 34)]

/-- `Piece k p m`: in a cooked string literal of kind `k`, the text `p` is one character or one escape
sequence, and stands for the bytes `m`. -/
inductive Piece (k : StrKind) : List Char → List UInt8 → Prop
  | char {c} : c ≠ '"' → c ≠ '\\' → c ≠ '\r' → CharOk k c → Piece k [c] (String.utf8EncodeChar c)
  | simple {c b} : (c, b) ∈ simpleEscapes → Piece k ['\\', c] [b]
  | zero : k ≠ .c → Piece k ['\\', '0'] [0]
  | hex {a b} : HexDigit a → HexDigit b → (k = .str → hexNumber [a, b] < 128) →
      (k = .c → hexNumber [a, b] ≠ 0) → Piece k ['\\', 'x', a, b] [UInt8.ofNat (hexNumber [a, b])]
  | uni {ds v} : k ≠ .byte → UniText ds v → (k = .c → v ≠ '\x00') →
      Piece k ('\\' :: 'u' :: '{' :: ds ++ ['}']) (String.utf8EncodeChar v)

/-- The whitespace skipped by a string continuation. -/
def ContSpace (c : Char) : Prop := c = ' ' ∨ c = '\t' ∨ c = '\n' ∨ c = '\r'

/-- `Means k t m`: the text `t` between the quotes of a cooked string literal of kind `k` stands for
the bytes `m`. A backslash before a line feed stands for nothing, together with all whitespace that
follows. -/
inductive Means (k : StrKind) : List Char → List UInt8 → Prop
  | nil : Means k [] []
  | piece {p t m n} : Piece k p m → Means k t n → Means k (p ++ t) (m ++ n)
  | cont {w t n} : (∀ c ∈ w, ContSpace c) → (∀ c t', t = c :: t' → ¬ ContSpace c) → Means k t n →
      Means k ('\\' :: '\n' :: w ++ t) n

/-- `HasValue k x m`: the text `x` is a string literal of kind `k` that stands for the bytes `m`. The
contents of a raw literal stand for themselves. -/
inductive HasValue (k : StrKind) : List Char → List UInt8 → Prop
  | cooked {t m} : Means k t m → HasValue k (kindPrefix k ++ '"' :: t ++ ['"']) m
  | raw {n v} : HasValue k
      (kindPrefix k ++ 'r' :: List.replicate n '#' ++ '"' :: v ++ '"' :: List.replicate n '#') (bytesOf v)

/-- `UnitMeans k e m`: between the single quotes of a character literal (`k = .str`) or byte literal
(`k = .byte`), the text `e` stands for the bytes `m`. -/
inductive UnitMeans (k : StrKind) : List Char → List UInt8 → Prop
  | char {c} : c ∉ ['\'', '\\', '\n', '\r', '\t'] → CharOk k c →
      UnitMeans k [c] (String.utf8EncodeChar c)
  | esc {p m} : Piece k ('\\' :: p) m → UnitMeans k ('\\' :: p) m

end PM2.Spec
