import Verif.Spec.Layout
/-!
# Specification: the lexical grammar

A complete grammar of the texts that are token streams, with the tokens that they denote. Nothing here
mentions the lexer. `x` is always the text of the item, and `r` what follows it.
-/

namespace PM2.Spec

/-- The whitespace characters of Rust's lexer as this crate sees it: the 25 characters with the Unicode property
`White_Space`, and the two marks for the direction of text. -/
def whiteSpace : List Char :=
  ['\t', '\n', '\x0b', '\x0c', '\r', ' ', '\u0085', '\u00a0', '\u1680', '\u2000', '\u2001', '\u2002', '\u2003', '\u2004',
    '\u2005', '\u2006', '\u2007', '\u2008', '\u2009', '\u200a', '\u2028', '\u2029', '\u202f', '\u205f', '\u3000',
    '\u200e', '\u200f']

/-- A decimal digit. -/
def DecDigit (c : Char) : Prop := '0' ≤ c ∧ c ≤ '9'

/-- Decimal digits and underscores. -/
def DigitsUs (u : List Char) : Prop := ∀ c ∈ u, DecDigit c ∨ c = '_'

/-- What follows is no decimal digit and no underscore. -/
def NoDigit (r : List Char) : Prop := ∀ c, r.head? = some c → ¬ DecDigit c ∧ c ≠ '_'

/-- An exponent after the `e`: an optional sign, and underscores and digits with at least one digit. The
underscores may stand before the sign. -/
def ExpText (u : List Char) : Prop :=
  ∃ us sign us' d v, u = us ++ sign ++ us' ++ d :: v ∧ (∀ c ∈ us, c = '_') ∧
    sign ∈ [[], ['+'], ['-']] ∧ (∀ c ∈ us', c = '_') ∧ DecDigit d ∧ DigitsUs v

section
variable [UnicodeTables]

/-- What follows does not continue an identifier. -/
def EndsWord (r : List Char) : Prop := ∀ c, r.head? = some c → isIdentContinue c = false

/-- An integer part without a fraction. -/
structure WholePart (m r : List Char) : Prop where
  digits : ∃ d u, m = d :: u ∧ DecDigit d ∧ DigitsUs u
  noDigit : NoDigit r
  noDot : r.head? ≠ some '.'

/-- An integer part, a dot and a fraction. The dot is not followed by a dot, nor by a letter (`1..2`
and `1.foo` are no floats). -/
structure DottedPart (m r : List Char) : Prop where
  digits : ∃ d u v, m = d :: u ++ '.' :: v ∧ DecDigit d ∧ DigitsUs u ∧ DigitsUs v ∧
    ∀ c, (v ++ r).head? = some c → c ≠ '.' ∧ isIdentStart c = false
  noDigit : NoDigit r

/-- A float, without its suffix. -/
inductive FloatBody : List Char → List Char → Prop
  | exp {m e u r} : WholePart m (e :: u ++ r) ∨ DottedPart m (e :: u ++ r) → e ∈ ['e', 'E'] →
      ExpText u → NoDigit r → FloatBody (m ++ e :: u) r
  | dot {m r} : DottedPart m r → (¬ ∃ e u r', r = e :: u ++ r' ∧ e ∈ ['e', 'E'] ∧ ExpText u) →
      FloatBody m r

end

/-- A digit of a number in base `b`. -/
def BaseDigit (b : Nat) (c : Char) : Prop := HexDigit c ∧ hexDigitVal c < b

/-- The bases other than ten, by the letter after the zero. -/
def baseOf : List (Char × Nat) := [('x', 16), ('o', 8), ('b', 2)]

/-- An integer, without its suffix. A number in base 2 or 8 is not followed by a decimal digit. -/
inductive IntBody : List Char → List Char → Prop
  | dec {d u r} : DecDigit d → DigitsUs u → NoDigit r →
      (∀ p b, (p, b) ∈ baseOf → ¬ ['0', p] <+: d :: u ++ r) → IntBody (d :: u) r
  | based {p b u r} : (p, b) ∈ baseOf → (∀ c ∈ u, BaseDigit b c ∨ c = '_') → (∃ c ∈ u, c ≠ '_') →
      NoDigit r → (∀ c, r.head? = some c → ¬ BaseDigit b c) → IntBody ('0' :: p :: u) r

section
variable [UnicodeTables]

/-- A float with its suffix. -/
def FloatLit (x r : List Char) : Prop :=
  ∃ b suf, x = b ++ suf ∧ FloatBody b (suf ++ r) ∧ Suffix suf ∧ EndsWord r

/-- An integer with its suffix. -/
def IntLit (x r : List Char) : Prop :=
  ∃ b suf, x = b ++ suf ∧ IntBody b (suf ++ r) ∧ Suffix suf ∧ EndsWord r

/-- A number: a float if the text begins with one, otherwise an integer. -/
def NumberLit (x r : List Char) : Prop :=
  FloatLit x r ∨ (¬ ∃ x' r', x ++ r = x' ++ r' ∧ FloatLit x' r') ∧ IntLit x r

/-- The suffix of a literal in quotes is as long as possible. -/
def QuotedSuffix (suf r : List Char) : Prop :=
  suf = [] ∧ (∀ c, r.head? = some c → isIdentStart c = false) ∨ ValidIdent suf ∧ EndsWord r

/-- A literal. -/
def LiteralText (x r : List Char) : Prop :=
  (∃ q suf, x = q ++ suf ∧ QuotedText q ∧ QuotedSuffix suf r) ∨ NumberLit x r

end

/-- Beginnings of strings, raw strings and byte literals with a prefix of letters. -/
def literalPrefixes : List (List Char) :=
  ["r\"", "r#\"", "r##", "b\"", "b'", "br\"", "br#", "c\"", "cr\"", "cr#"].map String.toList

/-- A punctuation character stands at the beginning of the text, and not a comment. -/
def PunctAt (r : List Char) : Prop :=
  (∃ c r', r = c :: r' ∧ c ∈ punctChars) ∧ ¬ ['/', '/'] <+: r ∧ ¬ ['/', '*'] <+: r

section
variable [UnicodeTables]

/-- The identifier `sym` stands at the beginning of the text, as long as possible; `after` follows. -/
inductive IdentAt : List Char → List Char → Bool → List Char → Prop
  | plain {sym after} : ValidIdent sym → EndsWord after → ¬ ['r', '#'] <+: sym ++ after →
      IdentAt (sym ++ after) sym false after
  | raw {sym after} : ValidIdent sym → EndsWord after → sym ∉ neverRaw →
      IdentAt ('r' :: '#' :: sym ++ after) sym true after

/-- A token that is no group. -/
inductive Token : TokenTree → List Char → List Char → Prop
  | literal {x r span} : LiteralText x r → Token (.literal x span) x r
  | error {r span} : Token (.literal errorText span) errorText r
  | ident {sym r span} : IdentAt (sym ++ r) sym false r → (∀ p ∈ literalPrefixes, ¬ p <+: sym ++ r) →
      Token (.ident sym false span) sym r
  | raw {sym r span} : IdentAt ('r' :: '#' :: sym ++ r) sym true r →
      Token (.ident sym true span) ('r' :: '#' :: sym) r
  | punct {c sp r span} : PunctAt (c :: r) → c ≠ '\'' → (sp = .joint ↔ PunctAt r) →
      Token (.punct c sp span) [c] r
  | quote {r sym raw after span} : IdentAt r sym raw after → after.head? ≠ some '\'' →
      (raw = false → after.head? ≠ some '#') → Token (.punct '\'' .joint span) ['\''] r

/-- `Lexed p s ts r`: the text `s`, standing at position `p` and followed by `r`, denotes the tokens `ts`. -/
inductive Lexed : Nat → List Char → List TokenTree → List Char → Prop
  | nil {p t r} : Trivia t r → Lexed p t [] r
  | leaf {p t x s r tok ts} : Trivia t (x ++ s ++ r) → Token tok x (s ++ r) →
      tok.span = ⟨p + t.length, p + t.length + x.length⟩ →
      Lexed (p + t.length + x.length) s ts r → Lexed p (t ++ x ++ s) (tok :: ts) r
  | doc {p t x s r inner content ts} : Trivia t (x ++ s ++ r) → DocText x (s ++ r) inner content →
      NoBareCr content →
      Lexed (p + t.length + x.length) s ts r →
      Lexed p (t ++ x ++ s)
        (docAttr content inner ⟨p + t.length, p + t.length + x.length⟩ ++ ts) r
  | group {p t o c body s r d inner ts} : Trivia t (o :: body ++ c :: s ++ r) →
      delimChars d = some (o, c) → ¬ errorText <+: o :: body ++ c :: s ++ r →
      Lexed (p + t.length + 1) body inner (c :: s ++ r) →
      Lexed (p + t.length + 1 + body.length + 1) s ts r →
      Lexed p (t ++ o :: body ++ c :: s)
        (.group d inner ⟨p + t.length, p + t.length + 1 + body.length + 1⟩ :: ts) r

/-- A whole text: an optional byte order mark, then tokens. -/
def TextLexed (p : Nat) (src : List Char) (ts : List TokenTree) : Prop :=
  ∃ bom body, src = bom ++ body ∧ (bom = ['﻿'] ∨ bom = [] ∧ src.head? ≠ some '﻿') ∧
    Lexed (p + bom.length) body ts []

/-- A whole literal: also a number after a minus sign. -/
def WholeLiteral (x : List Char) : Prop :=
  LiteralText x [] ∨ ∃ y, x = '-' :: y ∧ NumberLit y []

/-- The literals of well-formed streams: those of the grammar, without a minus sign, and the error
literal. -/
def LitOk (x : List Char) : Prop := x = errorText ∨ LiteralText x []

/-- Well-formed streams. -/
def WF (ts : List TokenTree) : Prop := WFOf LitOk ts

end

end PM2.Spec
