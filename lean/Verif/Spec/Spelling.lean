import Verif.Spec.Literal
import Verif.Model.Basic
/-!
# Specification: how the literals made from values are spelled

A value has many literals that stand for it: `"a"`, `"\x61"`, `"\u{61}"`. The constructors write one of them:
a short escape where the language has one, the character itself where it can be printed, and a hexadecimal
escape for the rest.
-/

namespace PM2.Spec

/-- The characters with an escape of one letter. -/
def shortEscapes : List (Char × Char) :=
  [('\x00', '0'), ('\t', 't'), ('\n', 'n'), ('\r', 'r'), ('\\', '\\')]

/-- `Digits alphabet n ds`: `ds` are the digits of `n` in base 16, written in `alphabet`. -/
def Digits (alphabet : String) (n : Nat) (ds : List Char) : Prop :=
  (∀ d ∈ ds, d ∈ alphabet.toList) ∧ hexNumber ds = n

section
variable [UnicodeTables]

/-- `CharSpelling q c t`: the spelling of the character `c` in a literal with the quotes `q`. -/
inductive CharSpelling (q : Char) : Char → List Char → Prop
  | short {c e} : (c, e) ∈ shortEscapes → CharSpelling q c ['\\', e]
  | quote : CharSpelling q q ['\\', q]
  | otherQuote {c} : c ∈ ['"', '\''] → c ≠ q → CharSpelling q c [c]
  | plain {c} : (∀ e, (c, e) ∉ shortEscapes) → c ∉ ['"', '\''] → printable c = true → graphemeExtend c = false →
      CharSpelling q c [c]
  -- the number of the character in lower case, without leading zeros
  | uni {c ds} : (∀ e, (c, e) ∉ shortEscapes) → c ∉ ['"', '\''] → printable c = false ∨ graphemeExtend c = true →
      Digits "0123456789abcdef" c.toNat ds → ds ≠ [] → ds.head? ≠ some '0' →
      CharSpelling q c ('\\' :: 'u' :: '{' :: ds ++ ['}'])

/-- `StringSpelling s t`: the spelling of the text `s` between double quotes. A NUL before an octal digit is
written such that it does not look like an octal escape of other languages. -/
inductive StringSpelling : List Char → List Char → Prop
  | nil : StringSpelling [] []
  | nul {c s t} : c ∈ "01234567".toList → StringSpelling (c :: s) t →
      StringSpelling ('\x00' :: c :: s) ("\\x00".toList ++ t)
  | char {c s p t} : (c = '\x00' → ∀ d ∈ s.head?, d ∉ "01234567".toList) → CharSpelling '"' c p →
      StringSpelling s t → StringSpelling (c :: s) (p ++ t)

end

/-- Two hexadecimal digits in upper case. -/
inductive HexSpelling : UInt8 → List Char → Prop
  | mk {b h l} : Digits "0123456789ABCDEF" b.toNat [h, l] → HexSpelling b ['\\', 'x', h, l]

/-- `ByteSpelling q b t`: the spelling of the byte `b` in a byte literal with the quotes `q`. -/
inductive ByteSpelling (q : Char) : UInt8 → List Char → Prop
  | short {c e b} : (c, e) ∈ shortEscapes → b.toNat = c.toNat → ByteSpelling q b ['\\', e]
  | quote {b} : b.toNat = q.toNat → ByteSpelling q b ['\\', q]
  | plain {c b} : c ≠ '\\' → c ≠ q → ' ' ≤ c → c ≤ '~' → b.toNat = c.toNat → ByteSpelling q b [c]
  | hex {b t} : b.toNat < 32 ∨ 126 < b.toNat → (∀ c e, (c, e) ∈ shortEscapes → b.toNat ≠ c.toNat) →
      HexSpelling b t → ByteSpelling q b t

/-- `BytesSpelling bs t`: the spelling of the bytes `bs` in a byte string literal. -/
inductive BytesSpelling : List UInt8 → List Char → Prop
  | nil : BytesSpelling [] []
  | nul {b bs t} : 48 ≤ b.toNat → b.toNat ≤ 55 → BytesSpelling (b :: bs) t →
      BytesSpelling (0 :: b :: bs) ("\\x00".toList ++ t)
  | byte {b bs p t} : (b = 0 → ∀ d ∈ bs.head?, ¬ (48 ≤ d.toNat ∧ d.toNat ≤ 55)) → ByteSpelling '"' b p →
      BytesSpelling bs t → BytesSpelling (b :: bs) (p ++ t)

/-- `CStringSpelling bs t`: the spelling of the bytes `bs` in a C string literal. A character is spelled as
in a string literal wherever one is encoded, and the bytes that are not part of one in hexadecimal. -/
inductive CStringSpelling [UnicodeTables] : List UInt8 → List Char → Prop
  | nil : CStringSpelling [] []
  | char {c bs p t} : CharSpelling '"' c p → CStringSpelling bs t →
      CStringSpelling (String.utf8EncodeChar c ++ bs) (p ++ t)
  | byte {b bs p t} : (∀ c, ¬ String.utf8EncodeChar c <+: b :: bs) → HexSpelling b p → CStringSpelling bs t →
      CStringSpelling (b :: bs) (p ++ t)

end PM2.Spec
