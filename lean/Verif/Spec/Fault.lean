import Verif.Spec.Value
import Verif.Model.Unescape
/-!
# Specification: what is reported about the text of a literal

For every text between quotes, whether it has a meaning or not: the sequence of reports, each with its
byte range, the kind of every error, how far it extends, and the warnings about line continuations. The
kinds of error are those documented at `EscapeError` (src/rustc_literal_escaper.rs:17-72). From
the model come only this type, the type of modes and `char::is_whitespace`.
-/

namespace PM2.Spec

/-- What may stand between the braces of a Unicode escape, ignoring its value: a hexadecimal digit, then
digits and underscores. -/
structure UniDigits (ds : List Char) : Prop where
  first : ∃ d u, ds = d :: u ∧ HexDigit d
  chars : ∀ c ∈ ds, HexDigit c ∨ c = '_'

/-- The digits among them. -/
def uniDigits (ds : List Char) : List Char := ds.filter (· ≠ '_')

/-- `EscFault k p r e`: after a backslash, the text `p`, followed by `r`, is the beginning of no escape
sequence of a literal of kind `k`, for the reason `e`, which shows at the last character of `p`, or at
the end of the text. -/
inductive EscFault (k : StrKind) : List Char → List Char → EscapeError → Prop
  | lone : EscFault k [] [] .loneSlash
  | unknown {c r} : c ∉ ['0', 'x', 'u', 'n', 'r', 't', '\\', '\'', '"'] → EscFault k [c] r .invalidEscape
  | zero {r} : k = .c → EscFault k ['0'] r .nulInCStr
  | hexShort {ds} : ds.length < 2 → (∀ c ∈ ds, HexDigit c) → EscFault k ('x' :: ds) [] .tooShortHexEscape
  | hexChar {ds c r} : ds.length < 2 → (∀ c ∈ ds, HexDigit c) → ¬ HexDigit c →
      EscFault k ('x' :: ds ++ [c]) r .invalidCharInHexEscape
  | hexRange {a b r} : k = .str → HexDigit a → HexDigit b → 128 ≤ hexNumber [a, b] →
      EscFault k ['x', a, b] r .outOfRangeHexEscape
  | hexZero {a b r} : k = .c → HexDigit a → HexDigit b → hexNumber [a, b] = 0 →
      EscFault k ['x', a, b] r .nulInCStr
  | noBraceEnd : EscFault k ['u'] [] .noBraceInUnicodeEscape
  | noBrace {c r} : c ≠ '{' → EscFault k ['u', c] r .noBraceInUnicodeEscape
  | empty {r} : EscFault k ['u', '{', '}'] r .emptyUnicodeEscape
  | underscore {r} : EscFault k ['u', '{', '_'] r .leadingUnderscoreUnicodeEscape
  | unclosed {ds} : ds = [] ∨ UniDigits ds → EscFault k ('u' :: '{' :: ds) [] .unclosedUnicodeEscape
  | uniChar {ds c r} : ds = [] ∨ UniDigits ds → ¬ HexDigit c → c ≠ '_' → c ≠ '}' →
      EscFault k ('u' :: '{' :: ds ++ [c]) r .invalidCharInUnicodeEscape
  | overlong {ds r} : UniDigits ds → 6 < (uniDigits ds).length →
      EscFault k ('u' :: '{' :: ds ++ ['}']) r .overlongUnicodeEscape
  | uniByte {ds r} : k = .byte → UniDigits ds → (uniDigits ds).length ≤ 6 →
      EscFault k ('u' :: '{' :: ds ++ ['}']) r .unicodeEscapeInByte
  | uniRange {ds r} : k ≠ .byte → UniDigits ds → (uniDigits ds).length ≤ 6 →
      0x10FFFF < hexNumber (uniDigits ds) →
      EscFault k ('u' :: '{' :: ds ++ ['}']) r .outOfRangeUnicodeEscape
  | surrogate {ds r} : k ≠ .byte → UniDigits ds → (uniDigits ds).length ≤ 6 →
      0xD800 ≤ hexNumber (uniDigits ds) → hexNumber (uniDigits ds) ≤ 0xDFFF →
      EscFault k ('u' :: '{' :: ds ++ ['}']) r .loneSurrogateUnicodeEscape
  | uniZero {ds r} : k = .c → UniDigits ds → (uniDigits ds).length ≤ 6 → hexNumber (uniDigits ds) = 0 →
      EscFault k ('u' :: '{' :: ds ++ ['}']) r .nulInCStr

/-- A character that no literal of the kind contains. -/
inductive CharFault (k : StrKind) : Char → EscapeError → Prop
  | nonAscii {c} : k = .byte → 128 ≤ c.toNat → CharFault k c .nonAsciiCharInByte
  | nul : k = .c → CharFault k '\x00' .nulInCStr

/-- `Fault k p r e`: between double quotes, the text `p`, followed by `r`, is not a character or an
escape sequence, for the reason `e`. -/
inductive Fault (k : StrKind) : List Char → List Char → EscapeError → Prop
  | quote {r} : Fault k ['"'] r .escapeOnlyChar
  | cr {r} : Fault k ['\r'] r .bareCarriageReturn
  | char {c r e} : CharFault k c e → Fault k [c] r e
  | esc {p r e} : EscFault k p r e → Fault k ('\\' :: p) r e

/-- A report: from byte to byte, the bytes meant or the error or warning. -/
abbrev Report := Nat × Nat × Except EscapeError (List UInt8)

/-- The warnings about a line continuation at byte `n` that skips `w` and is followed by `t`: about
skipping more than one line, and about whitespace that is not skipped. -/
def contWarnings (n : Nat) (w t : List Char) : List Report :=
  (if '\n' ∈ w then [(n, n + strLen ('\\' :: '\n' :: w), .error .multipleSkippedLinesWarning)] else []) ++
  (match t with
    | [] => []
    | c :: _ =>
      if charIsWhitespace c then
        [(n, n + strLen ('\\' :: '\n' :: w ++ [c]), .error .unskippedWhitespaceWarning)]
      else [])

/-- `Reports k n t rs`: the reports about the text `t`, at byte `n`, between double quotes. -/
inductive Reports (k : StrKind) : Nat → List Char → List Report → Prop
  | nil {n} : Reports k n [] []
  | piece {n p t m rs} : Piece k p m → Reports k (n + strLen p) t rs →
      Reports k n (p ++ t) ((n, n + strLen p, .ok m) :: rs)
  | fault {n p t e rs} : Fault k p t e → ¬ ['\\', '\n'] <+: p ++ t → Reports k (n + strLen p) t rs →
      Reports k n (p ++ t) ((n, n + strLen p, .error e) :: rs)
  | cont {n w t rs} : (∀ c ∈ w, ContSpace c) → (∀ c t', t = c :: t' → ¬ ContSpace c) →
      Reports k (n + strLen ('\\' :: '\n' :: w)) t rs →
      Reports k n ('\\' :: '\n' :: w ++ t) (contWarnings n w t ++ rs)

/-- The report about one character of a raw literal. -/
inductive RawChar (k : StrKind) : Char → Except EscapeError (List UInt8) → Prop
  | char {c} : c ≠ '\r' → CharOk k c → RawChar k c (.ok (String.utf8EncodeChar c))
  | cr : RawChar k '\r' (.error .bareCarriageReturnInRawString)
  | fault {c e} : CharFault k c e → RawChar k c (.error e)

/-- The reports about the text of a raw literal. -/
inductive RawReports (k : StrKind) : Nat → List Char → List Report → Prop
  | nil {n} : RawReports k n [] []
  | char {n c t r rs} : RawChar k c r → RawReports k (n + c.utf8Size) t rs →
      RawReports k n (c :: t) ((n, n + c.utf8Size, r) :: rs)

/-- `UnitFault k p r e`: between single quotes, the text `p`, followed by `r`, begins no single
character, for the reason `e`. -/
inductive UnitFault (k : StrKind) : List Char → List Char → EscapeError → Prop
  | none : UnitFault k [] [] .zeroChars
  | bare {c r} : c ∈ ['\n', '\t', '\''] → UnitFault k [c] r .escapeOnlyChar
  | cr {r} : UnitFault k ['\r'] r .bareCarriageReturn
  | char {c r e} : CharFault k c e → UnitFault k [c] r e
  | esc {p r e} : EscFault k p r e → UnitFault k ('\\' :: p) r e
  | more {x m c r} : UnitMeans k x m → UnitFault k (x ++ [c]) r .moreThanOneChar

/-- The errors and warnings among reports. -/
def errorsOf (rs : List Report) : List (Nat × Nat × EscapeError) :=
  rs.filterMap (fun r => match r.2.2 with
    | .error e => some (r.1, r.2.1, e)
    | .ok _ => none)

/-- `UnitErrors k t es`: the errors of the text `t` between single quotes, at most one. -/
inductive UnitErrors (k : StrKind) : List Char → List (Nat × Nat × EscapeError) → Prop
  | ok {t m} : UnitMeans k t m → UnitErrors k t []
  | error {p r e} : UnitFault k p r e → UnitErrors k (p ++ r) [(0, strLen p, e)]

/-- The errors and warnings about a text in each mode. -/
def ModeErrors (t : List Char) (es : List (Nat × Nat × EscapeError)) : Mode → Prop
  | .char => UnitErrors .str t es
  | .byte => UnitErrors .byte t es
  | .str => ∃ rs, Reports .str 0 t rs ∧ es = errorsOf rs
  | .byteStr => ∃ rs, Reports .byte 0 t rs ∧ es = errorsOf rs
  | .cStr => ∃ rs, Reports .c 0 t rs ∧ es = errorsOf rs
  | .rawStr => ∃ rs, RawReports .str 0 t rs ∧ es = errorsOf rs
  | .rawByteStr => ∃ rs, RawReports .byte 0 t rs ∧ es = errorsOf rs
  | .rawCStr => ∃ rs, RawReports .c 0 t rs ∧ es = errorsOf rs

end PM2.Spec
