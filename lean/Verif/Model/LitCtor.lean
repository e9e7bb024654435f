import Verif.Model.Token
/-!
# Literal constructors of the fallback implementation (src/fallback.rs:942-1147, 1214-1236)
-/

namespace PM2

/-- Lowercase hexadecimal digit (std `fmt`/`EscapeUnicode`). -/
def hexDigitLower (d : Nat) : Char :=
  if d < 10 then Char.ofNat (48 + d) else Char.ofNat (87 + d)

/-- Uppercase hexadecimal digit (std `{:X}`). -/
def hexDigitUpper (d : Nat) : Char :=
  if d < 10 then Char.ofNat (48 + d) else Char.ofNat (55 + d)

/-- Drop leading zeros, keeping at least one digit. -/
def stripZeros : List Char → List Char
  | c :: d :: t => if c = '0' then stripZeros (d :: t) else c :: d :: t
  | s => s

/-- std `char::escape_unicode`: `\u{` minimal lowercase hex `}`. std writes six hex digits and skips
the leading zeros. -/
def escapeUnicode (c : Char) : List Char :=
  let n := c.toNat
  let d (k : Nat) := hexDigitLower (n / 16 ^ k % 16)
  ['\\', 'u', '{'] ++ stripZeros [d 5, d 4, d 3, d 2, d 1, d 0] ++ ['}']

section
variable [UnicodeTables]

/-- std `char::escape_debug` (all escapes enabled), used at src/fallback.rs:1070,1233. -/
def escapeDebug (c : Char) : List Char :=
  if c = '\x00' then ['\\', '0']
  else if c = '\t' then ['\\', 't']
  else if c = '\r' then ['\\', 'r']
  else if c = '\n' then ['\\', 'n']
  else if c = '\\' then ['\\', '\\']
  else if c = '"' then ['\\', '"']
  else if c = '\'' then ['\\', '\'']
  else if graphemeExtend c then escapeUnicode c
  else if printable c then [c]
  else escapeUnicode c

/-- src/fallback.rs:1214-1236 `escape_utf8`. The `&mut String` buffer becomes the returned text. -/
def escapeUtf8 : List Char → List Char
  | [] => []
  | ch :: chars =>
    (if ch = '\x00' then
      match chars with
      | next :: _ => if '0' ≤ next ∧ next ≤ '7' then ['\\', 'x', '0', '0'] else ['\\', '0']
      | [] => ['\\', '0']
    else if ch = '\'' then [ch]
    else escapeDebug ch) ++ escapeUtf8 chars

/-- src/fallback.rs:1055-1061 `Literal::string`: the `repr`. -/
def litString (s : List Char) : List Char := '"' :: (escapeUtf8 s ++ ['"'])

/-- src/fallback.rs:1063-1074 `Literal::character`: the `repr`. -/
def litCharacter (ch : Char) : List Char :=
  '\'' :: ((if ch = '"' then [ch] else escapeDebug ch) ++ ['\''])

end

/-- `byte as char`. -/
def byteChar (b : UInt8) : Char := Char.ofNat b.toNat

/-- `write!(repr, r"\x{:02X}", byte)`. -/
def escapeByteHex (b : UInt8) : List Char :=
  ['\\', 'x', hexDigitUpper (b.toNat / 16), hexDigitUpper (b.toNat % 16)]

/-- src/fallback.rs:1076-1093 `Literal::byte_character`: the `repr`. Match arms are tried in
order. -/
def litByteCharacter (byte : UInt8) : List Char :=
  ['b', '\''] ++
  (if byte = B '\x00' then ['\\', '0']
   else if byte = B '\t' then ['\\', 't']
   else if byte = B '\n' then ['\\', 'n']
   else if byte = B '\r' then ['\\', 'r']
   else if byte = B '\'' then ['\\', '\'']
   else if byte = B '\\' then ['\\', '\\']
   else if 0x20 ≤ byte ∧ byte ≤ 0x7E then [byteChar byte]
   else escapeByteHex byte) ++ ['\'']

/-- src/fallback.rs:1098-1116: the loop of `Literal::byte_string`. -/
def escapeBytes : List UInt8 → List Char
  | [] => []
  | b :: bytes =>
    (if b = B '\x00' then
      match bytes with
      | n :: _ => if B '0' ≤ n ∧ n ≤ B '7' then ['\\', 'x', '0', '0'] else ['\\', '0']
      | [] => ['\\', '0']
    else if b = B '\t' then ['\\', 't']
    else if b = B '\n' then ['\\', 'n']
    else if b = B '\r' then ['\\', 'r']
    else if b = B '"' then ['\\', '"']
    else if b = B '\\' then ['\\', '\\']
    else if 0x20 ≤ b ∧ b ≤ 0x7E then [byteChar b]
    else escapeByteHex b) ++ escapeBytes bytes

/-- src/fallback.rs:1095-1119 `Literal::byte_string`: the `repr`. -/
def litByteString (bytes : List UInt8) : List Char := ['b', '"'] ++ escapeBytes bytes ++ ['"']

/-! ### UTF-8 validation (std `core::str::from_utf8`), needed by `Literal::c_string` -/

/-- Continuation byte `10xxxxxx`. -/
def isCont (b : UInt8) : Bool := 0x80 ≤ b && b ≤ 0xBF

/-- Outcome of decoding one sequence at the front of a byte string, as std `run_utf8_validation`:
`bad n` is an error whose `error_len()` is `n` (`none`: unexpected end of input). -/
inductive Utf8Step where
  | good (c : Char) (rest : List UInt8)
  | bad (errorLen : Option Nat)
deriving Repr

/-- One iteration of std `core::str::validations::run_utf8_validation` (with the character that the
validated bytes encode). -/
def utf8Step (first : UInt8) (rest : List UInt8) : Utf8Step :=
  if first < 0x80 then .good (Char.ofNat first.toNat) rest
  else if 0xC2 ≤ first ∧ first ≤ 0xDF then
    match rest with
    | [] => .bad none
    | b1 :: r1 =>
      if isCont b1 then .good (Char.ofNat ((first.toNat - 0xC0) * 64 + (b1.toNat - 0x80))) r1
      else .bad (some 1)
  else if 0xE0 ≤ first ∧ first ≤ 0xEF then
    match rest with
    | [] => .bad none
    | b1 :: r1 =>
      if (first = 0xE0 ∧ 0xA0 ≤ b1 ∧ b1 ≤ 0xBF) ∨
         (0xE1 ≤ first ∧ first ≤ 0xEC ∧ 0x80 ≤ b1 ∧ b1 ≤ 0xBF) ∨
         (first = 0xED ∧ 0x80 ≤ b1 ∧ b1 ≤ 0x9F) ∨
         (0xEE ≤ first ∧ first ≤ 0xEF ∧ 0x80 ≤ b1 ∧ b1 ≤ 0xBF) then
        match r1 with
        | [] => .bad none
        | b2 :: r2 =>
          if isCont b2 then
            .good (Char.ofNat ((first.toNat - 0xE0) * 4096 + (b1.toNat - 0x80) * 64 +
              (b2.toNat - 0x80))) r2
          else .bad (some 2)
      else .bad (some 1)
  else if 0xF0 ≤ first ∧ first ≤ 0xF4 then
    match rest with
    | [] => .bad none
    | b1 :: r1 =>
      if (first = 0xF0 ∧ 0x90 ≤ b1 ∧ b1 ≤ 0xBF) ∨
         (0xF1 ≤ first ∧ first ≤ 0xF3 ∧ 0x80 ≤ b1 ∧ b1 ≤ 0xBF) ∨
         (first = 0xF4 ∧ 0x80 ≤ b1 ∧ b1 ≤ 0x8F) then
        match r1 with
        | [] => .bad none
        | b2 :: r2 =>
          if isCont b2 then
            match r2 with
            | [] => .bad none
            | b3 :: r3 =>
              if isCont b3 then
                .good (Char.ofNat ((first.toNat - 0xF0) * 262144 + (b1.toNat - 0x80) * 4096 +
                  (b2.toNat - 0x80) * 64 + (b3.toNat - 0x80))) r3
              else .bad (some 3)
          else .bad (some 2)
      else .bad (some 1)
  else .bad (some 1)

/-- std `str::from_utf8`, keeping the part that decoded: the text of the valid prefix, the bytes
after it (`&bytes[valid_up_to..]`), and the error if any. `fuel` bounds the iterations; with
`fuel = bytes.length` every byte is processed (each step consumes at least one). -/
def fromUtf8 : Nat → List UInt8 → List Char × List UInt8 × Option (Option Nat)
  | 0, bytes => ([], bytes, none)
  | _ + 1, [] => ([], [], none)
  | fuel + 1, b :: bs =>
    match utf8Step b bs with
    | .bad e => ([], b :: bs, some e)
    | .good c rest =>
      let (v, r, e) := fromUtf8 fuel rest
      (c :: v, r, e)

section
variable [UnicodeTables]

/-- src/fallback.rs:1124-1144: the loop of `Literal::c_string`. `diverge` when out of fuel. -/
def cStringLoop : Nat → List UInt8 → Res Unit (List Char)
  | _, [] => .ok []
  | 0, _ :: _ => .diverge
  | fuel + 1, b :: bs =>
    let bytes := b :: bs
    match fromUtf8 bytes.length bytes with
    | (valid, _, none) => .ok (escapeUtf8 valid)
    | (valid, rest, some e) =>
      let n := e.getD rest.length
      match cStringLoop fuel (rest.drop n) with
      | .ok t => .ok (escapeUtf8 valid ++ (rest.take n).flatMap escapeByteHex ++ t)
      | r => r

/-- src/fallback.rs:1121-1147 `Literal::c_string`: the `repr`. `bytes` is `CStr::to_bytes`, the
bytes before the terminating NUL. -/
def litCString (bytes : List UInt8) : Res Unit (List Char) := do
  let t ← cStringLoop bytes.length bytes
  .ok (['c', '"'] ++ t ++ ['"'])

end

/-! ### Numbers (src/fallback.rs:948-1053) -/

/-- Decimal `Display` of a non-negative integer. -/
def natDec (n : Nat) : List Char := Nat.toDigits 10 n

/-- Decimal `Display` of an integer (`i8`..`i128`, `isize`; the unsigned types are the
non-negative case). -/
def intDec : Int → List Char
  | .ofNat n => natDec n
  | .negSucc n => '-' :: natDec (n + 1)

/-- src/fallback.rs:950-952 `Literal::$kind_suffixed` for an integer type: the `repr`. -/
def litIntSuffixed (n : Int) (kind : List Char) : List Char := intDec n ++ kind

/-- src/fallback.rs:958-960 `Literal::$kind_unsuffixed`: the `repr`. -/
def litIntUnsuffixed (n : Int) : List Char := intDec n

/-- src/fallback.rs:950-952 `f32_suffixed`/`f64_suffixed`: `shown` is the `Display` of the value. -/
def litFloatSuffixed (shown : List Char) (kind : List Char) : List Char := shown ++ kind

/-- src/fallback.rs:1039-1053 `f32_unsuffixed`/`f64_unsuffixed`: `shown` is the `Display` of the
value. -/
def litFloatUnsuffixed (shown : List Char) : List Char :=
  if shown.contains '.' then shown else shown ++ ['.', '0']

end PM2
