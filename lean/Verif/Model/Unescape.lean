import Verif.Model.Parse
/-!
# Values of literals (src/rustc_literal_escaper.rs; src/lib.rs:1310-1414, 1464-1477)

A `Chars` iterator is the list of remaining characters; it is returned also on errors, because the
reported ranges depend on how far it got. A callback is modelled by the list of its calls. Subtractions
of lengths panic on underflow. The digit counter of `unicode_escape` (an `i32`) is unbounded here: it
would overflow only after 2^31 digits in one escape.
-/

namespace PM2

/-- src/rustc_literal_escaper.rs:17-72 `EscapeError`. -/
inductive EscapeError where
  | zeroChars | moreThanOneChar | loneSlash | invalidEscape | bareCarriageReturn
  | bareCarriageReturnInRawString | escapeOnlyChar | tooShortHexEscape | invalidCharInHexEscape
  | outOfRangeHexEscape | noBraceInUnicodeEscape | invalidCharInUnicodeEscape | emptyUnicodeEscape
  | unclosedUnicodeEscape | leadingUnderscoreUnicodeEscape | overlongUnicodeEscape
  | loneSurrogateUnicodeEscape | outOfRangeUnicodeEscape | unicodeEscapeInByte | nonAsciiCharInByte
  | nulInCStr | unskippedWhitespaceWarning | multipleSkippedLinesWarning
deriving DecidableEq, Repr

/-- src/rustc_literal_escaper.rs:76-81 `EscapeError::is_fatal`. -/
def EscapeError.isFatal : EscapeError → Bool
  | .unskippedWhitespaceWarning => false
  | .multipleSkippedLinesWarning => false
  | _ => true

/-- `Result<U, EscapeError>`. -/
abbrev UnitRes (U : Type) := Except EscapeError U

/-- src/rustc_literal_escaper.rs:179-186 `char2byte`. -/
def char2byte (c : Char) : UnitRes UInt8 :=
  if c.toNat < 128 then .ok (UInt8.ofNat c.toNat) else .error .nonAsciiCharInByte

/-- src/rustc_literal_escaper.rs:250-265 `MixedUnit`. The payloads are not zero in Rust
(`NonZeroChar`, src/num.rs:3-17, and `NonZeroU8`); here this follows from how they are made. -/
inductive MixedUnit where
  | char (c : Char)
  | highByte (b : UInt8)
deriving DecidableEq, Repr

/-- `TryFrom<char> for MixedUnit` (src/rustc_literal_escaper.rs:285-294), with `From<NonZeroChar>` (267-272). -/
def MixedUnit.ofChar (c : Char) : UnitRes MixedUnit :=
  if c = '\x00' then .error .nulInCStr else .ok (.char c)

/-- `From<NonZeroU8> for MixedUnit` (src/rustc_literal_escaper.rs:274-283). -/
def MixedUnit.ofNonzero (b : UInt8) : MixedUnit :=
  if b < 128 then .char (Char.ofNat b.toNat) else .highByte b

/-- `TryFrom<u8> for MixedUnit` (src/rustc_literal_escaper.rs:296-305). -/
def MixedUnit.ofByte (b : UInt8) : UnitRes MixedUnit :=
  if b = 0 then .error .nulInCStr else .ok (.ofNonzero b)

/-- The required items of `trait Unescape` (src/rustc_literal_escaper.rs:308-325). -/
structure Unescape (U : Type) where
  zeroResult : UnitRes U
  nonzeroByte2unit : UInt8 → U
  char2unit : Char → UnitRes U
  hex2unit : UInt8 → UnitRes U
  unicode2unit : UnitRes Char → UnitRes U

/-- src/rustc_literal_escaper.rs:516-544 `impl Unescape for str`. -/
def unescapeStrImpl : Unescape Char where
  zeroResult := .ok '\x00'
  nonzeroByte2unit b := Char.ofNat b.toNat
  char2unit c := .ok c
  hex2unit b := if b < 128 then .ok (Char.ofNat b.toNat) else .error .outOfRangeHexEscape
  unicode2unit r := r

/-- src/rustc_literal_escaper.rs:546-570 `impl Unescape for [u8]`. -/
def unescapeByteImpl : Unescape UInt8 where
  zeroResult := .ok 0
  nonzeroByte2unit b := b
  char2unit c := char2byte c
  hex2unit b := .ok b
  unicode2unit _ := .error .unicodeEscapeInByte

/-- src/rustc_literal_escaper.rs:572-596 `impl Unescape for CStr`. -/
def unescapeCImpl : Unescape MixedUnit where
  zeroResult := .error .nulInCStr
  nonzeroByte2unit b := .ofNonzero b
  char2unit c := MixedUnit.ofChar c
  hex2unit b := MixedUnit.ofByte b
  unicode2unit r := match r with
    | .ok c => MixedUnit.ofChar c
    | .error e => .error e

/-- src/rustc_literal_escaper.rs:404-416 `simple_escape`; `none` is `Err(c)`. -/
def simpleEscape (c : Char) : Option UInt8 :=
  if c = '"' then some (B '"')
  else if c = 'n' then some (B '\n')
  else if c = 'r' then some (B '\r')
  else if c = 't' then some (B '\t')
  else if c = '\\' then some (B '\\')
  else if c = '\'' then some (B '\'')
  else none

/-- src/rustc_literal_escaper.rs:422-430 `hex_escape`. `hexVal` is `char::to_digit(16)`. -/
def hexEscape : List Char → UnitRes UInt8 × List Char
  | [] => (.error .tooShortHexEscape, [])
  | c1 :: rest =>
    match hexVal c1 with
    | none => (.error .invalidCharInHexEscape, rest)
    | some hi =>
      match rest with
      | [] => (.error .tooShortHexEscape, [])
      | c2 :: rest =>
        match hexVal c2 with
        | none => (.error .invalidCharInHexEscape, rest)
        | some lo => (.ok (UInt8.ofNat (hi * 16 + lo)), rest)

/-- src/rustc_literal_escaper.rs:453-478: the loop of `unicode_escape`. -/
def unicodeEscapeLoop : List Char → Nat → Nat → UnitRes Nat × List Char
  | [], _, _ => (.error .unclosedUnicodeEscape, [])
  | c :: rest, value, nDigits =>
    if c = '_' then unicodeEscapeLoop rest value nDigits
    else if c = '}' then
      (if nDigits > 6 then .error .overlongUnicodeEscape else .ok value, rest)
    else
      match hexVal c with
      | none => (.error .invalidCharInUnicodeEscape, rest)
      | some digit =>
        if nDigits + 1 > 6 then unicodeEscapeLoop rest value (nDigits + 1)
        else unicodeEscapeLoop rest (value * 16 + digit) (nDigits + 1)

/-- src/rustc_literal_escaper.rs:437-480 `unicode_escape`. -/
def unicodeEscape : List Char → UnitRes Nat × List Char
  | [] => (.error .noBraceInUnicodeEscape, [])
  | b :: rest =>
    if b ≠ '{' then (.error .noBraceInUnicodeEscape, rest)
    else
      match rest with
      | [] => (.error .unclosedUnicodeEscape, [])
      | c :: rest =>
        if c = '_' then (.error .leadingUnderscoreUnicodeEscape, rest)
        else if c = '}' then (.error .emptyUnicodeEscape, rest)
        else
          match hexVal c with
          | none => (.error .invalidCharInUnicodeEscape, rest)
          | some value => unicodeEscapeLoop rest value 1

/-- The value check after `unicode_escape` (src/rustc_literal_escaper.rs:352-359). -/
def unicodeChar (value : Nat) : UnitRes Char :=
  if value > 0x10FFFF then .error .outOfRangeUnicodeEscape
  else match charFromU32 value with
    | some c => .ok c
    | none => .error .loneSurrogateUnicodeEscape

section
variable {U : Type}

/-- src/rustc_literal_escaper.rs:342-363 `Unescape::unescape_1`. An error of `unicode_escape` is
returned by `?`, before `unicode2unit`. -/
def unescape1 (I : Unescape U) : List Char → UnitRes U × List Char
  | [] => (.error .loneSlash, [])
  | c :: rest =>
    if c = '0' then (I.zeroResult, rest)
    else match simpleEscape c with
      | some b => (.ok (I.nonzeroByte2unit b), rest)
      | none =>
        if c = 'x' then
          match hexEscape rest with
          | (.ok b, rest) => (I.hex2unit b, rest)
          | (.error e, rest) => (.error e, rest)
        else if c = 'u' then
          match unicodeEscape rest with
          | (.ok v, rest) => (I.unicode2unit (unicodeChar v), rest)
          | (.error e, rest) => (.error e, rest)
        else (.error .invalidEscape, rest)

/-- src/rustc_literal_escaper.rs:328-339 `Unescape::unescape_single`, with the remaining iterator
(used by `check_for_errors`). -/
def unescapeSingle (I : Unescape U) : List Char → UnitRes U × List Char
  | [] => (.error .zeroChars, [])
  | c :: rest =>
    let (res, rest) :=
      (if c = '\\' then unescape1 I rest
       else if c = '\n' ∨ c = '\t' ∨ c = '\'' then (.error .escapeOnlyChar, rest)
       else if c = '\r' then (.error .bareCarriageReturn, rest)
       else (I.char2unit c, rest) : UnitRes U × List Char)
    match res with
    | .error e => (.error e, rest)
    | .ok u =>
      match rest with
      | [] => (.ok u, [])
      | _ :: rest => (.error .moreThanOneChar, rest)

/-- One call of a callback: the byte range and the result. -/
structure Call (U : Type) where
  start : Nat
  stop : Nat
  res : UnitRes U

/-- `usize` subtraction, panicking on underflow. -/
def subUsize {ε : Type} (a b : Nat) : Res ε Nat := if b ≤ a then .ok (a - b) else .panic

/-- The bytes skipped after a backslash-newline (src/rustc_literal_escaper.rs:496). -/
def isSkipped (c : Char) : Bool := c == ' ' || c == '\t' || c == '\n' || c == '\r'

/-- src/rustc_literal_escaper.rs:488-514 `skip_ascii_whitespace`: the calls and the remaining
characters. The skipped bytes are ASCII, so the byte position is found on characters. -/
def skipAsciiWhitespace (chars : List Char) (start : Nat) : List (Call U) × List Char :=
  let space := chars.takeWhile isSkipped
  let rest := chars.dropWhile isSkipped
  let stop := start + 2 + strLen space
  let c1 : List (Call U) :=
    if space.contains '\n' then [⟨start, stop, .error .multipleSkippedLinesWarning⟩] else []
  let c2 : List (Call U) := match rest with
    | c :: _ =>
      if charIsWhitespace c then [⟨start, stop + c.utf8Size, .error .unskippedWhitespaceWarning⟩] else []
    | [] => []
  (c1 ++ c2, rest)

/-- src/rustc_literal_escaper.rs:370-397: the loop of `Unescape::unescape`; `len` is `src.len()`. -/
def unescapeLoop {ε : Type} (I : Unescape U) (len : Nat) : Nat → List Char → Res ε (List (Call U))
  | _, [] => .ok []
  | 0, _ :: _ => .diverge
  | fuel + 1, c :: chars => do
    let start ← subUsize (← subUsize len (strLen chars)) c.utf8Size
    if c = '\\' ∧ startsWithChar chars '\n' then do
      let (calls, chars) := skipAsciiWhitespace (chars.drop 1) start
      let more ← unescapeLoop I len fuel chars
      .ok (calls ++ more)
    else do
      let (res, chars) :=
        (if c = '\\' then unescape1 I chars
         else if c = '"' then (.error .escapeOnlyChar, chars)
         else if c = '\r' then (.error .bareCarriageReturn, chars)
         else (I.char2unit c, chars) : UnitRes U × List Char)
      let stop ← subUsize len (strLen chars)
      let more ← unescapeLoop I len fuel chars
      .ok (⟨start, stop, res⟩ :: more)

/-- src/rustc_literal_escaper.rs:370-397 `Unescape::unescape`: the calls of the callback. -/
def unescape {ε : Type} (I : Unescape U) (src : List Char) : Res ε (List (Call U)) :=
  unescapeLoop I (strLen src) (src.length + 1) src

/-- src/rustc_literal_escaper.rs:130-156 `CheckRaw::check_raw`, for `char2raw_unit` (122-123). -/
def checkRawLoop {ε : Type} (raw : Char → UnitRes U) (len : Nat) :
    List Char → Res ε (List (Call U))
  | [] => .ok []
  | c :: chars => do
    let start ← subUsize (← subUsize len (strLen chars)) c.utf8Size
    let res := if c = '\r' then .error .bareCarriageReturnInRawString else raw c
    let stop ← subUsize len (strLen chars)
    let more ← checkRawLoop raw len chars
    .ok (⟨start, stop, res⟩ :: more)

/-- src/rustc_literal_escaper.rs:130-156 `CheckRaw::check_raw`. -/
def checkRaw {ε : Type} (raw : Char → UnitRes U) (src : List Char) : Res ε (List (Call U)) :=
  checkRawLoop raw (strLen src) src

end

/-! ### The accessors of `Literal` -/

/-- src/lib.rs:1455-1462 `ConversionErrorKind`. -/
inductive ConversionError where
  | failedToUnescape (e : EscapeError)
  | invalidLiteralKind
deriving DecidableEq, Repr

/-- `str::ends_with(char)`. -/
def endsWithChar (s : List Char) (c : Char) : Bool := s.getLast? == some c

/-- `str::trim_end_matches(char)`. -/
def trimEndMatches (s : List Char) (c : Char) : List Char := (s.reverse.dropWhile (· == c)).reverse

/-- src/lib.rs:1466-1477 `get_raw`. -/
def getRaw {ε : Type} (repr : List Char) : Res ε (Option (List Char)) := do
  let pounds ← subUsize (strLen repr) (strLen (repr.dropWhile (· == '#')))
  if strLen repr ≥ pounds + 1 + 1 + pounds then do
    let t ← sliceFrom repr pounds
    if startsWithChar t '"' && strLen (trimEndMatches repr '#') + pounds == strLen repr then do
      let n ← subUsize (strLen repr) pounds
      let u ← sliceTo repr n
      if endsWithChar u '"' then do
        let hi ← subUsize n 1
        let v ← slice repr (pounds + 1) hi
        .ok (some v)
      else .ok none
    else .ok none
  else .ok none

section
variable {U : Type}

/-- The closure passed to the unescaper, folded over the calls (src/lib.rs:1319-1326 and the like): the
last fatal error, or the units in order. -/
def collectCalls (calls : List (Call U)) : Except EscapeError (List U) :=
  let errs := calls.filterMap (fun c => match c.res with
    | .error e => if e.isFatal then some e else none
    | .ok _ => none)
  match errs.getLast? with
  | some e => .error e
  | none => .ok (calls.filterMap (fun c => match c.res with
    | .ok u => some u
    | .error _ => none))

/-- The common shape of the three accessors: cooked literal with prefix `pre` (ending in the quote),
else raw literal with prefix `rawPre`. -/
def valueOf {V : Type} (I : Unescape U) (pre rawPre : List Char) (cooked : List U → V)
    (raw : List Char → V) (repr : List Char) : Res ConversionError V := do
  let isCooked ← (if startsWith repr pre then do
      let t ← sliceFrom repr (strLen pre)
      .ok (endsWithChar t '"')
    else .ok false : Res ConversionError Bool)
  if isCooked then do
    let hi ← subUsize (strLen repr) 1
    let quoted ← slice repr (strLen pre) hi
    let calls ← unescape I quoted
    match collectCalls calls with
    | .error e => .err (.failedToUnescape e)
    | .ok us => .ok (cooked us)
  else if startsWith repr rawPre then do
    let t ← sliceFrom repr (strLen rawPre)
    match ← getRaw t with
    | some r => .ok (raw r)
    | none => .err .invalidLiteralKind
  else .err .invalidLiteralKind

end

/-- src/lib.rs:1312-1340 `Literal::str_value`. -/
def strValue (repr : List Char) : Res ConversionError (List Char) :=
  valueOf unescapeStrImpl ['"'] ['r'] id id repr

/-- The bytes pushed for a unit of a C string (src/lib.rs:1353-1356). -/
def MixedUnit.bytes : MixedUnit → List UInt8
  | .char c => String.utf8EncodeChar c
  | .highByte b => [b]

/-- src/lib.rs:1345-1382 `Literal::cstr_value`. -/
def cstrValue (repr : List Char) : Res ConversionError (List UInt8) :=
  valueOf unescapeCImpl ['c', '"'] ['c', 'r'] (fun us => us.flatMap MixedUnit.bytes ++ [0])
    (fun r => bytesOf r ++ [0]) repr

/-- src/lib.rs:1386-1414 `Literal::byte_str_value`. -/
def byteStrValue (repr : List Char) : Res ConversionError (List UInt8) :=
  valueOf unescapeByteImpl ['b', '"'] ['b', 'r'] id bytesOf repr

/-- src/rustc_literal_escaper.rs:202-204 `unescape_char`. -/
def unescapeChar (src : List Char) : UnitRes Char := (unescapeSingle unescapeStrImpl src).1

/-- src/rustc_literal_escaper.rs:211-213 `unescape_byte`. -/
def unescapeByte (src : List Char) : UnitRes UInt8 := (unescapeSingle unescapeByteImpl src).1

/-! ### `check_for_errors` -/

/-- src/rustc_literal_escaper.rs:600-621 `Mode`. -/
inductive Mode where
  | char
  | byte
  | str
  | rawStr
  | byteStr
  | rawByteStr
  | cStr
  | rawCStr
deriving DecidableEq, Repr

/-- src/rustc_literal_escaper.rs:162-165, 171-174, 191-194 `CheckRaw::char2raw_unit`. -/
def char2rawStr (c : Char) : UnitRes Char := .ok c
@[inherit_doc char2rawStr] def char2rawByte (c : Char) : UnitRes UInt8 := char2byte c
@[inherit_doc char2rawStr] def char2rawC (c : Char) : UnitRes Char :=
  if c = '\x00' then .error .nulInCStr else .ok c

/-- The errors among the calls, with their ranges: the closures at src/rustc_literal_escaper.rs:670-699. -/
def errorCalls {U : Type} (calls : List (Call U)) : List (Nat × Nat × EscapeError) :=
  calls.filterMap (fun c => match c.res with
    | .error e => some (c.start, c.stop, e)
    | .ok _ => none)

/-- src/rustc_literal_escaper.rs:658-669: the arms for `'…'` and `b'…'`. -/
def checkSingle {U ε : Type} (I : Unescape U) (src : List Char) :
    Res ε (List (Nat × Nat × EscapeError)) :=
  match unescapeSingle I src with
  | (.error e, rest) => do
    let stop ← subUsize (strLen src) (strLen rest)
    .ok [(0, stop, e)]
  | (.ok _, _) => .ok []

/-- src/rustc_literal_escaper.rs:220-222 `unescape_str`. -/
def unescapeStr {ε : Type} (src : List Char) : Res ε (List (Call Char)) := unescape unescapeStrImpl src

/-- src/rustc_literal_escaper.rs:229-231 `unescape_byte_str`. -/
def unescapeByteStr {ε : Type} (src : List Char) : Res ε (List (Call UInt8)) :=
  unescape unescapeByteImpl src

/-- src/rustc_literal_escaper.rs:238-243 `unescape_c_str`. -/
def unescapeCStr {ε : Type} (src : List Char) : Res ε (List (Call MixedUnit)) :=
  unescape unescapeCImpl src

/-- src/rustc_literal_escaper.rs:90-92 `check_raw_str`. -/
def checkRawStr {ε : Type} (src : List Char) : Res ε (List (Call Char)) := checkRaw char2rawStr src

/-- src/rustc_literal_escaper.rs:100-102 `check_raw_byte_str`. -/
def checkRawByteStr {ε : Type} (src : List Char) : Res ε (List (Call UInt8)) := checkRaw char2rawByte src

/-- src/rustc_literal_escaper.rs:110-115 `check_raw_c_str`. -/
def checkRawCStr {ε : Type} (src : List Char) : Res ε (List (Call Char)) := checkRaw char2rawC src

/-- src/rustc_literal_escaper.rs:652-701 `check_for_errors`: the calls of the error callback. -/
def checkForErrors {ε : Type} (src : List Char) : Mode → Res ε (List (Nat × Nat × EscapeError))
  | .char => checkSingle unescapeStrImpl src
  | .byte => checkSingle unescapeByteImpl src
  | .str => do .ok (errorCalls (← unescapeStr src))
  | .byteStr => do .ok (errorCalls (← unescapeByteStr src))
  | .cStr => do .ok (errorCalls (← unescapeCStr src))
  | .rawStr => do .ok (errorCalls (← checkRawStr src))
  | .rawByteStr => do .ok (errorCalls (← checkRawByteStr src))
  | .rawCStr => do .ok (errorCalls (← checkRawCStr src))

/-- src/rustc_literal_escaper.rs:624-634 `Mode::in_double_quotes`. -/
def Mode.inDoubleQuotes : Mode → Bool
  | .str | .rawStr | .byteStr | .rawByteStr | .cStr | .rawCStr => true
  | .char | .byte => false

/-- src/rustc_literal_escaper.rs:636-642 `Mode::prefix_noraw`. -/
def Mode.prefixNoraw : Mode → List Char
  | .char | .str | .rawStr => []
  | .byte | .byteStr | .rawByteStr => ['b']
  | .cStr | .rawCStr => ['c']

end PM2
