import Verif.Model.Timed
import Verif.Model.Unescape
/-!
# The values of literals with a count of steps (src/rustc_literal_escaper.rs; src/lib.rs:1310-1414, 1464-1477)

The functions of `Verif.Model.Unescape` again, in the monad of `Verif.Model.Timed`. A step is an iteration of a loop, a
call of the callback, one byte or character that is copied, or an operation that takes constant time: the escapes
that look at no more than two characters, slicing, and tests of a prefix of at most two characters.
-/

namespace PM2.T
open Timed (tick step)

/-- src/rustc_literal_escaper.rs:453-478: the loop of `unicode_escape`. -/
def unicodeEscapeLoop {ε : Type} : List Char → Nat → Nat → Timed ε (UnitRes Nat × List Char)
  | [], _, _ => tick 1 (.ok (.error .unclosedUnicodeEscape, []))
  | c :: rest, value, nDigits => tick 1 <|
    if c = '_' then unicodeEscapeLoop rest value nDigits
    else if c = '}' then
      .ok (if nDigits > 6 then .error .overlongUnicodeEscape else .ok value, rest)
    else
      match hexVal c with
      | none => .ok (.error .invalidCharInUnicodeEscape, rest)
      | some digit =>
        if nDigits + 1 > 6 then unicodeEscapeLoop rest value (nDigits + 1)
        else unicodeEscapeLoop rest (value * 16 + digit) (nDigits + 1)

/-- src/rustc_literal_escaper.rs:437-480 `unicode_escape`. -/
def unicodeEscape {ε : Type} : List Char → Timed ε (UnitRes Nat × List Char)
  | [] => tick 1 (.ok (.error .noBraceInUnicodeEscape, []))
  | b :: rest => tick 1 <|
    if b ≠ '{' then .ok (.error .noBraceInUnicodeEscape, rest)
    else
      match rest with
      | [] => .ok (.error .unclosedUnicodeEscape, [])
      | c :: rest =>
        if c = '_' then .ok (.error .leadingUnderscoreUnicodeEscape, rest)
        else if c = '}' then .ok (.error .emptyUnicodeEscape, rest)
        else
          match hexVal c with
          | none => .ok (.error .invalidCharInUnicodeEscape, rest)
          | some value => unicodeEscapeLoop rest value 1

section
variable {U : Type}

/-- src/rustc_literal_escaper.rs:342-363 `Unescape::unescape_1`. -/
def unescape1 {ε : Type} (I : Unescape U) : List Char → Timed ε (UnitRes U × List Char)
  | [] => tick 1 (.ok (.error .loneSlash, []))
  | c :: rest => tick 1 <|
    if c = '0' then .ok (I.zeroResult, rest)
    else match simpleEscape c with
      | some b => .ok (.ok (I.nonzeroByte2unit b), rest)
      | none =>
        if c = 'x' then do
          let r ← step (.ok (PM2.hexEscape rest))
          match r with
          | (.ok b, rest) => .ok (I.hex2unit b, rest)
          | (.error e, rest) => .ok (.error e, rest)
        else if c = 'u' then do
          let r ← unicodeEscape rest
          match r with
          | (.ok v, rest) => .ok (I.unicode2unit (unicodeChar v), rest)
          | (.error e, rest) => .ok (.error e, rest)
        else .ok (.error .invalidEscape, rest)

/-- src/rustc_literal_escaper.rs:328-339 `Unescape::unescape_single`. -/
def unescapeSingle {ε : Type} (I : Unescape U) : List Char → Timed ε (UnitRes U × List Char)
  | [] => tick 1 (.ok (.error .zeroChars, []))
  | c :: rest => tick 1 do
    let (res, rest) ←
      (if c = '\\' then unescape1 I rest
       else if c = '\n' ∨ c = '\t' ∨ c = '\'' then .ok (.error .escapeOnlyChar, rest)
       else if c = '\r' then .ok (.error .bareCarriageReturn, rest)
       else .ok (I.char2unit c, rest) : Timed ε (UnitRes U × List Char))
    match res with
    | .error e => .ok (.error e, rest)
    | .ok u =>
      match rest with
      | [] => .ok (.ok u, [])
      | _ :: rest => .ok (.error .moreThanOneChar, rest)

/-- src/rustc_literal_escaper.rs:488-514 `skip_ascii_whitespace`: `position` and `contains` look at the skipped bytes. -/
def skipAsciiWhitespace {ε : Type} (chars : List Char) (start : Nat) : Timed ε (List (Call U) × List Char) :=
  let r := PM2.skipAsciiWhitespace chars start
  tick (2 * (chars.takeWhile isSkipped).length + 1 + r.1.length) (.ok r)

/-- src/rustc_literal_escaper.rs:370-397: the loop of `Unescape::unescape`. -/
def unescapeLoop {ε : Type} (I : Unescape U) (len : Nat) : Nat → List Char → Timed ε (List (Call U))
  | _, [] => tick 1 (.ok [])
  | 0, _ :: _ => .diverge
  | fuel + 1, c :: chars => tick 1 do
    let a ← ⟨subUsize len (strLen chars), 0⟩
    let start ← ⟨subUsize a c.utf8Size, 0⟩
    if c = '\\' ∧ startsWithChar chars '\n' then do
      let (calls, chars) ← skipAsciiWhitespace (chars.drop 1) start
      let more ← unescapeLoop I len fuel chars
      .ok (calls ++ more)
    else do
      let (res, chars) ←
        (if c = '\\' then unescape1 I chars
         else if c = '"' then .ok (.error .escapeOnlyChar, chars)
         else if c = '\r' then .ok (.error .bareCarriageReturn, chars)
         else .ok (I.char2unit c, chars) : Timed ε (UnitRes U × List Char))
      let stop ← step (subUsize len (strLen chars))
      let more ← unescapeLoop I len fuel chars
      .ok (⟨start, stop, res⟩ :: more)

/-- src/rustc_literal_escaper.rs:370-397 `Unescape::unescape`. -/
def unescape {ε : Type} (I : Unescape U) (src : List Char) : Timed ε (List (Call U)) :=
  unescapeLoop I (strLen src) (src.length + 1) src

/-- src/rustc_literal_escaper.rs:130-156 `CheckRaw::check_raw`. -/
def checkRawLoop {ε : Type} (raw : Char → UnitRes U) (len : Nat) : List Char → Timed ε (List (Call U))
  | [] => tick 1 (.ok [])
  | c :: chars => tick 1 do
    let a ← ⟨subUsize len (strLen chars), 0⟩
    let start ← ⟨subUsize a c.utf8Size, 0⟩
    let res := if c = '\r' then .error .bareCarriageReturnInRawString else raw c
    let stop ← step (subUsize len (strLen chars))
    let more ← checkRawLoop raw len chars
    .ok (⟨start, stop, res⟩ :: more)

/-- src/rustc_literal_escaper.rs:130-156 `CheckRaw::check_raw`. -/
def checkRaw {ε : Type} (raw : Char → UnitRes U) (src : List Char) : Timed ε (List (Call U)) :=
  checkRawLoop raw (strLen src) src

/-- src/rustc_literal_escaper.rs:658-669: the arms for `'…'` and `b'…'`, with the callback. -/
def checkSingle {ε : Type} (I : Unescape U) (src : List Char) : Timed ε (List (Nat × Nat × EscapeError)) := do
  let r ← unescapeSingle I src
  match r with
  | (.error e, rest) => do
    let stop ← step (subUsize (strLen src) (strLen rest))
    .ok [(0, stop, e)]
  | (.ok _, _) => .ok []

end

/-- src/rustc_literal_escaper.rs:652-701 `check_for_errors`. -/
def checkForErrors {ε : Type} (src : List Char) : Mode → Timed ε (List (Nat × Nat × EscapeError))
  | .char => checkSingle unescapeStrImpl src
  | .byte => checkSingle unescapeByteImpl src
  | .str => do .ok (errorCalls (← unescape unescapeStrImpl src))
  | .byteStr => do .ok (errorCalls (← unescape unescapeByteImpl src))
  | .cStr => do .ok (errorCalls (← unescape unescapeCImpl src))
  | .rawStr => do .ok (errorCalls (← checkRaw char2rawStr src))
  | .rawByteStr => do .ok (errorCalls (← checkRaw char2rawByte src))
  | .rawCStr => do .ok (errorCalls (← checkRaw char2rawC src))

/-- src/lib.rs:1466-1477 `get_raw`: `trim_start_matches` and `trim_end_matches` look at the characters that they trim
and at one more. -/
def getRaw {ε : Type} (repr : List Char) : Timed ε (Option (List Char)) := tick 1 do
  let pounds ← (tick ((repr.takeWhile (· == '#')).length + 1)
    ⟨subUsize (strLen repr) (strLen (repr.dropWhile (· == '#'))), 0⟩ : Timed ε Nat)
  if strLen repr ≥ pounds + 1 + 1 + pounds then do
    let t ← step (sliceFrom repr pounds)
    if startsWithChar t '"' then
      tick ((repr.reverse.takeWhile (· == '#')).length + 1) <|
      if strLen (trimEndMatches repr '#') + pounds == strLen repr then do
        let n ← step (subUsize (strLen repr) pounds)
        let u ← step (sliceTo repr n)
        if endsWithChar u '"' then do
          let hi ← step (subUsize n 1)
          let v ← step (slice repr (pounds + 1) hi)
          .ok (some v)
        else .ok none
      else .ok none
    else .ok none
  else .ok none

/-- The accessors (src/lib.rs:1312-1414): `to_string` and `to_owned` copy the bytes; a unit is pushed in the callback. -/
def valueOf {U V : Type} (I : Unescape U) (pre rawPre : List Char) (cooked : List U → V)
    (raw : List Char → V) (repr : List Char) : Timed ConversionError V := tick (strLen repr + 2) do
  let isCooked ← (if startsWith repr pre then do
      let t ← step (sliceFrom repr (strLen pre))
      .ok (endsWithChar t '"')
    else .ok false : Timed ConversionError Bool)
  if isCooked then do
    let hi ← step (subUsize (strLen repr) 1)
    let quoted ← step (slice repr (strLen pre) hi)
    let calls ← unescape I quoted
    match collectCalls calls with
    | .error e => .err (.failedToUnescape e)
    | .ok us => .ok (cooked us)
  else if startsWith repr rawPre then do
    let t ← step (sliceFrom repr (strLen rawPre))
    match ← getRaw t with
    | some r => tick (strLen r) (.ok (raw r))
    | none => .err .invalidLiteralKind
  else .err .invalidLiteralKind

/-- src/lib.rs:1312-1340 `Literal::str_value`. -/
def strValue (repr : List Char) : Timed ConversionError (List Char) :=
  valueOf unescapeStrImpl ['"'] ['r'] id id repr

/-- src/lib.rs:1345-1382 `Literal::cstr_value`; the last byte is pushed in one of the two steps of `valueOf`. -/
def cstrValue (repr : List Char) : Timed ConversionError (List UInt8) :=
  valueOf unescapeCImpl ['c', '"'] ['c', 'r'] (fun us => us.flatMap MixedUnit.bytes ++ [0])
    (fun r => bytesOf r ++ [0]) repr

/-- src/lib.rs:1386-1414 `Literal::byte_str_value`. -/
def byteStrValue (repr : List Char) : Timed ConversionError (List UInt8) :=
  valueOf unescapeByteImpl ['b', '"'] ['b', 'r'] id bytesOf repr

end PM2.T
