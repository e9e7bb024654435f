import Verif.Model.LitCtor
/-!
# The lexer (src/parse.rs), transcribed function by function

Iterators are (byte index, remaining items) pairs; slicing and `Cursor::advance` panic where Rust
would. The methods of `Cursor` that only look at `rest` (src/parse.rs:29-66 `starts_with`,
`starts_with_char`, `starts_with_fn`, `is_empty`, `len`, `as_bytes`, `bytes`, `chars`, `char_indices`) are
functions of the list. Loops whose iteration count is not bounded by an iterator take fuel and return `diverge`
when it runs out.
-/

namespace PM2

/-- What the configuration `span_locations` decides in the lexer: positions are `u32` numbers (type `Nat`
here) or absent (type `Unit`). -/
class Pos (ο : Type) where
  /-- src/parse.rs:24-25: the field `off` of `Cursor::advance`, past the given number of characters. -/
  add {ε : Type} : ο → Nat → Res ε ο
  /-- The spans that the lexer constructs (src/parse.rs:190, 194, 227-232, 240-245, 256-261, 912-917). -/
  span : ο → ο → Span

/-- With `span_locations`. -/
instance : Pos Nat := ⟨fun off n => addU32 off (asU32 n), fun lo hi => ⟨lo, hi⟩⟩

/-- Without `span_locations`: a `Span` has no fields (src/fallback.rs:519-525). Its only value is
represented by `Span.callSite`. -/
instance : Pos Unit := ⟨fun _ _ => .ok (), fun _ _ => Span.callSite⟩

/-- src/parse.rs:12-17 `Cursor`. -/
structure Cursor (ο : Type) where
  rest : List Char
  off : ο
deriving Repr, DecidableEq

variable {ο : Type} [Pos ο]

/-- src/parse.rs:77-78 `Result<O, Reject>`. -/
abbrev PRes (α : Type) := Res Unit α

/-- `Err(Reject)`. -/
abbrev reject {α : Type} : PRes α := .err ()

/-- src/parse.rs:20-27 `Cursor::advance`. -/
def advance {ε : Type} (c : Cursor ο) (bytes : Nat) : Res ε (Cursor ο) :=
  match splitAtByte c.rest bytes with
  | none => .panic
  | some (front, rest) => do
    let off ← Pos.add c.off front.length
    .ok ⟨rest, off⟩

/-- src/parse.rs:68-74 `Cursor::parse`. -/
def Cursor.parse (c : Cursor ο) (tag : List Char) : PRes (Cursor ο) :=
  if startsWith c.rest tag then advance c (strLen tag) else reject

/-- src/parse.rs:982-988: the loop of `take_until_newline_or_eof`; `i` is the byte index of the
next char. -/
def takeUntilLoop {ε : Type} (input : Cursor ο) : List Char → Nat → Res ε (Cursor ο × List Char)
  | [], _ => do
    let c ← advance input (strLen input.rest)
    .ok (c, input.rest)
  | ch :: chars, i =>
    if ch = '\n' then do
      let c ← advance input i
      let s ← sliceTo input.rest i
      .ok (c, s)
    else if ch = '\r' then do
      let t ← sliceFrom input.rest (i + 1)
      if startsWithChar t '\n' then do
        let c ← advance input (i + 1)
        let s ← sliceTo input.rest i
        .ok (c, s)
      else takeUntilLoop input chars (i + 1)
    else takeUntilLoop input chars (i + ch.utf8Size)

/-- src/parse.rs:979-991 `take_until_newline_or_eof`. -/
def takeUntilNewlineOrEof {ε : Type} (input : Cursor ο) : Res ε (Cursor ο × List Char) :=
  takeUntilLoop input input.rest 0

/-- src/parse.rs:138-152: the loop of `block_comment`, over the remaining bytes from index `i`.
`while i < upper` with `upper = len - 1` means: at least two bytes remain. -/
def blockCommentLoop (input : Cursor ο) : List UInt8 → Nat → Nat → PRes (Cursor ο × List Char)
  | b0 :: b1 :: bs, i, depth =>
    if b0 = B '/' ∧ b1 = B '*' then blockCommentLoop input bs (i + 2) (depth + 1)
    else if b0 = B '*' ∧ b1 = B '/' then
      if depth = 0 then .panic -- `depth -= 1` underflows
      else if depth - 1 = 0 then do
        let c ← advance input (i + 2)
        let s ← sliceTo input.rest (i + 2)
        .ok (c, s)
      else blockCommentLoop input bs (i + 2) (depth - 1)
    else blockCommentLoop input (b1 :: bs) (i + 1) depth
  | _, _, _ => reject

/-- src/parse.rs:128-153 `block_comment`. -/
def blockComment (input : Cursor ο) : PRes (Cursor ο × List Char) :=
  if !startsWith input.rest ['/', '*'] then reject
  else blockCommentLoop input (bytesOf input.rest) 0 0

/-- src/parse.rs:83-125: the loop of `skip_whitespace`. -/
def skipWsLoop {ε : Type} : Nat → Cursor ο → Res ε (Cursor ο)
  | 0, _ => .diverge
  | fuel + 1, s =>
    match s.rest with
    | [] => .ok s
    | ch :: _ =>
      let byte := (bytesOf s.rest).headD 0
      -- lines 109-123
      let other : Unit → Res ε (Cursor ο) := fun _ =>
        if byte = B ' ' ∨ (0x09 ≤ byte ∧ byte ≤ 0x0d) then do
          let s ← advance s 1
          skipWsLoop fuel s
        else if byte < 128 then .ok s
        else if isWhitespace ch then do
          let s ← advance s ch.utf8Size
          skipWsLoop fuel s
        else .ok s
      if byte = B '/' then
        if startsWith s.rest ['/', '/'] && (!startsWith s.rest ['/', '/', '/'] ||
            startsWith s.rest ['/', '/', '/', '/']) && !startsWith s.rest ['/', '/', '!'] then do
          let (cursor, _) ← takeUntilNewlineOrEof s
          skipWsLoop fuel cursor
        else if startsWith s.rest ['/', '*', '*', '/'] then do
          let s ← advance s 4
          skipWsLoop fuel s
        else if startsWith s.rest ['/', '*'] && (!startsWith s.rest ['/', '*', '*'] ||
            startsWith s.rest ['/', '*', '*', '*']) && !startsWith s.rest ['/', '*', '!'] then
          (blockComment s).ifOk (fun (rest, _) => skipWsLoop fuel rest) (fun _ => .ok s)
        else other ()
      else other ()

/-- src/parse.rs:80-126 `skip_whitespace`. -/
def skipWhitespace {ε : Type} (input : Cursor ο) : Res ε (Cursor ο) :=
  skipWsLoop (input.rest.length + 1) input

/-- src/parse.rs:169 `ERROR`. -/
def errorRepr : List Char := ['(', '/', '*', 'E', 'R', 'R', 'O', 'R', '*', '/', ')']

/-- The five identifiers that cannot be raw (src/parse.rs:308, src/fallback.rs:883). -/
def isNonRawable (sym : List Char) : Bool :=
  sym == ['_'] || sym == ['s', 'u', 'p', 'e', 'r'] || sym == ['s', 'e', 'l', 'f'] ||
  sym == ['S', 'e', 'l', 'f'] || sym == ['c', 'r', 'a', 't', 'e']

section
variable [UnicodeTables]

/-- src/parse.rs:160-165 `word_break`. -/
def wordBreak (input : Cursor ο) : PRes (Cursor ο) :=
  match input.rest with
  | ch :: _ => if isIdentContinue ch then reject else .ok input
  | [] => .ok input

/-- src/parse.rs:325-331: the loop of `ident_not_raw`, computing `end`. -/
def identEnd (len : Nat) : List Char → Nat → Nat
  | [], _ => len
  | ch :: chars, i => if !isIdentContinue ch then i else identEnd len chars (i + ch.utf8Size)

/-- src/parse.rs:317-334 `ident_not_raw`. -/
def identNotRaw (input : Cursor ο) : PRes (Cursor ο × List Char) :=
  match input.rest with
  | [] => reject
  | ch :: chars =>
    if isIdentStart ch then do
      let e := identEnd (strLen input.rest) chars ch.utf8Size
      let c ← advance input e
      let s ← sliceTo input.rest e
      .ok (c, s)
    else reject

/-- src/parse.rs:295-315 `ident_any`. -/
def identAny (input : Cursor ο) : PRes (Cursor ο × TokenTree) := do
  let raw := startsWith input.rest ['r', '#']
  let rest ← advance input (if raw then 2 else 0)
  let (rest, sym) ← identNotRaw rest
  if !raw then .ok (rest, identNewUnchecked sym Span.callSite)
  else if isNonRawable sym then reject
  else .ok (rest, identNewRawUnchecked sym Span.callSite)

/-- src/parse.rs:283-285: prefixes rejected by `ident`. -/
def identRejectPrefixes : List (List Char) :=
  [['r', '"'], ['r', '#', '"'], ['r', '#', '#'], ['b', '"'], ['b', '\''], ['b', 'r', '"'],
   ['b', 'r', '#'], ['c', '"'], ['c', 'r', '"'], ['c', 'r', '#']]

/-- src/parse.rs:282-293 `ident`. -/
def ident (input : Cursor ο) : PRes (Cursor ο × TokenTree) :=
  if identRejectPrefixes.any (startsWith input.rest) then reject else identAny input

/-- src/parse.rs:362-367 `literal_suffix`. -/
def literalSuffix (input : Cursor ο) : PRes (Cursor ο) :=
  (identNotRaw input).ifOk (fun (c, _) => .ok c) (fun _ => .ok input)

end

/-! ### Escapes -/

/-- `'0'..='9' | 'a'..='f' | 'A'..='F'`. -/
def isHexChar (c : Char) : Bool :=
  ('0' ≤ c && c ≤ '9') || ('a' ≤ c && c ≤ 'f') || ('A' ≤ c && c ≤ 'F')

/-- `b'0'..=b'9' | b'a'..=b'f' | b'A'..=b'F'`. -/
def isHexByte (b : UInt8) : Bool :=
  (B '0' ≤ b && b ≤ B '9') || (B 'a' ≤ b && b ≤ B 'f') || (B 'A' ≤ b && b ≤ B 'F')

/-- src/parse.rs:634-641 `backslash_x_char`; `next_ch!` is 622-632. Returns the advanced
iterator. -/
def backslashXChar : List Char → Nat → PRes (List Char × Nat)
  | c1 :: rest, i =>
    if '0' ≤ c1 ∧ c1 ≤ '7' then
      match rest with
      | c2 :: rest =>
        if isHexChar c2 then .ok (rest, i + c1.utf8Size + c2.utf8Size) else reject
      | [] => reject
    else reject
  | [], _ => reject

/-- src/parse.rs:643-650 `backslash_x_byte`. -/
def backslashXByte : List UInt8 → Nat → PRes (List UInt8 × Nat)
  | b1 :: rest, i =>
    if isHexByte b1 then
      match rest with
      | b2 :: rest => if isHexByte b2 then .ok (rest, i + 2) else reject
      | [] => reject
    else reject
  | [], _ => reject

/-- src/parse.rs:652-663 `backslash_x_nonzero`. -/
def backslashXNonzero : List Char → Nat → PRes (List Char × Nat)
  | c1 :: rest, i =>
    if isHexChar c1 then
      match rest with
      | c2 :: rest =>
        if isHexChar c2 then
          if c1 = '0' ∧ c2 = '0' then reject
          else .ok (rest, i + c1.utf8Size + c2.utf8Size)
        else reject
      | [] => reject
    else reject
  | [], _ => reject

/-- Value of a hex digit (src/parse.rs:674-676); `none` for other characters. -/
def hexVal (c : Char) : Option Nat :=
  if '0' ≤ c ∧ c ≤ '9' then some (c.toNat - 48)
  else if 'a' ≤ c ∧ c ≤ 'f' then some (10 + c.toNat - 97)
  else if 'A' ≤ c ∧ c ≤ 'F' then some (10 + c.toNat - 65)
  else none

/-- src/parse.rs:672-688: the loop of `backslash_u`. -/
def backslashULoop : List Char → Nat → Nat → Nat → PRes (Char × List Char × Nat)
  | [], _, _, _ => reject
  | ch :: chars, i, value, len =>
    match hexVal ch with
    | some digit =>
      if len = 6 then reject
      else backslashULoop chars (i + ch.utf8Size) (value * 16 + digit) (len + 1)
    | none =>
      if ch = '_' ∧ len > 0 then backslashULoop chars (i + ch.utf8Size) value len
      else if ch = '}' ∧ len > 0 then
        match charFromU32 value with
        | some c => .ok (c, chars, i + ch.utf8Size)
        | none => reject
      else reject

/-- src/parse.rs:665-689 `backslash_u`. -/
def backslashU : List Char → Nat → PRes (Char × List Char × Nat)
  | ch :: chars, i => if ch = '{' then backslashULoop chars (i + ch.utf8Size) 0 0 else reject
  | [], _ => reject

/-- src/parse.rs:693-707: the loop of `trailing_backslash` over the remaining bytes from index `i`.
The result replaces `*input`. -/
def trailingBackslashLoop (input : Cursor ο) : List UInt8 → Nat → UInt8 → PRes (Cursor ο)
  | bytes, i, last =>
    if last = B '\r' then
      match bytes with
      | b :: bytes' =>
        if b = B '\n' then
          match bytes' with
          | b' :: rest =>
            if b' = B ' ' ∨ b' = B '\t' ∨ b' = B '\n' ∨ b' = B '\r' then
              trailingBackslashLoop input rest (i + 2) b'
            else advance input (i + 1)
          | [] => reject
        else reject
      | [] => reject
    else
      match bytes with
      | b' :: rest =>
        if b' = B ' ' ∨ b' = B '\t' ∨ b' = B '\n' ∨ b' = B '\r' then
          trailingBackslashLoop input rest (i + 1) b'
        else advance input i
      | [] => reject

/-- src/parse.rs:691-708 `trailing_backslash`. -/
def trailingBackslash (input : Cursor ο) (last : UInt8) : PRes (Cursor ο) :=
  trailingBackslashLoop input (bytesOf input.rest) 0 last

/-! ### String-like literals -/

section
variable [UnicodeTables]

/-- src/parse.rs:382-410: the loop of `cooked_string`; `chars`, `i` are the state of the iterator
over `input`. -/
def cookedStringLoop : Nat → Cursor ο → List Char → Nat → PRes (Cursor ο)
  | 0, _, _, _ => .diverge
  | _ + 1, _, [], _ => reject
  | fuel + 1, input, ch :: chars, i =>
    if ch = '"' then do
      let input ← advance input (i + 1)
      literalSuffix input
    else if ch = '\r' then
      match chars with
      | c2 :: chars => if c2 = '\n' then cookedStringLoop fuel input chars (i + 2) else reject
      | [] => reject
    else if ch = '\\' then
      match chars with
      | c2 :: chars =>
        if c2 = 'x' then do
          let (chars, i) ← backslashXChar chars (i + 2)
          cookedStringLoop fuel input chars i
        else if c2 = 'n' ∨ c2 = 'r' ∨ c2 = 't' ∨ c2 = '\\' ∨ c2 = '\'' ∨ c2 = '"' ∨ c2 = '0' then
          cookedStringLoop fuel input chars (i + 2)
        else if c2 = 'u' then do
          let (_, chars, i) ← backslashU chars (i + 2)
          cookedStringLoop fuel input chars i
        else if c2 = '\n' ∨ c2 = '\r' then do
          let input ← advance input (i + 1 + 1)
          let input ← trailingBackslash input (B c2)
          cookedStringLoop fuel input input.rest 0
        else reject
      | [] => reject
    else cookedStringLoop fuel input chars (i + ch.utf8Size)

/-- src/parse.rs:379-411 `cooked_string`. -/
def cookedString (input : Cursor ο) : PRes (Cursor ο) :=
  cookedStringLoop (input.rest.length + 1) input input.rest 0

/-- src/parse.rs:474-487: the loop of `delimiter_of_raw_string`. -/
def delimiterLoop (input : Cursor ο) : List UInt8 → Nat → PRes (Cursor ο × List Char)
  | [], _ => reject
  | b :: bytes, i =>
    if b = B '"' then
      if i > 255 then reject
      else do
        let c ← advance input (i + 1)
        let s ← sliceTo input.rest i
        .ok (c, s)
    else if b = B '#' then delimiterLoop input bytes (i + 1)
    else reject

/-- src/parse.rs:473-488 `delimiter_of_raw_string`. -/
def delimiterOfRawString (input : Cursor ο) : PRes (Cursor ο × List Char) :=
  delimiterLoop input (bytesOf input.rest) 0

/-- src/parse.rs:416-429: the loop of `raw_string`. -/
def rawStringLoop (input : Cursor ο) (delimiter : List Char) : List UInt8 → Nat → PRes (Cursor ο)
  | [], _ => reject
  | b :: bytes, i =>
    if b = B '"' then do
      let t ← sliceFrom input.rest (i + 1)
      if startsWith t delimiter then do
        let rest ← advance input (i + 1 + strLen delimiter)
        literalSuffix rest
      else rawStringLoop input delimiter bytes (i + 1)
    else if b = B '\r' then
      match bytes with
      | b2 :: bytes => if b2 = B '\n' then rawStringLoop input delimiter bytes (i + 2) else reject
      | [] => reject
    else rawStringLoop input delimiter bytes (i + 1)

/-- src/parse.rs:413-430 `raw_string`. -/
def rawString (input : Cursor ο) : PRes (Cursor ο) := do
  let (input, delimiter) ← delimiterOfRawString input
  rawStringLoop input delimiter (bytesOf input.rest) 0

/-- src/parse.rs:369-377 `string`. -/
def string (input : Cursor ο) : PRes (Cursor ο) :=
  (input.parse ['"']).ifOk (fun input => cookedString input) fun _ =>
  (input.parse ['r']).ifOk (fun input => rawString input) fun _ => reject

/-- src/parse.rs:444-470: the loop of `cooked_byte_string`. -/
def cookedByteStringLoop : Nat → Cursor ο → List UInt8 → Nat → PRes (Cursor ο)
  | 0, _, _, _ => .diverge
  | _ + 1, _, [], _ => reject
  | fuel + 1, input, b :: bytes, offset =>
    if b = B '"' then do
      let input ← advance input (offset + 1)
      literalSuffix input
    else if b = B '\r' then
      match bytes with
      | b2 :: bytes =>
        if b2 = B '\n' then cookedByteStringLoop fuel input bytes (offset + 2) else reject
      | [] => reject
    else if b = B '\\' then
      match bytes with
      | b2 :: bytes =>
        if b2 = B 'x' then do
          let (bytes, offset) ← backslashXByte bytes (offset + 2)
          cookedByteStringLoop fuel input bytes offset
        else if b2 = B 'n' ∨ b2 = B 'r' ∨ b2 = B 't' ∨ b2 = B '\\' ∨ b2 = B '0' ∨ b2 = B '\'' ∨
            b2 = B '"' then
          cookedByteStringLoop fuel input bytes (offset + 2)
        else if b2 = B '\n' ∨ b2 = B '\r' then do
          let input ← advance input (offset + 1 + 1)
          let input ← trailingBackslash input b2
          cookedByteStringLoop fuel input (bytesOf input.rest) 0
        else reject
      | [] => reject
    else if b < 128 then cookedByteStringLoop fuel input bytes (offset + 1)
    else reject

/-- src/parse.rs:442-471 `cooked_byte_string`. -/
def cookedByteString (input : Cursor ο) : PRes (Cursor ο) :=
  cookedByteStringLoop ((bytesOf input.rest).length + 1) input (bytesOf input.rest) 0

/-- src/parse.rs:493-510: the loop of `raw_byte_string`. -/
def rawByteStringLoop (input : Cursor ο) (delimiter : List Char) : List UInt8 → Nat → PRes (Cursor ο)
  | [], _ => reject
  | b :: bytes, i =>
    if b = B '"' then do
      let t ← sliceFrom input.rest (i + 1)
      if startsWith t delimiter then do
        let rest ← advance input (i + 1 + strLen delimiter)
        literalSuffix rest
      else rawByteStringLoop input delimiter bytes (i + 1)
    else if b = B '\r' then
      match bytes with
      | b2 :: bytes =>
        if b2 = B '\n' then rawByteStringLoop input delimiter bytes (i + 2) else reject
      | [] => reject
    else if b < 128 then rawByteStringLoop input delimiter bytes (i + 1)
    else reject

/-- src/parse.rs:490-511 `raw_byte_string`. -/
def rawByteString (input : Cursor ο) : PRes (Cursor ο) := do
  let (input, delimiter) ← delimiterOfRawString input
  rawByteStringLoop input delimiter (bytesOf input.rest) 0

/-- src/parse.rs:432-440 `byte_string`. -/
def byteString (input : Cursor ο) : PRes (Cursor ο) :=
  (input.parse ['b', '"']).ifOk (fun input => cookedByteString input) fun _ =>
  (input.parse ['b', 'r']).ifOk (fun input => rawByteString input) fun _ => reject

/-- src/parse.rs:526-540: the loop of `raw_c_string`. -/
def rawCStringLoop (input : Cursor ο) (delimiter : List Char) : List UInt8 → Nat → PRes (Cursor ο)
  | [], _ => reject
  | b :: bytes, i =>
    if b = B '"' then do
      let t ← sliceFrom input.rest (i + 1)
      if startsWith t delimiter then do
        let rest ← advance input (i + 1 + strLen delimiter)
        literalSuffix rest
      else rawCStringLoop input delimiter bytes (i + 1)
    else if b = B '\r' then
      match bytes with
      | b2 :: bytes => if b2 = B '\n' then rawCStringLoop input delimiter bytes (i + 2) else reject
      | [] => reject
    else if b = B '\x00' then reject
    else rawCStringLoop input delimiter bytes (i + 1)

/-- src/parse.rs:523-541 `raw_c_string`. -/
def rawCString (input : Cursor ο) : PRes (Cursor ο) := do
  let (input, delimiter) ← delimiterOfRawString input
  rawCStringLoop input delimiter (bytesOf input.rest) 0

/-- src/parse.rs:546-577: the loop of `cooked_c_string`. -/
def cookedCStringLoop : Nat → Cursor ο → List Char → Nat → PRes (Cursor ο)
  | 0, _, _, _ => .diverge
  | _ + 1, _, [], _ => reject
  | fuel + 1, input, ch :: chars, i =>
    if ch = '"' then do
      let input ← advance input (i + 1)
      literalSuffix input
    else if ch = '\r' then
      match chars with
      | c2 :: chars => if c2 = '\n' then cookedCStringLoop fuel input chars (i + 2) else reject
      | [] => reject
    else if ch = '\\' then
      match chars with
      | c2 :: chars =>
        if c2 = 'x' then do
          let (chars, i) ← backslashXNonzero chars (i + 2)
          cookedCStringLoop fuel input chars i
        else if c2 = 'n' ∨ c2 = 'r' ∨ c2 = 't' ∨ c2 = '\\' ∨ c2 = '\'' ∨ c2 = '"' then
          cookedCStringLoop fuel input chars (i + 2)
        else if c2 = 'u' then do
          let (c, chars, i) ← backslashU chars (i + 2)
          if c = '\x00' then reject else cookedCStringLoop fuel input chars i
        else if c2 = '\n' ∨ c2 = '\r' then do
          let input ← advance input (i + 1 + 1)
          let input ← trailingBackslash input (B c2)
          cookedCStringLoop fuel input input.rest 0
        else reject
      | [] => reject
    else if ch = '\x00' then reject
    else cookedCStringLoop fuel input chars (i + ch.utf8Size)

/-- src/parse.rs:543-578 `cooked_c_string`. -/
def cookedCString (input : Cursor ο) : PRes (Cursor ο) :=
  cookedCStringLoop (input.rest.length + 1) input input.rest 0

/-- src/parse.rs:513-521 `c_string`. -/
def cString (input : Cursor ο) : PRes (Cursor ο) :=
  (input.parse ['c', '"']).ifOk (fun input => cookedCString input) fun _ =>
  (input.parse ['c', 'r']).ifOk (fun input => rawCString input) fun _ => reject

/-- src/parse.rs:583-590: the first element of a byte literal. Returns the iterator state, or
`none` when `ok` is false. -/
def byteElem : List UInt8 → PRes (Option (List UInt8 × Nat))
  | b :: bytes =>
    if b = B '\\' then
      match bytes with
      | b2 :: bytes =>
        if b2 = B 'x' then
          (backslashXByte bytes 2).ifOk (fun r => .ok (some r)) (fun _ => .ok none)
        else if b2 = B 'n' ∨ b2 = B 'r' ∨ b2 = B 't' ∨ b2 = B '\\' ∨ b2 = B '0' ∨ b2 = B '\'' ∨
            b2 = B '"' then .ok (some (bytes, 2))
        else .ok none
      | [] => .ok none
    else .ok (some (bytes, 1))
  | [] => .ok none

/-- src/parse.rs:580-600 `byte`. -/
def byte (input : Cursor ο) : PRes (Cursor ο) := do
  let input ← input.parse ['b', '\'']
  match ← byteElem (bytesOf input.rest) with
  | none => reject
  | some (bytes, offset) =>
    match bytes with
    | [] => reject
    | _ :: _ =>
      if !isCharBoundary input.rest offset then reject
      else do
        let c ← advance input offset
        let input ← c.parse ['\'']
        literalSuffix input

/-- src/parse.rs:605-613: the first element of a character literal. -/
def charElem : List Char → PRes (Option (List Char × Nat))
  | ch :: chars =>
    if ch = '\\' then
      match chars with
      | c2 :: chars =>
        if c2 = 'x' then
          (backslashXChar chars 2).ifOk (fun r => .ok (some r)) (fun _ => .ok none)
        else if c2 = 'u' then
          (backslashU chars 2).ifOk (fun (_, r) => .ok (some r)) (fun _ => .ok none)
        else if c2 = 'n' ∨ c2 = 'r' ∨ c2 = 't' ∨ c2 = '\\' ∨ c2 = '0' ∨ c2 = '\'' ∨ c2 = '"' then
          .ok (some (chars, 2))
        else .ok none
      | [] => .ok none
    else .ok (some (chars, ch.utf8Size))
  | [] => .ok none

/-- src/parse.rs:602-620 `character`. -/
def character (input : Cursor ο) : PRes (Cursor ο) := do
  let input ← input.parse ['\'']
  match ← charElem input.rest with
  | none => reject
  | some (chars, idx) =>
    match chars with
    | [] => reject
    | _ :: _ => do
      let c ← advance input idx
      let input ← c.parse ['\'']
      literalSuffix input

/-! ### Numbers -/

/-- `'0'..='9'`. -/
def isDecDigit (c : Char) : Bool := '0' ≤ c && c ≤ '9'

/-- src/parse.rs:727-758: the mantissa loop of `float_digits`; result `(chars, len, has_dot,
has_exp)`. -/
def floatMantissa : List Char → Nat → Bool → PRes (List Char × Nat × Bool × Bool)
  | [], len, hasDot => .ok ([], len, hasDot, false)
  | ch :: chars, len, hasDot =>
    if isDecDigit ch || ch == '_' then floatMantissa chars (len + 1) hasDot
    else if ch = '.' then
      if hasDot then .ok (ch :: chars, len, hasDot, false)
      else
        match chars with
        | next :: _ =>
          if next = '.' || isIdentStart next then reject
          else floatMantissa chars (len + 1) true
        | [] => floatMantissa chars (len + 1) true
    else if ch = 'e' ∨ ch = 'E' then .ok (chars, len + 1, hasDot, true)
    else .ok (ch :: chars, len, hasDot, false)

/-- src/parse.rs:770-799: the exponent loop of `float_digits`. `none`: `return token_before_exp`. -/
def floatExponent : List Char → Nat → Bool → Bool → Option Nat
  | [], len, _, hasValue => if hasValue then some len else none
  | ch :: chars, len, hasSign, hasValue =>
    if ch = '+' ∨ ch = '-' then
      if hasValue then some len
      else if hasSign then none
      else floatExponent chars (len + 1) true hasValue
    else if isDecDigit ch then floatExponent chars (len + 1) hasSign true
    else if ch = '_' then floatExponent chars (len + 1) hasSign hasValue
    else if hasValue then some len else none

/-- src/parse.rs:720-803 `float_digits`. -/
def floatDigits (input : Cursor ο) : PRes (Cursor ο) :=
  match input.rest with
  | [] => reject
  | ch :: chars =>
    if !isDecDigit ch then reject
    else do
      let (chars, len, hasDot, hasExp) ← floatMantissa chars 1 false
      if !(hasDot || hasExp) then reject
      else if hasExp then
        -- `token_before_exp` (765-769) is evaluated eagerly
        let cont (before : PRes (Cursor ο)) : PRes (Cursor ο) :=
          match floatExponent chars len false false with
          | none => before
          | some len => advance input len
        if hasDot then do
          let before ← advance input (len - 1)
          cont (.ok before)
        else cont reject
      else advance input len

/-- src/parse.rs:710-718 `float`. -/
def float (input : Cursor ο) : PRes (Cursor ο) := do
  let rest ← floatDigits input
  match rest.rest with
  | ch :: _ =>
    if isIdentStart ch then do
      let (rest, _) ← identNotRaw rest
      wordBreak rest
    else wordBreak rest
  | [] => wordBreak rest

/-- src/parse.rs:829-867: the loop of `digits`; `none`: `return Err(Reject)` inside the loop. -/
def digitsLoop (base : Nat) : List UInt8 → Nat → Bool → Option (Nat × Bool)
  | [], len, empty => some (len, empty)
  | b :: bytes, len, empty =>
    if B '0' ≤ b ∧ b ≤ B '9' then
      if b.toNat - 48 ≥ base then none else digitsLoop base bytes (len + 1) false
    else if B 'a' ≤ b ∧ b ≤ B 'f' then
      if 10 + (b.toNat - 97) ≥ base then some (len, empty) else digitsLoop base bytes (len + 1) false
    else if B 'A' ≤ b ∧ b ≤ B 'F' then
      if 10 + (b.toNat - 65) ≥ base then some (len, empty) else digitsLoop base bytes (len + 1) false
    else if b = B '_' then
      if empty && base == 10 then none else digitsLoop base bytes (len + 1) empty
    else some (len, empty)

/-- src/parse.rs:815-868 `digits`. -/
def digits (input : Cursor ο) : PRes (Cursor ο) := do
  let (input, base) ←
    (if startsWith input.rest ['0', 'x'] then do .ok (← advance input 2, 16)
     else if startsWith input.rest ['0', 'o'] then do .ok (← advance input 2, 8)
     else if startsWith input.rest ['0', 'b'] then do .ok (← advance input 2, 2)
     else .ok (input, 10) : PRes (Cursor ο × Nat))
  match digitsLoop base (bytesOf input.rest) 0 true with
  | none => reject
  | some (len, empty) => if empty then reject else advance input len

/-- src/parse.rs:805-813 `int`. -/
def int (input : Cursor ο) : PRes (Cursor ο) := do
  let rest ← digits input
  match rest.rest with
  | ch :: _ =>
    if isIdentStart ch then do
      let (rest, _) ← identNotRaw rest
      wordBreak rest
    else wordBreak rest
  | [] => wordBreak rest

/-! ### Literals, puncts, leaf tokens -/

/-- src/parse.rs:342-360 `literal_nocapture`. -/
def literalNocapture (input : Cursor ο) : PRes (Cursor ο) :=
  (string input).ifOk .ok fun _ =>
  (byteString input).ifOk .ok fun _ =>
  (cString input).ifOk .ok fun _ =>
  (byte input).ifOk .ok fun _ =>
  (character input).ifOk .ok fun _ =>
  (float input).ifOk .ok fun _ =>
  (int input).ifOk .ok fun _ => reject

/-- src/parse.rs:336-340 `literal`; the second component is the `repr`. -/
def literal (input : Cursor ο) : PRes (Cursor ο × List Char) := do
  let rest ← literalNocapture input
  let e := strLen input.rest - strLen rest.rest
  let repr ← sliceTo input.rest e
  .ok (rest, repr)

/-- src/parse.rs:900 `recognized`. -/
def recognizedPunct : List Char :=
  ['~', '!', '@', '#', '$', '%', '^', '&', '*', '-', '=', '+', '|', ';', ':', ',', '<', '.', '>',
   '/', '?', '\'']

/-- src/parse.rs:890-906 `punct_char`. -/
def punctChar (input : Cursor ο) : PRes (Cursor ο × Char) :=
  if startsWith input.rest ['/', '/'] || startsWith input.rest ['/', '*'] then reject
  else
    match input.rest with
    | [] => reject
    | first :: _ =>
      if recognizedPunct.contains first then do
        let c ← advance input first.utf8Size
        .ok (c, first)
      else reject

/-- src/parse.rs:870-888 `punct`. -/
def punct (input : Cursor ο) : PRes (Cursor ο × TokenTree) := do
  let (rest, ch) ← punctChar input
  if ch = '\'' then do
    let (afterLifetime, _) ← identAny rest
    if startsWithChar afterLifetime.rest '\'' ||
        (startsWithChar afterLifetime.rest '#' && !startsWith rest.rest ['r', '#']) then reject
    else do
      let p ← punctNew '\'' .joint
      .ok (rest, p)
  else
    (punctChar rest).ifOk
      (fun _ => do let p ← punctNew ch .joint; .ok (rest, p))
      (fun _ => do let p ← punctNew ch .alone; .ok (rest, p))

/-- src/parse.rs:265-280 `leaf_token`. -/
def leafToken (input : Cursor ο) : PRes (Cursor ο × TokenTree) :=
  (literal input).ifOk (fun (c, l) => .ok (c, literalNew l)) fun _ =>
  (punct input).ifOk (fun r => .ok r) fun _ =>
  (ident input).ifOk (fun r => .ok r) fun _ =>
  if startsWith input.rest errorRepr then do
    let rest ← advance input (strLen errorRepr)
    .ok (rest, literalNew errorRepr)
  else reject

/-! ### Doc comments -/

/-- src/parse.rs:956-977 `doc_comment_contents`. -/
def docCommentContents (input : Cursor ο) : PRes (Cursor ο × List Char × Bool) :=
  if startsWith input.rest ['/', '/', '!'] then do
    let input ← advance input 3
    let (input, s) ← takeUntilNewlineOrEof input
    .ok (input, s, true)
  else if startsWith input.rest ['/', '*', '!'] then do
    let (input, s) ← blockComment input
    let t ← (if strLen s < 2 then .panic else slice s 3 (strLen s - 2))
    .ok (input, t, true)
  else if startsWith input.rest ['/', '/', '/'] then do
    let input ← advance input 3
    if startsWithChar input.rest '/' then reject
    else do
      let (input, s) ← takeUntilNewlineOrEof input
      .ok (input, s, false)
  else if startsWith input.rest ['/', '*', '*'] then do
    let t ← sliceFrom input.rest 3
    if startsWithChar t '*' then reject
    else do
      let (input, s) ← blockComment input
      let t ← (if strLen s < 2 then .panic else slice s 3 (strLen s - 2))
      .ok (input, t, false)
  else reject

/-- src/parse.rs:920-927: the scan for a carriage return not followed by a newline. -/
def scanBareCr : Nat → List Char → PRes Unit
  | 0, _ => .diverge
  | fuel + 1, s =>
    match strFind s '\r' with
    | none => .ok ()
    | some cr => do
      let rest ← sliceFrom s (cr + 1)
      if !startsWithChar rest '\n' then reject else scanBareCr fuel rest

/-- src/parse.rs:908-954 `doc_comment`; the tokens it pushes are returned. -/
def docComment (input : Cursor ο) : PRes (Cursor ο × List TokenTree) := do
  let lo := input.off
  let (rest, comment, inner) ← docCommentContents input
  let span : Span := Pos.span lo rest.off
  scanBareCr (comment.length + 1) comment
  let pound ← punctNew '#' .alone
  let bangs ← (if inner then do
      let bang ← punctNew '!' .alone
      .ok [bang.setSpan span]
    else .ok [] : PRes (List TokenTree))
  let docIdent := identNewUnchecked ['d', 'o', 'c'] span
  let equal ← punctNew '=' .alone
  let lit := literalNew (litString comment)
  let bracketed := [docIdent, equal.setSpan span, lit.setSpan span]
  let group := groupNew .bracket bracketed
  .ok (rest, [pound.setSpan span] ++ bangs ++ [group.setSpan span])

/-! ### Token streams -/

/-- src/parse.rs:198-203. -/
def openDelimiter (input : Cursor ο) (first : UInt8) : Option Delimiter :=
  if first = B '(' && !startsWith input.rest errorRepr then some .parenthesis
  else if first = B '[' then some .bracket
  else if first = B '{' then some .brace
  else none

/-- src/parse.rs:210-215. -/
def closeDelimiter (first : UInt8) : Option Delimiter :=
  if first = B ')' then some .parenthesis
  else if first = B ']' then some .bracket
  else if first = B '}' then some .brace
  else none

/-- An entry of `stack` (src/parse.rs:205-208): position of the opening delimiter, delimiter, and
the tokens of the enclosing group so far. -/
structure StackEntry (ο : Type) where
  lo : ο
  delim : Delimiter
  outer : List TokenTree
deriving Repr

/-- With `span_locations`. -/
abbrev Frame := StackEntry Nat

/-- The mutable state of the loop in `token_stream`: `input`, `tokens`, `stack` (head = top). -/
structure LState (ο : Type) where
  input : Cursor ο
  tokens : List TokenTree
  stack : List (StackEntry ο)
deriving Repr

/-- src/parse.rs:252-263 `lex_error`: the span of the error. -/
def lexError (c : Cursor ο) : Span := Pos.span c.off c.off

/-- One iteration of the loop in `token_stream` (src/parse.rs:175-249): either the next state or the
returned tokens. The error is the span of the `LexError`. -/
def lexStep (st : LState ο) : Res Span (LState ο ⊕ List TokenTree) := do
  let input ← skipWhitespace st.input
  (docComment input).ifOk
    (fun (rest, toks) => .ok (.inl ⟨rest, st.tokens ++ toks, st.stack⟩))
    fun _ =>
  let lo := input.off
  match (bytesOf input.rest) with
  | [] =>
    match st.stack with
    | [] => .ok (.inr st.tokens)
    | f :: _ => .err (Pos.span f.lo f.lo)
  | first :: _ =>
    match openDelimiter input first with
    | some d => do
      let input ← advance input 1
      .ok (.inl ⟨input, [], ⟨lo, d, st.tokens⟩ :: st.stack⟩)
    | none =>
      match closeDelimiter first with
      | some d =>
        match st.stack with
        | [] => .err (lexError input)
        | f :: stack =>
          if f.delim ≠ d then .err (lexError input)
          else do
            let input ← advance input 1
            let g := (groupNew f.delim st.tokens).setSpan (Pos.span f.lo input.off)
            .ok (.inl ⟨input, f.outer ++ [g], stack⟩)
      | none =>
        match leafToken input with
        | .ok (rest, tt) => .ok (.inl ⟨rest, st.tokens ++ [tt.setSpan (Pos.span lo rest.off)], st.stack⟩)
        | .err _ => .err (lexError input)
        | .panic => .panic
        | .diverge => .diverge

/-- The loop of `token_stream` (src/parse.rs:175-249). -/
def lexLoop : Nat → LState ο → Res Span (List TokenTree)
  | 0, _ => .diverge
  | fuel + 1, st =>
    match lexStep st with
    | .ok (.inl st) => lexLoop fuel st
    | .ok (.inr ts) => .ok ts
    | .err e => .err e
    | .panic => .panic
    | .diverge => .diverge

/-- src/parse.rs:171-250 `token_stream`. Each iteration but the last consumes input, so
`length + 1` iterations suffice (proved: it never diverges). -/
def tokenStream (input : Cursor ο) : Res Span (List TokenTree) :=
  lexLoop (input.rest.length + 1) ⟨input, [], []⟩

/-- src/fallback.rs:83-94 `TokenStream::from_str_checked`, after `get_cursor` assigned the source
the start position `off`. U+FEFF takes three bytes. -/
def fromStrAt (src : List Char) (off : ο) : Res Span (List TokenTree) := do
  let cursor : Cursor ο := ⟨src, off⟩
  let cursor ← (if startsWith cursor.rest ['\ufeff'] then advance cursor 3 else .ok cursor)
  tokenStream cursor

/-- src/fallback.rs:972-1000 `Literal::from_str_checked`, after `get_cursor` assigned the source
the start position `off`. Returns the `repr` and span. -/
def literalFromStrAt (src : List Char) (off : ο) : Res Span (List Char × Span) := do
  let cursor : Cursor ο := ⟨src, off⟩
  let negative := startsWithChar cursor.rest '-'
  let go (cursor : Cursor ο) : Res Span (List Char × Span) :=
    (literal cursor).ifOk
      (fun (rest, repr) =>
        if rest.rest.isEmpty then
          .ok ((if negative then '-' :: repr else repr), Pos.span off rest.off)
        else .err Span.callSite)
      (fun _ => .err Span.callSite)
  if negative then do
    let cursor ← advance cursor 1
    match cursor.rest with
    | ch :: _ => if isDecDigit ch then go cursor else .err Span.callSite
    | [] => .err Span.callSite
  else go cursor

end

end PM2
