import Verif.Model.Parse
/-!
# The lexer with a count of its steps (src/parse.rs)

The functions of `Verif.Model.Parse` again, in a monad that counts steps. A step is a call, an iteration of a loop, or
one character that is copied, counted, escaped, or compared in an operation whose duration depends on the text. What
takes a constant time is one step (`step`): tests of at most eleven bytes at a position, slicing, table look-ups,
construction of a token from parts. In detail:

- `Cursor::advance` counts the characters it passes (src/parse.rs:25), which is done with `span_locations` only;
- the delimiter of a raw string is compared up to the first difference (src/parse.rs:419, 496, 529);
- the symbol of an identifier and the text of a literal are copied (src/parse.rs:305, 313, 339);
- `str::find` looks at the characters up to the one it finds (src/parse.rs:921);
- the literal of a doc comment takes as many steps as it has characters (src/parse.rs:941);
- pushing to a vector takes one step (amortised).

That the functions compute the same results as those of `Verif.Model.Parse` is proved (`Proof/Timed.lean`). Not
counted: registering the source (src/fallback.rs:203-214), allocation, and dropping what was built when there is an
error.
-/

namespace PM2

/-- A result and the number of steps it took. -/
structure Timed (ε α : Type) where
  val : Res ε α
  cost : Nat

namespace Timed
variable {ε δ α β : Type}

/-- Rust's `?`. -/
def bind (x : Timed ε α) (f : α → Timed ε β) : Timed ε β :=
  match x.val with
  | .ok a => ⟨(f a).val, x.cost + (f a).cost⟩
  | .err e => ⟨.err e, x.cost⟩
  | .panic => ⟨.panic, x.cost⟩
  | .diverge => ⟨.diverge, x.cost⟩

/-- `Ok(a)`. -/
def ok (a : α) : Timed ε α := ⟨.ok a, 0⟩
/-- `Err(e)`. -/
def err (e : ε) : Timed ε α := ⟨.err e, 0⟩
/-- A panic. -/
def panic : Timed ε α := ⟨.panic, 0⟩
/-- A loop that runs out of fuel. -/
def diverge : Timed ε α := ⟨.diverge, 0⟩

instance : Monad (Timed ε) where
  pure := ok
  bind := bind

/-- `n` more steps. -/
def tick (n : Nat) (x : Timed ε α) : Timed ε α := ⟨x.val, n + x.cost⟩

/-- An operation that takes constant time. -/
def step (r : Res ε α) : Timed ε α := ⟨r, 1⟩

/-- `if let Ok(a) = x { k(a) } else { h() }`. -/
def ifOk (x : Timed ε α) (k : α → Timed δ β) (h : Unit → Timed δ β) : Timed δ β :=
  match x.val with
  | .ok a => ⟨(k a).val, x.cost + (k a).cost⟩
  | .err _ => ⟨(h ()).val, x.cost + (h ()).cost⟩
  | .panic => ⟨.panic, x.cost⟩
  | .diverge => ⟨.diverge, x.cost⟩

end Timed

namespace T
open Timed (tick step)

variable {ο : Type} [Pos ο]

/-- `Result<O, Reject>`, with steps. -/
abbrev TRes (α : Type) := Timed Unit α

/-- `Err(Reject)`. -/
abbrev reject {α : Type} : TRes α := .err ()

/-- src/parse.rs:20-27 `Cursor::advance`; `chars().count()` looks at every character. -/
def advance {ε : Type} (c : Cursor ο) (bytes : Nat) : Timed ε (Cursor ο) :=
  tick (1 + ((splitAtByte c.rest bytes).map (·.1.length)).getD 0) (⟨PM2.advance c bytes, 0⟩)

/-- src/parse.rs:982-988: the loop of `take_until_newline_or_eof`. -/
def takeUntilLoop {ε : Type} (input : Cursor ο) : List Char → Nat → Timed ε (Cursor ο × List Char)
  | [], _ => tick 1 do
    let c ← advance input (strLen input.rest)
    .ok (c, input.rest)
  | ch :: chars, i => tick 1 <|
    if ch = '\n' then do
      let c ← advance input i
      let s ← step (sliceTo input.rest i)
      .ok (c, s)
    else if ch = '\r' then do
      let t ← step (sliceFrom input.rest (i + 1))
      if startsWithChar t '\n' then do
        let c ← advance input (i + 1)
        let s ← step (sliceTo input.rest i)
        .ok (c, s)
      else takeUntilLoop input chars (i + 1)
    else takeUntilLoop input chars (i + ch.utf8Size)

/-- src/parse.rs:979-991 `take_until_newline_or_eof`. -/
def takeUntilNewlineOrEof {ε : Type} (input : Cursor ο) : Timed ε (Cursor ο × List Char) :=
  takeUntilLoop input input.rest 0

/-- src/parse.rs:138-152: the loop of `block_comment`. -/
def blockCommentLoop (input : Cursor ο) : List UInt8 → Nat → Nat → TRes (Cursor ο × List Char)
  | b0 :: b1 :: bs, i, depth => tick 1 <|
    if b0 = B '/' ∧ b1 = B '*' then blockCommentLoop input bs (i + 2) (depth + 1)
    else if b0 = B '*' ∧ b1 = B '/' then
      if depth = 0 then .panic -- `depth -= 1` underflows
      else if depth - 1 = 0 then do
        let c ← advance input (i + 2)
        let s ← step (sliceTo input.rest (i + 2))
        .ok (c, s)
      else blockCommentLoop input bs (i + 2) (depth - 1)
    else blockCommentLoop input (b1 :: bs) (i + 1) depth
  | _, _, _ => tick 1 reject

/-- src/parse.rs:128-153 `block_comment`. -/
def blockComment (input : Cursor ο) : TRes (Cursor ο × List Char) := tick 1 <|
  if !startsWith input.rest ['/', '*'] then reject
  else blockCommentLoop input (bytesOf input.rest) 0 0

/-- src/parse.rs:83-125: the loop of `skip_whitespace`. -/
def skipWsLoop {ε : Type} : Nat → Cursor ο → Timed ε (Cursor ο)
  | 0, _ => .diverge
  | fuel + 1, s => tick 1 <|
    match s.rest with
    | [] => .ok s
    | ch :: _ =>
      let byte := (bytesOf s.rest).headD 0
      -- lines 109-123
      let other : Unit → Timed ε (Cursor ο) := fun _ =>
        if byte = B ' ' ∨ (0x09 ≤ byte ∧ byte ≤ 0x0d) then do
          let s ← advance s 1
          skipWsLoop fuel s
        else if byte < 128 then .ok s
        else if isWhitespace ch then do
          let s ← advance s ch.utf8Size
          skipWsLoop fuel s
        else .ok s
      if byte = B '/' then
        if startsWith s.rest ['/', '/'] && (!startsWith s.rest ['/', '/', '/'] ||
            startsWith s.rest ['/', '/', '/', '/']) && !startsWith s.rest ['/', '/', '!'] then do
          let (cursor, _) ← takeUntilNewlineOrEof s
          skipWsLoop fuel cursor
        else if startsWith s.rest ['/', '*', '*', '/'] then do
          let s ← advance s 4
          skipWsLoop fuel s
        else if startsWith s.rest ['/', '*'] && (!startsWith s.rest ['/', '*', '*'] ||
            startsWith s.rest ['/', '*', '*', '*']) && !startsWith s.rest ['/', '*', '!'] then
          (blockComment s).ifOk (fun (rest, _) => skipWsLoop fuel rest) (fun _ => .ok s)
        else other ()
      else other ()

/-- src/parse.rs:80-126 `skip_whitespace`. -/
def skipWhitespace {ε : Type} (input : Cursor ο) : Timed ε (Cursor ο) :=
  skipWsLoop (input.rest.length + 1) input

section
variable [UnicodeTables]

/-- src/parse.rs:325-331: the loop of `ident_not_raw`. -/
def identEnd (len : Nat) : List Char → Nat → TRes Nat
  | [], _ => tick 1 <| .ok len
  | ch :: chars, i => tick 1 <|
    if !isIdentContinue ch then .ok i else identEnd len chars (i + ch.utf8Size)

/-- src/parse.rs:317-334 `ident_not_raw`. -/
def identNotRaw (input : Cursor ο) : TRes (Cursor ο × List Char) := tick 1 <|
  match input.rest with
  | [] => reject
  | ch :: chars =>
    if isIdentStart ch then do
      let e ← identEnd (strLen input.rest) chars ch.utf8Size
      let c ← advance input e
      let s ← step (sliceTo input.rest e)
      .ok (c, s)
    else reject

/-- src/parse.rs:295-315 `ident_any`; the symbol is copied. -/
def identAny (input : Cursor ο) : TRes (Cursor ο × TokenTree) := tick 1 do
  let raw := startsWith input.rest ['r', '#']
  let rest ← advance input (if raw then 2 else 0)
  let (rest, sym) ← identNotRaw rest
  if !raw then tick sym.length <| .ok (rest, identNewUnchecked sym Span.callSite)
  else if isNonRawable sym then reject
  else tick sym.length <| .ok (rest, identNewRawUnchecked sym Span.callSite)

/-- src/parse.rs:282-293 `ident`. -/
def ident (input : Cursor ο) : TRes (Cursor ο × TokenTree) := tick 1 <|
  if identRejectPrefixes.any (startsWith input.rest) then reject else identAny input

/-- src/parse.rs:362-367 `literal_suffix`. -/
def literalSuffix (input : Cursor ο) : TRes (Cursor ο) := tick 1 <|
  (identNotRaw input).ifOk (fun (c, _) => .ok c) (fun _ => .ok input)

end

/-- src/parse.rs:672-688: the loop of `backslash_u`. -/
def backslashULoop : List Char → Nat → Nat → Nat → TRes (Char × List Char × Nat)
  | [], _, _, _ => tick 1 reject
  | ch :: chars, i, value, len => tick 1 <|
    match hexVal ch with
    | some digit =>
      if len = 6 then reject
      else backslashULoop chars (i + ch.utf8Size) (value * 16 + digit) (len + 1)
    | none =>
      if ch = '_' ∧ len > 0 then backslashULoop chars (i + ch.utf8Size) value len
      else if ch = '}' ∧ len > 0 then
        match charFromU32 value with
        | some c => .ok (c, chars, i + ch.utf8Size)
        | none => reject
      else reject

/-- src/parse.rs:665-689 `backslash_u`. -/
def backslashU : List Char → Nat → TRes (Char × List Char × Nat)
  | ch :: chars, i => tick 1 <| if ch = '{' then backslashULoop chars (i + ch.utf8Size) 0 0 else reject
  | [], _ => tick 1 reject

/-- src/parse.rs:693-707: the loop of `trailing_backslash`. -/
def trailingBackslashLoop (input : Cursor ο) : List UInt8 → Nat → UInt8 → TRes (Cursor ο)
  | bytes, i, last => tick 1 <|
    if last = B '\r' then
      match bytes with
      | b :: bytes' =>
        if b = B '\n' then
          match bytes' with
          | b' :: rest =>
            if b' = B ' ' ∨ b' = B '\t' ∨ b' = B '\n' ∨ b' = B '\r' then
              trailingBackslashLoop input rest (i + 2) b'
            else advance input (i + 1)
          | [] => reject
        else reject
      | [] => reject
    else
      match bytes with
      | b' :: rest =>
        if b' = B ' ' ∨ b' = B '\t' ∨ b' = B '\n' ∨ b' = B '\r' then
          trailingBackslashLoop input rest (i + 1) b'
        else advance input i
      | [] => reject

/-- src/parse.rs:691-708 `trailing_backslash`. -/
def trailingBackslash (input : Cursor ο) (last : UInt8) : TRes (Cursor ο) :=
  trailingBackslashLoop input (bytesOf input.rest) 0 last

section
variable [UnicodeTables]

/-- src/parse.rs:382-410: the loop of `cooked_string`. -/
def cookedStringLoop : Nat → Cursor ο → List Char → Nat → TRes (Cursor ο)
  | 0, _, _, _ => .diverge
  | _ + 1, _, [], _ => tick 1 reject
  | fuel + 1, input, ch :: chars, i => tick 1 <|
    if ch = '"' then do
      let input ← advance input (i + 1)
      literalSuffix input
    else if ch = '\r' then
      match chars with
      | c2 :: chars => if c2 = '\n' then cookedStringLoop fuel input chars (i + 2) else reject
      | [] => reject
    else if ch = '\\' then
      match chars with
      | c2 :: chars =>
        if c2 = 'x' then do
          let (chars, i) ← step (backslashXChar chars (i + 2))
          cookedStringLoop fuel input chars i
        else if c2 = 'n' ∨ c2 = 'r' ∨ c2 = 't' ∨ c2 = '\\' ∨ c2 = '\'' ∨ c2 = '"' ∨ c2 = '0' then
          cookedStringLoop fuel input chars (i + 2)
        else if c2 = 'u' then do
          let (_, chars, i) ← backslashU chars (i + 2)
          cookedStringLoop fuel input chars i
        else if c2 = '\n' ∨ c2 = '\r' then do
          let input ← advance input (i + 1 + 1)
          let input ← trailingBackslash input (B c2)
          cookedStringLoop fuel input input.rest 0
        else reject
      | [] => reject
    else cookedStringLoop fuel input chars (i + ch.utf8Size)

/-- src/parse.rs:379-411 `cooked_string`. -/
def cookedString (input : Cursor ο) : TRes (Cursor ο) :=
  cookedStringLoop (input.rest.length + 1) input input.rest 0

/-- src/parse.rs:474-487: the loop of `delimiter_of_raw_string`. -/
def delimiterLoop (input : Cursor ο) : List UInt8 → Nat → TRes (Cursor ο × List Char)
  | [], _ => tick 1 reject
  | b :: bytes, i => tick 1 <|
    if b = B '"' then
      if i > 255 then reject
      else do
        let c ← advance input (i + 1)
        let s ← step (sliceTo input.rest i)
        .ok (c, s)
    else if b = B '#' then delimiterLoop input bytes (i + 1)
    else reject

/-- src/parse.rs:473-488 `delimiter_of_raw_string`. -/
def delimiterOfRawString (input : Cursor ο) : TRes (Cursor ο × List Char) :=
  delimiterLoop input (bytesOf input.rest) 0

/-- The number of characters two texts have in common before they differ. -/
def common : List Char → List Char → Nat
  | c :: s, d :: t => if c = d then 1 + common s t else 0
  | _, _ => 0

/-- src/parse.rs:416-429: the loop of `raw_string`. -/
def rawStringLoop (input : Cursor ο) (delimiter : List Char) : List UInt8 → Nat → TRes (Cursor ο)
  | [], _ => tick 1 reject
  | b :: bytes, i => tick 1 <|
    if b = B '"' then do
      let t ← step (sliceFrom input.rest (i + 1))
      tick (common t delimiter) <|
      if startsWith t delimiter then do
        let rest ← advance input (i + 1 + strLen delimiter)
        literalSuffix rest
      else rawStringLoop input delimiter bytes (i + 1)
    else if b = B '\r' then
      match bytes with
      | b2 :: bytes => if b2 = B '\n' then rawStringLoop input delimiter bytes (i + 2) else reject
      | [] => reject
    else rawStringLoop input delimiter bytes (i + 1)

/-- src/parse.rs:413-430 `raw_string`. -/
def rawString (input : Cursor ο) : TRes (Cursor ο) := tick 1 do
  let (input, delimiter) ← delimiterOfRawString input
  rawStringLoop input delimiter (bytesOf input.rest) 0

/-- src/parse.rs:369-377 `string`. -/
def string (input : Cursor ο) : TRes (Cursor ο) := tick 1 <|
  (step (input.parse ['"'])).ifOk (fun input => cookedString input) fun _ =>
  (step (input.parse ['r'])).ifOk (fun input => rawString input) fun _ => reject

/-- src/parse.rs:444-470: the loop of `cooked_byte_string`. -/
def cookedByteStringLoop : Nat → Cursor ο → List UInt8 → Nat → TRes (Cursor ο)
  | 0, _, _, _ => .diverge
  | _ + 1, _, [], _ => tick 1 reject
  | fuel + 1, input, b :: bytes, offset => tick 1 <|
    if b = B '"' then do
      let input ← advance input (offset + 1)
      literalSuffix input
    else if b = B '\r' then
      match bytes with
      | b2 :: bytes =>
        if b2 = B '\n' then cookedByteStringLoop fuel input bytes (offset + 2) else reject
      | [] => reject
    else if b = B '\\' then
      match bytes with
      | b2 :: bytes =>
        if b2 = B 'x' then do
          let (bytes, offset) ← step (backslashXByte bytes (offset + 2))
          cookedByteStringLoop fuel input bytes offset
        else if b2 = B 'n' ∨ b2 = B 'r' ∨ b2 = B 't' ∨ b2 = B '\\' ∨ b2 = B '0' ∨ b2 = B '\'' ∨
            b2 = B '"' then
          cookedByteStringLoop fuel input bytes (offset + 2)
        else if b2 = B '\n' ∨ b2 = B '\r' then do
          let input ← advance input (offset + 1 + 1)
          let input ← trailingBackslash input b2
          cookedByteStringLoop fuel input (bytesOf input.rest) 0
        else reject
      | [] => reject
    else if b < 128 then cookedByteStringLoop fuel input bytes (offset + 1)
    else reject

/-- src/parse.rs:442-471 `cooked_byte_string`. -/
def cookedByteString (input : Cursor ο) : TRes (Cursor ο) :=
  cookedByteStringLoop ((bytesOf input.rest).length + 1) input (bytesOf input.rest) 0

/-- src/parse.rs:493-510: the loop of `raw_byte_string`. -/
def rawByteStringLoop (input : Cursor ο) (delimiter : List Char) : List UInt8 → Nat → TRes (Cursor ο)
  | [], _ => tick 1 reject
  | b :: bytes, i => tick 1 <|
    if b = B '"' then do
      let t ← step (sliceFrom input.rest (i + 1))
      tick (common t delimiter) <|
      if startsWith t delimiter then do
        let rest ← advance input (i + 1 + strLen delimiter)
        literalSuffix rest
      else rawByteStringLoop input delimiter bytes (i + 1)
    else if b = B '\r' then
      match bytes with
      | b2 :: bytes =>
        if b2 = B '\n' then rawByteStringLoop input delimiter bytes (i + 2) else reject
      | [] => reject
    else if b < 128 then rawByteStringLoop input delimiter bytes (i + 1)
    else reject

/-- src/parse.rs:490-511 `raw_byte_string`. -/
def rawByteString (input : Cursor ο) : TRes (Cursor ο) := tick 1 do
  let (input, delimiter) ← delimiterOfRawString input
  rawByteStringLoop input delimiter (bytesOf input.rest) 0

/-- src/parse.rs:432-440 `byte_string`. -/
def byteString (input : Cursor ο) : TRes (Cursor ο) := tick 1 <|
  (step (input.parse ['b', '"'])).ifOk (fun input => cookedByteString input) fun _ =>
  (step (input.parse ['b', 'r'])).ifOk (fun input => rawByteString input) fun _ => reject

/-- src/parse.rs:526-540: the loop of `raw_c_string`. -/
def rawCStringLoop (input : Cursor ο) (delimiter : List Char) : List UInt8 → Nat → TRes (Cursor ο)
  | [], _ => tick 1 reject
  | b :: bytes, i => tick 1 <|
    if b = B '"' then do
      let t ← step (sliceFrom input.rest (i + 1))
      tick (common t delimiter) <|
      if startsWith t delimiter then do
        let rest ← advance input (i + 1 + strLen delimiter)
        literalSuffix rest
      else rawCStringLoop input delimiter bytes (i + 1)
    else if b = B '\r' then
      match bytes with
      | b2 :: bytes => if b2 = B '\n' then rawCStringLoop input delimiter bytes (i + 2) else reject
      | [] => reject
    else if b = B '\x00' then reject
    else rawCStringLoop input delimiter bytes (i + 1)

/-- src/parse.rs:523-541 `raw_c_string`. -/
def rawCString (input : Cursor ο) : TRes (Cursor ο) := tick 1 do
  let (input, delimiter) ← delimiterOfRawString input
  rawCStringLoop input delimiter (bytesOf input.rest) 0

/-- src/parse.rs:546-577: the loop of `cooked_c_string`. -/
def cookedCStringLoop : Nat → Cursor ο → List Char → Nat → TRes (Cursor ο)
  | 0, _, _, _ => .diverge
  | _ + 1, _, [], _ => tick 1 reject
  | fuel + 1, input, ch :: chars, i => tick 1 <|
    if ch = '"' then do
      let input ← advance input (i + 1)
      literalSuffix input
    else if ch = '\r' then
      match chars with
      | c2 :: chars => if c2 = '\n' then cookedCStringLoop fuel input chars (i + 2) else reject
      | [] => reject
    else if ch = '\\' then
      match chars with
      | c2 :: chars =>
        if c2 = 'x' then do
          let (chars, i) ← step (backslashXNonzero chars (i + 2))
          cookedCStringLoop fuel input chars i
        else if c2 = 'n' ∨ c2 = 'r' ∨ c2 = 't' ∨ c2 = '\\' ∨ c2 = '\'' ∨ c2 = '"' then
          cookedCStringLoop fuel input chars (i + 2)
        else if c2 = 'u' then do
          let (c, chars, i) ← backslashU chars (i + 2)
          if c = '\x00' then reject else cookedCStringLoop fuel input chars i
        else if c2 = '\n' ∨ c2 = '\r' then do
          let input ← advance input (i + 1 + 1)
          let input ← trailingBackslash input (B c2)
          cookedCStringLoop fuel input input.rest 0
        else reject
      | [] => reject
    else if ch = '\x00' then reject
    else cookedCStringLoop fuel input chars (i + ch.utf8Size)

/-- src/parse.rs:543-578 `cooked_c_string`. -/
def cookedCString (input : Cursor ο) : TRes (Cursor ο) :=
  cookedCStringLoop (input.rest.length + 1) input input.rest 0

/-- src/parse.rs:513-521 `c_string`. -/
def cString (input : Cursor ο) : TRes (Cursor ο) := tick 1 <|
  (step (input.parse ['c', '"'])).ifOk (fun input => cookedCString input) fun _ =>
  (step (input.parse ['c', 'r'])).ifOk (fun input => rawCString input) fun _ => reject

/-- src/parse.rs:580-600 `byte`. -/
def byte (input : Cursor ο) : TRes (Cursor ο) := tick 1 do
  let input ← step (input.parse ['b', '\''])
  match ← step (byteElem (bytesOf input.rest)) with
  | none => reject
  | some (bytes, offset) =>
    match bytes with
    | [] => reject
    | _ :: _ =>
      if !isCharBoundary input.rest offset then reject
      else do
        let c ← advance input offset
        let input ← step (c.parse ['\''])
        literalSuffix input

/-- src/parse.rs:605-613: the first element of a character literal. -/
def charElem : List Char → TRes (Option (List Char × Nat))
  | ch :: chars => tick 1 <|
    if ch = '\\' then
      match chars with
      | c2 :: chars =>
        if c2 = 'x' then
          (step (backslashXChar chars 2)).ifOk (fun r => .ok (some r)) (fun _ => .ok none)
        else if c2 = 'u' then
          (backslashU chars 2).ifOk (fun (_, r) => .ok (some r)) (fun _ => .ok none)
        else if c2 = 'n' ∨ c2 = 'r' ∨ c2 = 't' ∨ c2 = '\\' ∨ c2 = '0' ∨ c2 = '\'' ∨ c2 = '"' then
          .ok (some (chars, 2))
        else .ok none
      | [] => .ok none
    else .ok (some (chars, ch.utf8Size))
  | [] => tick 1 <| .ok none

/-- src/parse.rs:602-620 `character`. -/
def character (input : Cursor ο) : TRes (Cursor ο) := tick 1 do
  let input ← step (input.parse ['\''])
  match ← charElem input.rest with
  | none => reject
  | some (chars, idx) =>
    match chars with
    | [] => reject
    | _ :: _ => do
      let c ← advance input idx
      let input ← step (c.parse ['\''])
      literalSuffix input

/-- src/parse.rs:727-758: the mantissa loop of `float_digits`. -/
def floatMantissa : List Char → Nat → Bool → TRes (List Char × Nat × Bool × Bool)
  | [], len, hasDot => tick 1 <| .ok ([], len, hasDot, false)
  | ch :: chars, len, hasDot => tick 1 <|
    if isDecDigit ch || ch == '_' then floatMantissa chars (len + 1) hasDot
    else if ch = '.' then
      if hasDot then .ok (ch :: chars, len, hasDot, false)
      else
        match chars with
        | next :: _ =>
          if next = '.' || isIdentStart next then reject
          else floatMantissa chars (len + 1) true
        | [] => floatMantissa chars (len + 1) true
    else if ch = 'e' ∨ ch = 'E' then .ok (chars, len + 1, hasDot, true)
    else .ok (ch :: chars, len, hasDot, false)

/-- src/parse.rs:770-799: the exponent loop of `float_digits`. -/
def floatExponent : List Char → Nat → Bool → Bool → TRes (Option Nat)
  | [], len, _, hasValue => tick 1 <| .ok (if hasValue then some len else none)
  | ch :: chars, len, hasSign, hasValue => tick 1 <|
    if ch = '+' ∨ ch = '-' then
      if hasValue then .ok (some len)
      else if hasSign then .ok none
      else floatExponent chars (len + 1) true hasValue
    else if isDecDigit ch then floatExponent chars (len + 1) hasSign true
    else if ch = '_' then floatExponent chars (len + 1) hasSign hasValue
    else .ok (if hasValue then some len else none)

/-- src/parse.rs:720-803 `float_digits`. -/
def floatDigits (input : Cursor ο) : TRes (Cursor ο) := tick 1 <|
  match input.rest with
  | [] => reject
  | ch :: chars =>
    if !isDecDigit ch then reject
    else do
      let (chars, len, hasDot, hasExp) ← floatMantissa chars 1 false
      if !(hasDot || hasExp) then reject
      else if hasExp then
        if hasDot then do
          let before ← advance input (len - 1)
          match ← floatExponent chars len false false with
          | none => .ok before
          | some len => advance input len
        else do
          match ← floatExponent chars len false false with
          | none => reject
          | some len => advance input len
      else advance input len

/-- src/parse.rs:713-717, 808-812: a suffix and the end of the word. -/
def numberEnd (rest : Cursor ο) : TRes (Cursor ο) :=
  match rest.rest with
  | ch :: _ =>
    if isIdentStart ch then do
      let (rest, _) ← identNotRaw rest
      step (wordBreak rest)
    else step (wordBreak rest)
  | [] => step (wordBreak rest)

/-- src/parse.rs:710-718 `float`. -/
def float (input : Cursor ο) : TRes (Cursor ο) := tick 1 do
  let rest ← floatDigits input
  numberEnd rest

/-- src/parse.rs:829-867: the loop of `digits`. -/
def digitsLoop (base : Nat) : List UInt8 → Nat → Bool → TRes (Option (Nat × Bool))
  | [], len, empty => tick 1 <| .ok (some (len, empty))
  | b :: bytes, len, empty => tick 1 <|
    if B '0' ≤ b ∧ b ≤ B '9' then
      if b.toNat - 48 ≥ base then .ok none else digitsLoop base bytes (len + 1) false
    else if B 'a' ≤ b ∧ b ≤ B 'f' then
      if 10 + (b.toNat - 97) ≥ base then .ok (some (len, empty)) else digitsLoop base bytes (len + 1) false
    else if B 'A' ≤ b ∧ b ≤ B 'F' then
      if 10 + (b.toNat - 65) ≥ base then .ok (some (len, empty)) else digitsLoop base bytes (len + 1) false
    else if b = B '_' then
      if empty && base == 10 then .ok none else digitsLoop base bytes (len + 1) empty
    else .ok (some (len, empty))

/-- src/parse.rs:815-868 `digits`. -/
def digits (input : Cursor ο) : TRes (Cursor ο) := tick 1 do
  let (input, base) ←
    (if startsWith input.rest ['0', 'x'] then do .ok (← advance input 2, 16)
     else if startsWith input.rest ['0', 'o'] then do .ok (← advance input 2, 8)
     else if startsWith input.rest ['0', 'b'] then do .ok (← advance input 2, 2)
     else .ok (input, 10) : TRes (Cursor ο × Nat))
  match ← digitsLoop base (bytesOf input.rest) 0 true with
  | none => reject
  | some (len, empty) => if empty then reject else advance input len

/-- src/parse.rs:805-813 `int`. -/
def int (input : Cursor ο) : TRes (Cursor ο) := tick 1 do
  let rest ← digits input
  numberEnd rest

/-- src/parse.rs:342-360 `literal_nocapture`. -/
def literalNocapture (input : Cursor ο) : TRes (Cursor ο) := tick 1 <|
  (string input).ifOk .ok fun _ =>
  (byteString input).ifOk .ok fun _ =>
  (cString input).ifOk .ok fun _ =>
  (byte input).ifOk .ok fun _ =>
  (character input).ifOk .ok fun _ =>
  (float input).ifOk .ok fun _ =>
  (int input).ifOk .ok fun _ => reject

/-- src/parse.rs:336-340 `literal`; the text is copied. -/
def literal (input : Cursor ο) : TRes (Cursor ο × List Char) := tick 1 do
  let rest ← literalNocapture input
  let e := strLen input.rest - strLen rest.rest
  let repr ← step (sliceTo input.rest e)
  tick repr.length <| .ok (rest, repr)

/-- src/parse.rs:870-888 `punct`. -/
def punct (input : Cursor ο) : TRes (Cursor ο × TokenTree) := tick 1 do
  let (rest, ch) ← step (punctChar input)
  if ch = '\'' then do
    let (afterLifetime, _) ← identAny rest
    if startsWithChar afterLifetime.rest '\'' ||
        (startsWithChar afterLifetime.rest '#' && !startsWith rest.rest ['r', '#']) then reject
    else do
      let p ← step (punctNew '\'' .joint)
      .ok (rest, p)
  else
    (step (punctChar rest)).ifOk
      (fun _ => do let p ← step (punctNew ch .joint); .ok (rest, p))
      (fun _ => do let p ← step (punctNew ch .alone); .ok (rest, p))

/-- src/parse.rs:265-280 `leaf_token`. -/
def leafToken (input : Cursor ο) : TRes (Cursor ο × TokenTree) := tick 1 <|
  (literal input).ifOk (fun (c, l) => .ok (c, literalNew l)) fun _ =>
  (punct input).ifOk (fun r => .ok r) fun _ =>
  (ident input).ifOk (fun r => .ok r) fun _ =>
  if startsWith input.rest errorRepr then do
    let rest ← advance input (strLen errorRepr)
    .ok (rest, literalNew errorRepr)
  else reject

/-- src/parse.rs:956-977 `doc_comment_contents`. -/
def docCommentContents (input : Cursor ο) : TRes (Cursor ο × List Char × Bool) := tick 1 <|
  if startsWith input.rest ['/', '/', '!'] then do
    let input ← advance input 3
    let (input, s) ← takeUntilNewlineOrEof input
    .ok (input, s, true)
  else if startsWith input.rest ['/', '*', '!'] then do
    let (input, s) ← blockComment input
    let t ← step (if strLen s < 2 then .panic else slice s 3 (strLen s - 2))
    .ok (input, t, true)
  else if startsWith input.rest ['/', '/', '/'] then do
    let input ← advance input 3
    if startsWithChar input.rest '/' then reject
    else do
      let (input, s) ← takeUntilNewlineOrEof input
      .ok (input, s, false)
  else if startsWith input.rest ['/', '*', '*'] then do
    let t ← step (sliceFrom input.rest 3)
    if startsWithChar t '*' then reject
    else do
      let (input, s) ← blockComment input
      let t ← step (if strLen s < 2 then .panic else slice s 3 (strLen s - 2))
      .ok (input, t, false)
  else reject

/-- src/parse.rs:920-927: the scan for a carriage return not followed by a newline. -/
def scanBareCr : Nat → List Char → TRes Unit
  | 0, _ => .diverge
  | fuel + 1, s => tick 1 <|
    match strFind s '\r' with
    | none => tick s.length <| .ok ()
    | some cr => tick cr do
      let rest ← step (sliceFrom s (cr + 1))
      if !startsWithChar rest '\n' then reject else scanBareCr fuel rest

/-- src/parse.rs:908-954 `doc_comment`; the literal takes as many steps as it has characters. -/
def docComment (input : Cursor ο) : TRes (Cursor ο × List TokenTree) := tick 1 do
  let lo := input.off
  let (rest, comment, inner) ← docCommentContents input
  let span : Span := Pos.span lo rest.off
  scanBareCr (comment.length + 1) comment
  let pound ← step (punctNew '#' .alone)
  let bangs ← (if inner then do
      let bang ← step (punctNew '!' .alone)
      .ok [bang.setSpan span]
    else .ok [] : TRes (List TokenTree))
  let docIdent := identNewUnchecked ['d', 'o', 'c'] span
  let equal ← step (punctNew '=' .alone)
  let lit := literalNew (litString comment)
  let bracketed := [docIdent, equal.setSpan span, lit.setSpan span]
  let group := groupNew .bracket bracketed
  tick (litString comment).length <|
  .ok (rest, [pound.setSpan span] ++ bangs ++ [group.setSpan span])

/-- One iteration of the loop in `token_stream` (src/parse.rs:175-249). -/
def lexStep (st : LState ο) : Timed Span (LState ο ⊕ List TokenTree) := tick 1 do
  let input ← skipWhitespace st.input
  (docComment input).ifOk
    (fun (rest, toks) => .ok (.inl ⟨rest, st.tokens ++ toks, st.stack⟩))
    fun _ =>
  let lo := input.off
  match (bytesOf input.rest) with
  | [] =>
    match st.stack with
    | [] => .ok (.inr st.tokens)
    | f :: _ => .err (Pos.span f.lo f.lo)
  | first :: _ =>
    match openDelimiter input first with
    | some d => do
      let input ← advance input 1
      .ok (.inl ⟨input, [], ⟨lo, d, st.tokens⟩ :: st.stack⟩)
    | none =>
      match closeDelimiter first with
      | some d =>
        match st.stack with
        | [] => .err (lexError input)
        | f :: stack =>
          if f.delim ≠ d then .err (lexError input)
          else do
            let input ← advance input 1
            let g := (groupNew f.delim st.tokens).setSpan (Pos.span f.lo input.off)
            .ok (.inl ⟨input, f.outer ++ [g], stack⟩)
      | none =>
        (leafToken input).ifOk
          (fun (rest, tt) => .ok (.inl ⟨rest, st.tokens ++ [tt.setSpan (Pos.span lo rest.off)], st.stack⟩))
          (fun _ => .err (lexError input))

/-- The loop of `token_stream` (src/parse.rs:175-249). -/
def lexLoop : Nat → LState ο → Timed Span (List TokenTree)
  | 0, _ => .diverge
  | fuel + 1, st => do
    match ← lexStep st with
    | .inl st => lexLoop fuel st
    | .inr ts => .ok ts

/-- src/parse.rs:171-250 `token_stream`. -/
def tokenStream (input : Cursor ο) : Timed Span (List TokenTree) :=
  lexLoop (input.rest.length + 1) ⟨input, [], []⟩

/-- src/fallback.rs:83-94 `TokenStream::from_str_checked`, after `get_cursor`. -/
def fromStrAt (src : List Char) (off : ο) : Timed Span (List TokenTree) := tick 1 do
  let cursor : Cursor ο := ⟨src, off⟩
  let cursor ← (if startsWith cursor.rest ['\ufeff'] then advance cursor 3 else .ok cursor)
  tokenStream cursor

/-- src/fallback.rs:972-1000 `Literal::from_str_checked`, after `get_cursor`; the `-` is put in front of the text
(997), which moves it. -/
def literalFromStrAt (src : List Char) (off : ο) : Timed Span (List Char × Span) := tick 1 <|
  let cursor : Cursor ο := ⟨src, off⟩
  let negative := startsWithChar cursor.rest '-'
  let go (cursor : Cursor ο) : Timed Span (List Char × Span) :=
    (literal cursor).ifOk
      (fun (rest, repr) =>
        if rest.rest.isEmpty then
          tick repr.length <| .ok ((if negative then '-' :: repr else repr), Pos.span off rest.off)
        else .err Span.callSite)
      (fun _ => .err Span.callSite)
  if negative then do
    let cursor ← advance cursor 1
    match cursor.rest with
    | ch :: _ => if isDecDigit ch then go cursor else .err Span.callSite
    | [] => .err Span.callSite
  else go cursor

end
end T
end PM2
