/-!
# Rust primitives used by the model

Text is `List Char`: Lean's `Char` is a Unicode scalar value, exactly Rust's `char`, and lists of
them are in bijection with valid UTF-8 strings (`&str`).  Byte offsets refer to the real UTF-8
encoding (`String.utf8EncodeChar`), and slicing at an offset that is not a character boundary
panics, as in Rust.
-/

namespace PM2

/-- Outcome of a modelled Rust function returning `Result<α, ε>`.
`panic`: the Rust code would panic (slice out of bounds / not on a char boundary, failed `assert!`,
`unwrap` on `None`, arithmetic overflow in a build with overflow checks).
`diverge`: a fuelled loop ran out of fuel. Both are proved unreachable by the totality theorems. -/
inductive Res (ε α : Type) where
  | ok (a : α)
  | err (e : ε)
  | panic
  | diverge
deriving Repr, DecidableEq

namespace Res
variable {ε δ α β : Type}

/-- Rust's `?`: continue on `Ok`, propagate everything else. -/
def bind (x : Res ε α) (f : α → Res ε β) : Res ε β :=
  match x with
  | ok a => f a
  | err e => err e
  | panic => panic
  | diverge => diverge

instance : Monad (Res ε) where
  pure := ok
  bind := bind

/-- `if let Ok(a) = x { k(a) } else { h() }`: recovers from `Err`, not from panics. -/
def ifOk (x : Res ε α) (k : α → Res δ β) (h : Unit → Res δ β) : Res δ β :=
  match x with
  | ok a => k a
  | err _ => h ()
  | panic => panic
  | diverge => diverge

end Res

/-- `str::len`: length in UTF-8 bytes. -/
def strLen (s : List Char) : Nat := (s.map Char.utf8Size).sum

/-- `str::as_bytes`. -/
def bytesOf (s : List Char) : List UInt8 := s.flatMap String.utf8EncodeChar

/-- `b'c'` for an ASCII character `c`; also `c as u8`. -/
def B (c : Char) : UInt8 := UInt8.ofNat c.toNat

/-- `str::split_at` (and slicing): `none` is the panic for an offset that is out of range or inside
a character. -/
def splitAtByte : List Char → Nat → Option (List Char × List Char)
  | s, 0 => some ([], s)
  | [], _ + 1 => none
  | c :: s, n + 1 =>
    if c.utf8Size ≤ n + 1 then
      match splitAtByte s (n + 1 - c.utf8Size) with
      | some (a, b) => some (c :: a, b)
      | none => none
    else none

/-- `&s[..n]`, panicking like Rust. -/
def sliceTo {ε : Type} (s : List Char) (n : Nat) : Res ε (List Char) :=
  match splitAtByte s n with
  | some (a, _) => .ok a
  | none => .panic

/-- `&s[n..]`, panicking like Rust. -/
def sliceFrom {ε : Type} (s : List Char) (n : Nat) : Res ε (List Char) :=
  match splitAtByte s n with
  | some (_, b) => .ok b
  | none => .panic

/-- `&s[a..b]`, panicking like Rust (also when `a > b`). -/
def slice {ε : Type} (s : List Char) (a b : Nat) : Res ε (List Char) :=
  if b < a then .panic
  else match splitAtByte s a, splitAtByte s b with
    | some (pre, _), some (t, _) => .ok (t.drop pre.length)
    | _, _ => .panic

/-- `str::is_char_boundary`. -/
def isCharBoundary (s : List Char) (n : Nat) : Bool := (splitAtByte s n).isSome

/-- `str::starts_with(&str)`. For valid UTF-8, being a byte prefix is the same as being a character
prefix. -/
def startsWith (s pre : List Char) : Bool := pre.isPrefixOf s

/-- `str::starts_with(char)`. -/
def startsWithChar (s : List Char) (c : Char) : Bool :=
  match s with
  | [] => false
  | d :: _ => d == c

/-- `str::ends_with(&str)`. -/
def endsWith (s suf : List Char) : Bool := suf.isSuffixOf s

/-- `str::find(char)`: byte index of the first occurrence. -/
def strFind : List Char → Char → Option Nat
  | [], _ => none
  | c :: s, d => if c = d then some 0 else (strFind s d).map (· + c.utf8Size)

/-- Number of values of `u32`. -/
def u32Size : Nat := 4294967296

/-- Checked `u32` addition: overflow panics (overflow checks on). -/
def addU32 {ε : Type} (a b : Nat) : Res ε Nat := if a + b < u32Size then .ok (a + b) else .panic

/-- `n as u32`: truncation. -/
def asU32 (n : Nat) : Nat := n % u32Size

/-- `char::from_u32`. -/
def charFromU32 (n : Nat) : Option Char :=
  if n.isValidChar then some (Char.ofNat n) else none

end PM2
