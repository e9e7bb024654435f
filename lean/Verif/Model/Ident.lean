import Verif.Model.Display
/-!
# Identifiers: construction, comparison, hashing (src/fallback.rs:796-917, src/lib.rs:1046-1079)
-/

namespace PM2

section
variable [UnicodeTables]

/-- src/fallback.rs:859-871 `ident_ok`. `chars.next().unwrap()` panics on the empty string. -/
def identOk {ε : Type} (s : List Char) : Res ε Bool :=
  match s with
  | [] => .panic
  | first :: chars => .ok (isIdentStart first && chars.all isIdentContinue)

/-- src/fallback.rs:850-876 `validate_ident`: `ok ()` or panic. The digits test is on bytes. -/
def validateIdent {ε : Type} (s : List Char) : Res ε Unit :=
  if s.isEmpty then .panic
  else if (bytesOf s).all (fun d => B '0' ≤ d && d ≤ B '9') then .panic
  else do
    let b ← identOk s
    if !b then .panic else .ok ()

/-- src/fallback.rs:879-888 `validate_ident_raw`. -/
def validateIdentRaw {ε : Type} (s : List Char) : Res ε Unit := do
  validateIdent s
  if s == ['_'] || s == ['s', 'u', 'p', 'e', 'r'] || s == ['s', 'e', 'l', 'f'] ||
      s == ['S', 'e', 'l', 'f'] || s == ['c', 'r', 'a', 't', 'e'] then .panic
  else .ok ()

/-- src/fallback.rs:804-808 `Ident::new_checked` (`Ident::new`, src/lib.rs:1020-1022). -/
def Ident.new {ε : Type} (s : List Char) (span : Span) : Res ε TokenTree := do
  validateIdent s
  .ok (identNewUnchecked s span)

/-- src/fallback.rs:818-822 `Ident::new_raw_checked` (`Ident::new_raw`, src/lib.rs:1030-1032). -/
def Ident.newRaw {ε : Type} (s : List Char) (span : Span) : Res ε TokenTree := do
  validateIdentRaw s
  .ok (identNewRawUnchecked s span)

end

/-- An identifier without its span: the symbol and the raw flag (src/fallback.rs:796-801). -/
structure IdentData where
  sym : List Char
  raw : Bool
deriving DecidableEq, Repr

/-- `Display` (src/fallback.rs:910-917). -/
def IdentData.toStr (a : IdentData) : List Char := displayIdent a.sym a.raw

/-- src/fallback.rs:890-894 `PartialEq for Ident`. -/
def IdentData.eq (a b : IdentData) : Bool := a.sym == b.sym && a.raw == b.raw

/-- src/fallback.rs:896-908 `PartialEq<T: AsRef<str>> for Ident`; the slice `other[2..]` can panic. -/
def IdentData.eqStr {ε : Type} (a : IdentData) (other : List Char) : Res ε Bool :=
  if a.raw then
    if startsWith other ['r', '#'] then do
      let t ← sliceFrom other 2
      .ok (a.sym == t)
    else .ok false
  else .ok (a.sym == other)

/-- Lexicographic comparison of byte strings (`<[u8] as Ord>::cmp`, used by `str::cmp`). -/
def cmpBytes : List UInt8 → List UInt8 → Ordering
  | [], [] => .eq
  | [], _ :: _ => .lt
  | _ :: _, [] => .gt
  | a :: s, b :: t => (compare a.toNat b.toNat).then (cmpBytes s t)

/-- src/lib.rs:1069-1073 `Ord for Ident`. -/
def IdentData.cmp (a b : IdentData) : Ordering := cmpBytes (bytesOf a.toStr) (bytesOf b.toStr)

/-- src/lib.rs:1075-1079 `Hash for Ident`: the bytes fed to the hasher are those of
`str::hash` of the printed identifier (the bytes and a terminator 0xFF). -/
def IdentData.hashInput (a : IdentData) : List UInt8 := bytesOf a.toStr ++ [0xFF]

end PM2
