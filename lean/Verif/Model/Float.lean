import Verif.Model.Number
/-!
# Float literals from bits (src/lib.rs:1190-1262, src/fallback.rs:948-954, 1039-1053)

The constructors of float literals as functions of the bits of the float. The texts are made by std's
`Display` (`core::num::flt2dec`); its layout of digits is written out here, and the search for the digits
(`strategy::grisu::format_shortest`) is a parameter.
-/

namespace PM2

/-- Bits of the fraction of an IEEE 754 binary32 or binary64 number. -/
def FloatKind.fracBits : FloatKind → Nat
  | f32 => 23
  | f64 => 52

/-- Bits of the exponent. -/
def FloatKind.expBits : FloatKind → Nat
  | f32 => 8
  | f64 => 11

/-- Sign bit: `v.to_bits() >> 63 != 0`. -/
def floatNegative (k : FloatKind) (bits : Nat) : Bool := bits / 2 ^ (k.fracBits + k.expBits) % 2 == 1

/-- `v.abs().to_bits()`. -/
def floatMagnitude (k : FloatKind) (bits : Nat) : Nat := bits % 2 ^ (k.fracBits + k.expBits)

/-- `core::num::flt2dec::FullDecoded`, without the data of finite numbers. -/
inductive FloatClass
  | nan | infinite | zero | finite
deriving DecidableEq, Repr

/-- `f64::classify` as used by `core::num::flt2dec::decode`. -/
def floatClassify (k : FloatKind) (bits : Nat) : FloatClass :=
  let m := floatMagnitude k bits
  if m / 2 ^ k.fracBits = 2 ^ k.expBits - 1 then
    if m % 2 ^ k.fracBits = 0 then .infinite else .nan
  else if m = 0 then .zero else .finite

/-- `f64::is_finite`: `self.abs() < Self::INFINITY`. -/
def floatIsFinite (k : FloatKind) (bits : Nat) : Bool :=
  match floatClassify k bits with
  | .zero | .finite => true
  | .nan | .infinite => false

/-- `core::num::flt2dec::strategy::grisu::format_shortest`: digits `d₁…dₙ` and `e` such that
`0.d₁…dₙ · 10ᵉ` is a decimal number closest to the float with that magnitude. A parameter. -/
class ShortestDigits where
  digits : FloatKind → Nat → List Char × Int

/-- `core::num::flt2dec::digits_to_dec_str` with `frac_digits` 0. -/
def digitsToDecStr (buf : List Char) (exp : Int) : List Char :=
  if exp ≤ 0 then '0' :: '.' :: (List.replicate (-exp).toNat '0' ++ buf)
  else if exp.toNat < buf.length then buf.take exp.toNat ++ '.' :: buf.drop exp.toNat
  else buf ++ List.replicate (exp.toNat - buf.length) '0'

section
variable [ShortestDigits]

/-- `impl Display for f64`: `core::fmt::float::float_to_decimal_common_shortest`, which is
`core::num::flt2dec::to_shortest_str` with `Sign::Minus` and `frac_digits` 0. -/
def floatDisplay (k : FloatKind) (bits : Nat) : List Char :=
  let sign := if floatNegative k bits then ['-'] else []
  match floatClassify k bits with
  | .nan => ['N', 'a', 'N']
  | .infinite => sign ++ ['i', 'n', 'f']
  | .zero => sign ++ ['0']
  | .finite =>
    let (buf, exp) := ShortestDigits.digits k (floatMagnitude k bits)
    sign ++ digitsToDecStr buf exp

/-- src/lib.rs:1223-1226, 1259-1262 and src/fallback.rs:948-954: `Literal::f64_suffixed`,
`f32_suffixed`. -/
def Literal.fromFloatSuffixed {ε : Type} (k : FloatKind) (bits : Nat) : Res ε TokenTree :=
  Literal.floatSuffixed k (floatIsFinite k bits) (floatDisplay k bits)

/-- src/lib.rs:1205-1208, 1241-1244 and src/fallback.rs:1039-1053: `Literal::f64_unsuffixed`,
`f32_unsuffixed`. -/
def Literal.fromFloatUnsuffixed {ε : Type} (k : FloatKind) (bits : Nat) : Res ε TokenTree :=
  Literal.floatUnsuffixed (floatIsFinite k bits) (floatDisplay k bits)

end

end PM2
