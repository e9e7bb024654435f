import Verif.Spec.Number
import Verif.Model.Float
/-!
# Specification: IEEE 754 numbers and reading them

The values of floats, and which float a decimal number is rounded to (to nearest, ties to even). Values are
integers: multiples of the smallest positive float of the format.
-/

namespace PM2.Spec

/-- Precision and range: bits of the fraction, bits of the exponent, and the `u` for which the smallest positive
number is `2⁻ᵘ`. -/
def floatFormat : FloatKind → Nat × Nat × Nat
  | .f32 => (23, 8, 149)
  | .f64 => (52, 11, 1074)

/-- The value of the float with magnitude `b` (the bits without the sign), in units of the smallest positive
float. The bits of infinity give the number at which the exponent overflows. -/
def floatValue (k : FloatKind) (b : Nat) : Nat :=
  let p := (floatFormat k).1
  if b < 2 ^ p then b else (2 ^ p + b % 2 ^ p) * 2 ^ (b / 2 ^ p - 1)

/-- The magnitude is that of a finite number: the exponent is not all ones. -/
def FiniteFloat (k : FloatKind) (b : Nat) : Prop :=
  b < (2 ^ (floatFormat k).2.1 - 1) * 2 ^ (floatFormat k).1

/-- The bits of the float with magnitude `b` and the given sign. -/
def signed (k : FloatKind) (neg : Bool) (b : Nat) : Nat :=
  match k, neg with
  | _, false => b
  | .f32, true => 2 ^ 31 + b
  | .f64, true => 2 ^ 63 + b

/-- The number `m / 10ᵉ` is rounded to the float with magnitude `b`: it lies between the midpoints to the
neighbours of `b`, and on a midpoint only if `b` is even. -/
def RoundsTo (k : FloatKind) (m e b : Nat) : Prop :=
  let u := (floatFormat k).2.2
  let x := 2 * m * 2 ^ u
  (b = 0 ∨ (floatValue k (b - 1) + floatValue k b) * 10 ^ e < x ∨
    ((floatValue k (b - 1) + floatValue k b) * 10 ^ e = x ∧ b % 2 = 0)) ∧
  (x < (floatValue k b + floatValue k (b + 1)) * 10 ^ e ∨
    (x = (floatValue k b + floatValue k (b + 1)) * 10 ^ e ∧ b % 2 = 0))

/-- `x` consists of decimal digits, perhaps with a point and a fraction, and denotes `m / 10ᵉ`. -/
def Denotes (x : List Char) (m e : Nat) : Prop :=
  ∃ ds gs, ds ≠ [] ∧ (∀ c ∈ ds ++ gs, '0' ≤ c ∧ c ≤ '9') ∧ decNumber (ds ++ gs) = m ∧ gs.length = e ∧
    ((gs = [] ∧ x = ds) ∨ (gs ≠ [] ∧ x = ds ++ '.' :: gs))

end PM2.Spec

namespace PM2
open Spec

/-- What std promises about the digits: some decimal digits, and the number is rounded to
the float again. -/
class LawfulShortest [ShortestDigits] : Prop where
  nonempty : ∀ k b, FiniteFloat k b → b ≠ 0 → (ShortestDigits.digits k b).1 ≠ []
  isDigit : ∀ k b, FiniteFloat k b → b ≠ 0 → ∀ c ∈ (ShortestDigits.digits k b).1, '0' ≤ c ∧ c ≤ '9'
  rounds : ∀ k b, FiniteFloat k b → b ≠ 0 →
    RoundsTo k
      (decNumber (ShortestDigits.digits k b).1 *
        10 ^ ((ShortestDigits.digits k b).2 - (ShortestDigits.digits k b).1.length).toNat)
      (((ShortestDigits.digits k b).1.length : Int) - (ShortestDigits.digits k b).2).toNat b

end PM2
