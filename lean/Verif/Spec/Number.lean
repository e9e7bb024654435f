import Verif.Spec.Tokens
import Verif.Model.Number
/-!
# Specification: decimal numbers

How numbers are written, independently of the code that writes them and of the code that reads them.
-/

namespace PM2.Spec

/-- The number written by decimal digits, most significant first. -/
def decNumber (ds : List Char) : Nat := ds.foldl (fun n c => n * 10 + (c.toNat - 48)) 0

/-- `ds` is the decimal representation of `n`: at least one digit, and no leading zero (but `0`). -/
structure Decimal (ds : List Char) (n : Nat) : Prop where
  nonempty : ds ≠ []
  digits : ∀ c ∈ ds, '0' ≤ c ∧ c ≤ '9'
  noZero : ds.head? = some '0' → ds = ['0']
  value : decNumber ds = n

/-- What std's `Display` prints for a finite, non-negative float: digits, and perhaps a fraction.
(std never prints an exponent with `{}`.) -/
def FloatText (s : List Char) : Prop :=
  ∃ ds fs, s = ds ++ fs ∧ ds ≠ [] ∧ (∀ c ∈ ds, '0' ≤ c ∧ c ≤ '9') ∧
    (fs = [] ∨ ∃ gs, fs = '.' :: gs ∧ gs ≠ [] ∧ ∀ c ∈ gs, '0' ≤ c ∧ c ≤ '9')

/-- The names of the integer types. -/
def intTypeName : IntKind → List Char
  | .u8 => "u8".toList
  | .u16 => "u16".toList
  | .u32 => "u32".toList
  | .u64 => "u64".toList
  | .u128 => "u128".toList
  | .usize => "usize".toList
  | .i8 => "i8".toList
  | .i16 => "i16".toList
  | .i32 => "i32".toList
  | .i64 => "i64".toList
  | .i128 => "i128".toList
  | .isize => "isize".toList

/-- The names of the float types. -/
def floatTypeName : FloatKind → List Char
  | .f32 => "f32".toList
  | .f64 => "f64".toList

end PM2.Spec
