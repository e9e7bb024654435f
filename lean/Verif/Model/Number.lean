import Verif.Model.LitCtor
/-!
# Numeric literal constructors (src/fallback.rs:948-1053, src/lib.rs:1107-1262)

The public constructors; the texts are made by the functions in `Verif.Model.LitCtor`. For floats,
std's `Display` text is a parameter of the constructor.
-/

namespace PM2

/-- The integer types for which there are constructors (src/fallback.rs:1007-1018, 1025-1036). -/
inductive IntKind
  | u8 | u16 | u32 | u64 | u128 | usize | i8 | i16 | i32 | i64 | i128 | isize
deriving DecidableEq, Repr

/-- The float types (src/fallback.rs:1020-1021). -/
inductive FloatKind
  | f32 | f64
deriving DecidableEq, Repr

/-- `stringify!($kind)` (src/fallback.rs:951). -/
def IntKind.name : IntKind → List Char
  | u8 => ['u', '8']
  | u16 => ['u', '1', '6']
  | u32 => ['u', '3', '2']
  | u64 => ['u', '6', '4']
  | u128 => ['u', '1', '2', '8']
  | usize => ['u', 's', 'i', 'z', 'e']
  | i8 => ['i', '8']
  | i16 => ['i', '1', '6']
  | i32 => ['i', '3', '2']
  | i64 => ['i', '6', '4']
  | i128 => ['i', '1', '2', '8']
  | isize => ['i', 's', 'i', 'z', 'e']

/-- `stringify!($kind)` (src/fallback.rs:951). -/
def FloatKind.name : FloatKind → List Char
  | f32 => ['f', '3', '2']
  | f64 => ['f', '6', '4']

/-- src/lib.rs:1107-1124 and src/fallback.rs:948-954: `Literal::u8_suffixed` etc. -/
def Literal.intSuffixed (k : IntKind) (n : Int) : TokenTree := literalNew (litIntSuffixed n k.name)

/-- src/lib.rs:1126-1147 and src/fallback.rs:956-962: `Literal::u8_unsuffixed` etc. -/
def Literal.intUnsuffixed (n : Int) : TokenTree := literalNew (litIntUnsuffixed n)

/-- src/lib.rs:1223-1226, 1259-1262 and src/fallback.rs:948-954: `Literal::f64_suffixed`,
`f32_suffixed`. `shown` is `format!("{}", f)`; the assertion panics unless `f` is finite. -/
def Literal.floatSuffixed {ε : Type} (k : FloatKind) (finite : Bool) (shown : List Char) :
    Res ε TokenTree :=
  if finite then .ok (literalNew (litFloatSuffixed shown k.name)) else .panic

/-- src/lib.rs:1205-1208, 1241-1244 and src/fallback.rs:1039-1053: `Literal::f64_unsuffixed`,
`f32_unsuffixed`. `shown` is `f.to_string()`. -/
def Literal.floatUnsuffixed {ε : Type} (finite : Bool) (shown : List Char) : Res ε TokenTree :=
  if finite then .ok (literalNew (litFloatUnsuffixed shown)) else .panic

end PM2
