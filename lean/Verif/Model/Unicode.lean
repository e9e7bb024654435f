import Verif.Model.Basic
/-!
# Unicode classification

`unicode_ident` tables (external crate) and the std tables behind `char::escape_debug` are
parameters; `char::is_whitespace` is small and stable and is modelled concretely.
-/

namespace PM2

/-- External Unicode tables. `xidStart`/`xidContinue`: `unicode_ident::is_xid_start/continue`
(called at src/fallback.rs:842,846). `graphemeExtend`/`printable`: std's private tables used by
`char::escape_debug` (called at src/fallback.rs:1070,1233). -/
class UnicodeTables where
  xidStart : Char → Bool
  xidContinue : Char → Bool
  graphemeExtend : Char → Bool
  printable : Char → Bool

export UnicodeTables (xidStart xidContinue graphemeExtend printable)

/-- std `char::is_whitespace` (Unicode `White_Space`). -/
def charIsWhitespace (c : Char) : Bool :=
  let n := c.toNat
  n == 0x20 || (0x09 ≤ n && n ≤ 0x0d) || n == 0x85 || n == 0xA0 || n == 0x1680 ||
  (0x2000 ≤ n && n ≤ 0x200A) || n == 0x2028 || n == 0x2029 || n == 0x202F || n == 0x205F ||
  n == 0x3000

/-- src/parse.rs:155-158 `is_whitespace`. -/
def isWhitespace (c : Char) : Bool :=
  charIsWhitespace c || c == '\u200e' || c == '\u200f'

section
variable [UnicodeTables]

/-- src/fallback.rs:841-843 `is_ident_start`. -/
def isIdentStart (c : Char) : Bool := c == '_' || xidStart c

/-- src/fallback.rs:845-847 `is_ident_continue`. -/
def isIdentContinue (c : Char) : Bool := xidContinue c
end

/-- The facts about the `unicode_ident` tables that the proofs use. They hold of every version of
the Unicode XID tables. Nothing is assumed about the `escape_debug` tables. -/
class LawfulUnicode [UnicodeTables] : Prop where
  /-- On ASCII, XID_Start is the letters. -/
  start_ascii : ∀ c : Char, c.toNat < 128 → xidStart c = c.isAlpha
  /-- On ASCII, XID_Continue is letters, digits and underscore. -/
  continue_ascii : ∀ c : Char, c.toNat < 128 → xidContinue c = (c.isAlphanum || c == '_')
  /-- XID_Start ⊆ XID_Continue. -/
  start_continue : ∀ c : Char, xidStart c = true → xidContinue c = true
  /-- No XID_Continue character is whitespace (nor U+200E/U+200F). -/
  continue_not_ws : ∀ c : Char, xidContinue c = true → isWhitespace c = false
  /-- The byte order mark is not XID_Continue. -/
  continue_not_bom : xidContinue '\ufeff' = false

/-- A concrete lawful table, for examples: ASCII plus the Latin-1 and Greek letters. -/
@[reducible] def sampleTables : UnicodeTables where
  xidStart c := c.isAlpha || (0xC0 ≤ c.toNat && c.toNat ≤ 0xD6) || (0x3B1 ≤ c.toNat && c.toNat ≤ 0x3C9)
  xidContinue c := c.isAlphanum || c == '_' || c.toNat == 0xB7 ||
    (0xC0 ≤ c.toNat && c.toNat ≤ 0xD6) || (0x3B1 ≤ c.toNat && c.toNat ≤ 0x3C9)
  graphemeExtend c := 0x300 ≤ c.toNat && c.toNat ≤ 0x36F
  printable c := 0x20 ≤ c.toNat && c.toNat ≤ 0x7E || 0xA1 ≤ c.toNat && c.toNat ≤ 0x2FF

end PM2
