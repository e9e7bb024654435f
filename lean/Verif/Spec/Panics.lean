import Verif.Spec.Program
/-!
# Specification: the calls that panic
-/

namespace PM2.Spec
open Wrap

section
variable [Compiler] [UnicodeTables]

/-- An identifier of the language, or a keyword, or `_`. -/
def IdentText (x : List Char) : Prop :=
  ∃ c t, x = c :: t ∧ (c = '_' ∨ xidStart c = true) ∧ ∀ d ∈ t, xidContinue d = true

/-- A character of the language's punctuation. -/
def PunctChar (c : Char) : Prop := c ∈ "~!@#$%^&*-=+|;:,<.>/?'".toList

/-- The compiler's parser of literals does not take the text. -/
def NoLiteral (x : List Char) : Prop := ∀ l, Compiler.parseLiteral x ≠ .ok l

/-- Apart from calls that mix values of both modes, these calls panic. `texts` are the texts of the thread's
source map. -/
def Panics {σ : Type} [Rep σ] (inside : Bool) (texts : List (List Char)) (s : State σ) : Op → Prop
  -- the 32-bit positions are used up
  | .fromStr src | .literalFromStr src => ¬ Room texts src
  -- the compiler does not take what a stream of the fallback prints as
  | .intoCompiler i => ∃ ts, s.vars[i]? = some (.stream (.fallback ts)) ∧
      ∀ us, Compiler.parseStream (WStream.fallback (σ := σ) ts).display ≠ .ok us
  -- outside of a procedural macro
  | .unwrap i => ∃ a, s.vars[i]? = some (.span (.fallback a))
  -- not an identifier
  | .identNew x i => (∃ a, s.vars[i]? = some (.span (.fallback a)) ∧ ¬ IdentText x) ∨
      ∃ a, s.vars[i]? = some (.span (.compiler a)) ∧ Compiler.identNew x a = none
  | .identNewRaw x i => (∃ a, s.vars[i]? = some (.span (.fallback a)) ∧ ¬ (IdentText x ∧
        x ∉ ["_".toList, "super".toList, "self".toList, "Self".toList, "crate".toList])) ∨
      ∃ a, s.vars[i]? = some (.span (.compiler a)) ∧ Compiler.identNewRaw x a = none
  -- not punctuation
  | .punctNew ch _ => ¬ PunctChar ch
  | .next i => ∃ ch sp a ts, s.vars[i]? = some (.iterC (.punct ch sp a :: ts)) ∧ ¬ PunctChar ch
  | .debug _ i => ∃ ts ch sp a, s.vars[i]? = some (.iterC ts) ∧ .punct ch sp a ∈ ts ∧ ¬ PunctChar ch
  -- the compiler does not take the literal
  | .literalUnchecked r => inside = true ∧ NoLiteral r
  | .byteCharacter b => inside = true ∧ Compiler.cfgByteCharacter = false ∧ NoLiteral (litByteCharacter b)
  | .cString bs => inside = true ∧ Compiler.cfgCString = false ∧ ∃ r, litCString bs = .ok r ∧ NoLiteral r
  -- inside of a procedural macro
  | .invalidate => inside = true
  | _ => False

/-- A `CStr` has no NUL before its end. -/
def CText : Op → Prop
  | .cString bs => 0 ∉ bs
  | _ => True

end

end PM2.Spec
