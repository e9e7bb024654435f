import Verif.Spec.Grammar
/-!
# Specification: where a text stops being tokens

In terms of the grammar (`Spec/Grammar.lean`): the longest part of the text that can be read, and why no more can.
-/

namespace PM2.Spec

section
variable [UnicodeTables]

/-- `Opened p s opens r`: the text `s`, standing at position `p` and followed by `r`, is tokens, except that the
delimiters `opens`, given with their positions and innermost first, are opened in `s` but not closed in it. -/
inductive Opened : Nat → List Char → List (Delimiter × Nat) → List Char → Prop
  | none {p s ts r} : Lexed p s ts r → Opened p s [] r
  | opn {p a ts o c b r d opens} : Lexed p a ts (o :: b ++ r) → delimChars d = some (o, c) →
      ¬ errorText <+: o :: b ++ r → Opened (p + a.length + 1) b opens r →
      Opened p (a ++ o :: b) (opens ++ [(d, p + a.length)]) r

/-- The text is not at its end, and it begins with no whitespace or comment, with no doc comment, with no token and
with no delimiter. -/
structure NothingAt (r : List Char) : Prop where
  more : r ≠ []
  trivia : ∀ t r', r = t ++ r' → Trivia t r' → t = []
  doc : ∀ x r' inner content, r = x ++ r' → DocText x r' inner content → ¬ NoBareCr content
  token : ∀ tok x r', r = x ++ r' → ¬ Token tok x r'
  delim : ∀ d o c, delimChars d = some (o, c) → r.head? ≠ some o ∧ r.head? ≠ some c

/-- The text begins with a closing delimiter other than that of the innermost open one. -/
def WrongClose (opens : List (Delimiter × Nat)) (r : List Char) : Prop :=
  ∃ d o c r', r = c :: r' ∧ delimChars d = some (o, c) ∧ opens.head?.map (·.1) ≠ some d

/-- `ErrorAt p src q`: the text `src`, standing at position `p`, can be read up to its end with a delimiter open, the
innermost of which is at `q`, or it can be read up to `q` and no further. -/
def ErrorAt (p : Nat) (src : List Char) (q : Nat) : Prop :=
  ∃ bom s r opens, src = bom ++ s ++ r ∧ (bom = ['﻿'] ∨ bom = [] ∧ src.head? ≠ some '﻿') ∧
    Opened (p + bom.length) s opens r ∧
    (r = [] ∧ opens.head?.map (·.2) = some q ∨
      q = p + bom.length + s.length ∧ (NothingAt r ∨ WrongClose opens r))

end

end PM2.Spec
