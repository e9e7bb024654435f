import Verif.Spec.History
import Verif.Spec.Tokens
/-!
# Specification: positions between tokens

To say what happens at a position of a text without describing the lexer, a probe is used: the
position after `a` is between tokens when `()` written there is parsed as a group, and the delimiters
open there are the ones that have to be closed afterwards.
-/

namespace PM2.Spec

/-- The closing delimiters. -/
def closers : List Char := [')', ']', '}']

/-- The text of the error literal. -/
def errorText : List Char := ['(', '/', '*', 'E', 'R', 'R', 'O', 'R', '*', '/', ')']

section
variable [UnicodeTables]

/-- `Between a cl`: the position after the text `a` is a position between tokens, and the delimiters
open there are the ones closed by `cl`, innermost first. -/
structure Between (a cl : List Char) : Prop where
  closers : ∀ c ∈ cl, c ∈ closers
  room : Room [] (a ++ '(' :: ')' :: cl)
  probe : ∃ ts inner span,
    (TokenStream.fromStr SourceMap.init (a ++ '(' :: ')' :: cl)).2 = .ok ts ∧
    Sub (.group .parenthesis inner span) ts ∧ span.lo = 1 + a.length

end

/-- No error literal `(/*ERROR*/)` is formed across the end of `a` by a following `w`. -/
def NoErrorAcross (a w : List Char) : Prop :=
  ∀ u v, errorText = u ++ v → u ≠ [] → v ≠ [] → u <:+ a → ¬ v <+: w

/-- Two results of a parse are the same modulo spans: both fail, or both give the same tokens. -/
inductive SameRes : Res Span (List TokenTree) → Res Span (List TokenTree) → Prop
  | ok {ts ts'} : erase ts = erase ts' → SameRes (.ok ts) (.ok ts')
  | err {e e'} : SameRes (.err e) (.err e')

end PM2.Spec
