import Verif.Spec.Context
import Verif.Spec.Literal
/-!
# Specification: well-formed token streams and the ways of writing them

`WFOf L ts` says which token streams can be written as a text at all, and `Spaced ts s r` that the text `s`
(followed by `r`) writes the tokens `ts`, with arbitrary whitespace and comments between them. Neither
mentions the lexer or the printer.
-/

namespace PM2.Spec

section
variable [UnicodeTables]

/-- The texts of identifiers. -/
def ValidIdent (sym : List Char) : Prop :=
  ∃ c t, sym = c :: t ∧ isIdentStart c = true ∧ ∀ d ∈ t, isIdentContinue d = true

end

/-- What a joint punct `c` other than `'` can join with: another punct (without forming a comment), or
a literal that begins with a quote. -/
def JoinsWith (c : Char) (ts : List TokenTree) : Prop :=
  (∃ c' sp span ts', ts = .punct c' sp span :: ts' ∧ ¬ (c = '/' ∧ (c' = '/' ∨ c' = '*'))) ∨
  (∃ x span ts', ts = .literal x span :: ts' ∧ x.head? = some '\'')

/-- What a quote can join with: an identifier, forming a lifetime, or a string literal with a prefix
of letters. -/
def QuoteJoins (ts : List TokenTree) : Prop :=
  (∃ sym raw span ts', ts = .ident sym raw span :: ts') ∨
  (∃ x span ts' p, ts = .literal x span :: ts' ∧
    p ∈ [['r'], ['b'], ['c'], ['b', 'r'], ['c', 'r']] ∧ p ++ ['"'] <+: x)

section
variable [UnicodeTables]

/-- Streams whose tokens are valid, at every depth, and whose joint puncts are followed by something
they can join with. `L` says which texts are literals. -/
inductive WFOf (L : List Char → Prop) : List TokenTree → Prop
  | nil : WFOf L []
  | ident {sym raw span ts} : ValidIdent sym → (raw = true → sym ∉ neverRaw) → WFOf L ts →
      WFOf L (.ident sym raw span :: ts)
  | literal {x span ts} : L x → WFOf L ts → WFOf L (.literal x span :: ts)
  | group {d inner span ts} : d ≠ .none → WFOf L inner → WFOf L ts →
      WFOf L (.group d inner span :: ts)
  | punct {c sp span ts} : c ∈ punctChars → c ≠ '\'' → (sp = .joint → JoinsWith c ts) → WFOf L ts →
      WFOf L (.punct c sp span :: ts)
  | quote {span ts} : QuoteJoins ts → WFOf L ts → WFOf L (.punct '\'' .joint span :: ts)

end

/-- Tokens that can be written next to each other with nothing between them. -/
inductive MayTouch : TokenTree → TokenTree → Prop
  | group {d inner span tok} : MayTouch (.group d inner span) tok
  | beforeGroup {d inner span tok} : MayTouch tok (.group d inner span)
  | punctIdent {c sp span sym raw span'} : MayTouch (.punct c sp span) (.ident sym raw span')
  | punctLiteral {c sp span x span'} : x.head? ≠ some '\'' →
      MayTouch (.punct c sp span) (.literal x span')
  | identPunct {sym raw span c sp span'} : c ≠ '\'' → c ≠ '#' →
      MayTouch (.ident sym raw span) (.punct c sp span')
  | literalPunct {x span c sp span'} : c ≠ '.' → c ≠ '+' → c ≠ '-' →
      MayTouch (.literal x span) (.punct c sp span')

/-- The token is a joint punct. -/
def IsJoint : TokenTree → Prop
  | .punct _ .joint _ => True
  | _ => False

instance : DecidablePred IsJoint := fun t => by
  cases t with
  | punct c sp s => cases sp <;> unfold IsJoint <;> infer_instance
  | _ => unfold IsJoint; infer_instance

/-- `Gap tok t ts`: the text `t` may stand between the token `tok` and the tokens `ts`: nothing after a
joint punct; otherwise something, unless the tokens may touch. A comment may not follow a slash. -/
structure Gap (tok : TokenTree) (t : List Char) (ts : List TokenTree) : Prop where
  slash : ∀ sp span, tok = .punct '/' sp span → t.head? ≠ some '/'
  joint : IsJoint tok → t = []
  apart : ¬ IsJoint tok → ∀ tok' ts', ts = tok' :: ts' → t ≠ [] ∨ MayTouch tok tok'

section
variable [UnicodeTables]

/-- `Spaced ts s r`: the text `s`, followed by `r`, writes the tokens `ts`, with any whitespace and
comments between them. The text begins with the first token. -/
inductive Spaced : List TokenTree → List Char → List Char → Prop
  | nil {r} : Spaced [] [] r
  | leaf {tok x t s ts r} : LeafText tok x → Gap tok t ts → Trivia t (s ++ r) → Spaced ts s r →
      Spaced (tok :: ts) (x ++ (t ++ s)) r
  | group {d o c t0 body t s inner span ts r} : delimChars d = some (o, c) →
      Trivia t0 (body ++ c :: (t ++ s ++ r)) → Spaced inner body (c :: (t ++ s ++ r)) →
      (d = .parenthesis → ¬ errorText <+: o :: (t0 ++ body ++ [c])) →
      Gap (.group d inner span) t ts → Trivia t (s ++ r) → Spaced ts s r →
      Spaced (.group d inner span :: ts) (o :: (t0 ++ body ++ c :: (t ++ s))) r

end

end PM2.Spec
