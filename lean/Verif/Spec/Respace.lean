import Verif.Spec.Grammar
import Verif.Spec.Layout
/-!
# Specification: what printing keeps of streams with careless spacing

A program may call a punct joint whatever it puts behind it. `Printable ts` drops the condition of
well-formed streams that joint puncts are followed by something they can join with, and `respace ts` is
the stream with exactly the joint puncts made alone that join with nothing. Neither mentions the lexer or
the printer.
-/

namespace PM2.Spec

/-- The stream begins with something a joint punct can join with: a punct, or a literal that begins with
a quote. -/
def beginsJoinable : List TokenTree → Bool
  | .punct _ _ _ :: _ => true
  | .literal x _ :: _ => x.head? = some '\''
  | _ => false

/-- The token, before the tokens `ts`: a joint punct other than `'` that has nothing to join with is
alone. -/
def loosen (tok : TokenTree) (ts : List TokenTree) : TokenTree :=
  match tok with
  | .punct c .joint span => if c = '\'' ∨ beginsJoinable ts = true then tok else .punct c .alone span
  | _ => tok

mutual
/-- `respace` inside the token. -/
def respaceTree : TokenTree → TokenTree
  | .group d inner span => .group d (respace inner) span
  | .ident sym raw span => .ident sym raw span
  | .punct c sp span => .punct c sp span
  | .literal x span => .literal x span
/-- The stream whose joint puncts that have nothing to join with are alone, at every depth. -/
def respace : List TokenTree → List TokenTree
  | [] => []
  | tok :: ts => loosen (respaceTree tok) ts :: respace ts
end

mutual
/-- The token without its spans and spacing. -/
def bareTree : TokenTree → TokenTree
  | .group d inner _ => .group d (bare inner) Span.callSite
  | .ident sym raw _ => .ident sym raw Span.callSite
  | .punct c _ _ => .punct c .alone Span.callSite
  | .literal x _ => .literal x Span.callSite
/-- The tokens without their spans and spacing, at every depth. -/
def bare : List TokenTree → List TokenTree
  | [] => []
  | tok :: ts => bareTree tok :: bare ts
end

section
variable [UnicodeTables]

/-- Streams whose tokens are valid, at every depth. A joint slash is not followed by a punct that makes it
a comment, and a quote is followed by something it can join with; other joint puncts are followed by
anything, or by nothing. -/
inductive Printable : List TokenTree → Prop
  | nil : Printable []
  | ident {sym raw span ts} : ValidIdent sym → (raw = true → sym ∉ neverRaw) → Printable ts →
      Printable (.ident sym raw span :: ts)
  | literal {x span ts} : LitOk x → Printable ts → Printable (.literal x span :: ts)
  | group {d inner span ts} : d ≠ .none → Printable inner → Printable ts →
      Printable (.group d inner span :: ts)
  | punct {c sp span ts} : c ∈ punctChars → c ≠ '\'' →
      (sp = .joint → c = '/' → ∀ c' sp' span' ts', ts = .punct c' sp' span' :: ts' → c' ≠ '/' ∧ c' ≠ '*') →
      Printable ts → Printable (.punct c sp span :: ts)
  | quote {span ts} : QuoteJoins ts → Printable ts → Printable (.punct '\'' .joint span :: ts)

end

end PM2.Spec
