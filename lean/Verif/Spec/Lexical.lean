import Verif.Model.SourceMap
/-!
# Specification: the lexical structure of a source text

Relations stating how an accepted text decomposes into tokens, trivia and doc comments. They do not
mention the parser: only the token type, the whitespace predicate, and the constructor
`Literal::string` (for the text of a doc attribute) are shared with the model.
-/

namespace PM2.Spec

/-- `InComment d t`: reading `t` from left to right inside `d` unclosed block comments closes all of
them exactly at the end of `t`. `/*` opens a comment and `*/` closes one. -/
inductive InComment : Nat → List Char → Prop
  | last : InComment 1 ['*', '/']
  | close {d t} : InComment (d + 1) t → InComment (d + 2) ('*' :: '/' :: t)
  | opn {d t} : InComment (d + 1) t → InComment d ('/' :: '*' :: t)
  | char {d c t} : ¬ ['/', '*'] <+: c :: t → ¬ ['*', '/'] <+: c :: t →
      InComment d t → InComment d (c :: t)

/-- A complete (possibly nested) block comment. -/
def IsBlockComment (t : List Char) : Prop := ∃ u, t = '/' :: '*' :: u ∧ InComment 1 u

/-- A text that begins like a line doc comment: `//!`, or `///` but not `////`. -/
def DocLineStart (t : List Char) : Prop :=
  ['/', '/', '!'] <+: t ∨ (['/', '/', '/'] <+: t ∧ ¬ ['/', '/', '/', '/'] <+: t)

/-- A text that begins like a block doc comment: `/*!`, or `/**` but neither `/***` nor `/**/`. -/
def DocBlockStart (t : List Char) : Prop :=
  ['/', '*', '!'] <+: t ∨
    (['/', '*', '*'] <+: t ∧ ¬ ['/', '*', '*', '*'] <+: t ∧ ¬ ['/', '*', '*', '/'] <+: t)

/-- What follows a line comment: the end of the text or a line feed. -/
def LineEnd (r : List Char) : Prop := r = [] ∨ ∃ r', r = '\n' :: r'

/-- `Trivia t r`: the text `t`, when followed by `r`, consists of whitespace and comments that are
not doc comments. -/
inductive Trivia : List Char → List Char → Prop
  | nil {r} : Trivia [] r
  | ws {c t r} : isWhitespace c = true → Trivia t r → Trivia (c :: t) r
  | line {u t r} : '\n' ∉ u → ¬ DocLineStart ('/' :: '/' :: u ++ t ++ r) → LineEnd (t ++ r) →
      Trivia t r → Trivia ('/' :: '/' :: u ++ t) r
  | block {b t r} : IsBlockComment b → ¬ DocBlockStart (b ++ t ++ r) → Trivia t r →
      Trivia (b ++ t) r

/-- Every carriage return of the text is followed by a line feed. -/
def NoBareCr (t : List Char) : Prop := ∀ a b, t = a ++ '\r' :: b → ∃ b', b = '\n' :: b'

/-- `DocText x r inner content`: `x`, followed by `r`, is a doc comment with that content. A line
doc comment ends before a line feed; a carriage return directly before that line feed belongs to the
comment but not to its content. -/
inductive DocText : List Char → List Char → Bool → List Char → Prop
  | innerLine {u cr r} : '\n' ∉ u → LineEnd r →
      (cr = [] ∧ (r ≠ [] → u.getLast? ≠ some '\r') ∨ cr = ['\r'] ∧ r ≠ []) →
      DocText ('/' :: '/' :: '!' :: u ++ cr) r true u
  | outerLine {u cr r} : '\n' ∉ u → LineEnd r → u.head? ≠ some '/' →
      (cr = [] ∧ (r ≠ [] → u.getLast? ≠ some '\r') ∨ cr = ['\r'] ∧ r ≠ []) →
      DocText ('/' :: '/' :: '/' :: u ++ cr) r false u
  | innerBlock {u r} : InComment 1 ('!' :: u ++ ['*', '/']) →
      DocText ('/' :: '*' :: '!' :: u ++ ['*', '/']) r true u
  | outerBlock {u r} : InComment 1 ('*' :: u ++ ['*', '/']) →
      (u ++ ['*', '/']).head? ≠ some '*' → (u ++ ['*', '/']).head? ≠ some '/' →
      DocText ('/' :: '*' :: '*' :: u ++ ['*', '/']) r false u

section
variable [UnicodeTables]

/-- The tokens of a doc comment: `#[doc = "content"]` or `#![doc = "content"]`, all with the span of
the comment. -/
def docAttr (content : List Char) (inner : Bool) (span : Span) : List TokenTree :=
  let attr := TokenTree.group .bracket
    [.ident ['d', 'o', 'c'] false span, .punct '=' .alone span, .literal (litString content) span] span
  if inner then [.punct '#' .alone span, .punct '!' .alone span, attr]
  else [.punct '#' .alone span, attr]

/-- Source text of a leaf token. -/
inductive LeafText : TokenTree → List Char → Prop
  | ident {sym span} : LeafText (.ident sym false span) sym
  | raw {sym span} : LeafText (.ident sym true span) ('r' :: '#' :: sym)
  | punct {ch sp span} : LeafText (.punct ch sp span) [ch]
  | literal {repr span} : LeafText (.literal repr span) repr

/-- The delimiter characters of a group kind. `None` has none. -/
def delimChars : Delimiter → Option (Char × Char)
  | .parenthesis => some ('(', ')')
  | .bracket => some ('[', ']')
  | .brace => some ('{', '}')
  | .none => none

/-- `Tile p s ts r`: the text `s`, standing at position `p` and followed by `r`, is exactly the
sequence of tokens `ts`, in order, separated by trivia only, and every token carries the span at
which its text stands. Tokens of a doc comment stand for the comment. -/
inductive Tile : Nat → List Char → List TokenTree → List Char → Prop
  | nil {p t r} : Trivia t r → Tile p t [] r
  | leaf {p t x s r tok ts} : Trivia t (x ++ s ++ r) → x ≠ [] → LeafText tok x →
      tok.span = ⟨p + t.length, p + t.length + x.length⟩ →
      Tile (p + t.length + x.length) s ts r → Tile p (t ++ x ++ s) (tok :: ts) r
  | doc {p t x s r inner content ts} : Trivia t (x ++ s ++ r) → DocText x (s ++ r) inner content →
      NoBareCr content →
      Tile (p + t.length + x.length) s ts r →
      Tile p (t ++ x ++ s)
        (docAttr content inner ⟨p + t.length, p + t.length + x.length⟩ ++ ts) r
  | group {p t o c body s r d inner ts} : Trivia t (o :: body ++ c :: s ++ r) →
      delimChars d = some (o, c) →
      Tile (p + t.length + 1) body inner (c :: s ++ r) →
      Tile (p + t.length + 1 + body.length + 1) s ts r →
      Tile p (t ++ o :: body ++ c :: s)
        (.group d inner ⟨p + t.length, p + t.length + 1 + body.length + 1⟩ :: ts) r

end

end PM2.Spec
