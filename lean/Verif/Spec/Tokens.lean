import Verif.Spec.Lexical
/-!
# Specification: tokens of a stream at any depth, and streams modulo spans
-/

namespace PM2.Spec

/-- `Sub tok ts`: the token `tok` occurs in the stream `ts`, at any depth. -/
inductive Sub (tok : TokenTree) : List TokenTree → Prop
  | here {ts} : tok ∈ ts → Sub tok ts
  | inside {ts d inner span} : .group d inner span ∈ ts → Sub tok inner → Sub tok ts

mutual
/-- Replace every span of a token. -/
def mapSpanTree (f : Span → Span) : TokenTree → TokenTree
  | .group d ts s => .group d (mapSpan f ts) (f s)
  | .ident sym raw s => .ident sym raw (f s)
  | .punct c sp s => .punct c sp (f s)
  | .literal r s => .literal r (f s)
/-- Replace every span of a stream. -/
def mapSpan (f : Span → Span) : List TokenTree → List TokenTree
  | [] => []
  | t :: ts => mapSpanTree f t :: mapSpan f ts
end

/-- A stream without its spans. Two streams are equal modulo spans when their erasures are equal. -/
def erase (ts : List TokenTree) : List TokenTree := mapSpan (fun _ => Span.callSite) ts

/-- A stream moved `k` positions to the right. -/
def shift (k : Nat) (ts : List TokenTree) : List TokenTree :=
  mapSpan (fun s => ⟨s.lo + k, s.hi + k⟩) ts

/-- The text begins like a doc comment. -/
def IsDoc (x : List Char) : Prop := DocLineStart x ∨ DocBlockStart x

/-- `At p src span a x r`: the span `span` covers the part `x` of the text `src` that stands at
position `p`, between `a` and `r`. -/
structure At (p : Nat) (src : List Char) (span : Span) (a x r : List Char) : Prop where
  split : src = a ++ x ++ r
  lo : span.lo = p + a.length
  hi : span.hi = p + a.length + x.length

/-- `Level l ts`: `l` is the stream `ts` itself or the contents of a group in it, at any depth. -/
inductive Level (l : List TokenTree) : List TokenTree → Prop
  | top : Level l l
  | inside {ts d inner span} : .group d inner span ∈ ts → Level l inner → Level l ts

section
variable [UnicodeTables]

/-- `TokText tok x`: the source text `x` is written as the token `tok`: a leaf is its own text, a group
is its contents between its delimiters, and the tokens of a doc comment stand for the comment. -/
inductive TokText : TokenTree → List Char → Prop
  | leaf {tok x} : LeafText tok x → TokText tok x
  | group {d inner span o c body r} : delimChars d = some (o, c) →
      Tile (span.lo + 1) body inner (c :: r) → TokText (.group d inner span) (o :: body ++ [c])
  | doc {tok x r inner content} : DocText x r inner content → NoBareCr content →
      Sub tok (docAttr content inner tok.span) → TokText tok x

/-- `Nested lo hi ts`: the spans of `ts` are ordered, do not overlap and lie in `lo..hi`; the contents
of a group lie strictly between its first and last position. The tokens of a doc comment share one
span. -/
inductive Nested : Nat → Nat → List TokenTree → Prop
  | nil {lo hi} : lo ≤ hi → Nested lo hi []
  | leaf {lo hi tok ts} : (∀ d inner span, tok ≠ .group d inner span) → lo ≤ tok.span.lo →
      tok.span.lo < tok.span.hi → Nested tok.span.hi hi ts → Nested lo hi (tok :: ts)
  | doc {lo hi content inner span ts} : lo ≤ span.lo → span.lo < span.hi → Nested span.hi hi ts →
      Nested lo hi (docAttr content inner span ++ ts)
  | group {lo hi d inner span ts} : lo ≤ span.lo → span.lo + 2 ≤ span.hi →
      Nested (span.lo + 1) (span.hi - 1) inner → Nested span.hi hi ts →
      Nested lo hi (.group d inner span :: ts)

end

end PM2.Spec
