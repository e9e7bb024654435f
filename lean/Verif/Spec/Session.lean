import Verif.Spec.History
import Verif.Spec.Tokens
/-!
# Specification: the spans that a thread can have

`Session sm texts known` is a history of a thread's source map together with every span that the thread
obtained since the last invalidation.
-/

namespace PM2.Spec

/-- The spans that a parse hands out: those of the tokens, at any depth, or that of the error. -/
inductive SpanOf : Res Span (List TokenTree) → Span → Prop
  | token {ts tok} : Sub tok ts → SpanOf (.ok ts) tok.span
  | error {e} : SpanOf (.err e) e

/-- The spans that parsing a literal hands out. -/
inductive LitSpanOf : Res Span (List Char × Span) → Span → Prop
  | token {r s} : LitSpanOf (.ok (r, s)) s
  | error {e} : LitSpanOf (.err e) e

section
variable [UnicodeTables]

/-- A thread and the spans it knows: those that parses handed out, and the results of operations on known
spans. (`open_` and `close` are `Group::span_open`, `span_close`.) -/
inductive Session : SourceMap → List (List Char) → (Span → Prop) → Prop
  | init : Session SourceMap.init [] (· = Span.callSite)
  | parse {sm texts K} (src : List Char) : Session sm texts K → src.length < 2 ^ 32 →
      Session (TokenStream.fromStr sm src).1 (if Room texts src then texts ++ [src] else texts)
        (fun s => K s ∨ SpanOf (TokenStream.fromStr sm src).2 s)
  | literal {sm texts K} (src : List Char) : Session sm texts K → src.length < 2 ^ 32 →
      Session (Literal.fromStr sm src).1 (if Room texts src then texts ++ [src] else texts)
        (fun s => K s ∨ LitSpanOf (Literal.fromStr sm src).2 s)
  | byteRange {sm texts K sm' r} {s : Span} : Session sm texts K → K s →
      s.byteRange (ε := Unit) sm = .ok (sm', r) → Session sm' texts K
  | sourceText {sm texts K sm' r} {s : Span} : Session sm texts K → K s →
      s.sourceText (ε := Unit) sm = .ok (sm', r) → Session sm' texts K
  | join {sm texts K} {a b c : Span} : Session sm texts K → K a → K b →
      a.join (ε := Unit) sm b = .ok (some c) → Session sm texts (fun s => K s ∨ s = c)
  | subspan {sm texts K} {a c : Span} (lo hi : Bound) : Session sm texts K → K a →
      PM2.subspan a lo hi = some c → Session sm texts (fun s => K s ∨ s = c)
  | open_ {sm texts K} {a : Span} : Session sm texts K → K a →
      Session sm texts (fun s => K s ∨ s = a.firstByte)
  | close {sm texts K} {a : Span} : Session sm texts K → K a →
      Session sm texts (fun s => K s ∨ s = a.lastByte)
  | resolvedAt {sm texts K} {a b : Span} : Session sm texts K → K a → K b →
      Session sm texts (fun s => K s ∨ s = a.resolvedAt b)
  | locatedAt {sm texts K} {a b : Span} : Session sm texts K → K a → K b →
      Session sm texts (fun s => K s ∨ s = a.locatedAt b)
  | invalidate {sm texts K} : Session sm texts K → Session sm.invalidate [] (· = Span.callSite)

end

end PM2.Spec
