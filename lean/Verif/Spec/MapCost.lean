import Verif.Model.TimedMap
import Verif.Spec.History
/-!
# Specification: sequences of questions about the bytes of a text

`Span::byte_range` and `Span::source_text` count characters, and remember what they have counted. What a question costs
depends on how far its span is from a position that was asked about before.
-/

namespace PM2.Spec

/-- A question about the bytes of a span. -/
inductive Query where
  | byteRange (s : Span)
  | sourceText (s : Span)

/-- The span asked about. -/
def Query.span : Query → Span
  | .byteRange s => s
  | .sourceText s => s

/-- The number of characters in the answer. -/
def Query.copied : Query → Nat
  | .byteRange _ => 0
  | .sourceText s => s.hi - s.lo

/-- Ask one question. -/
def Query.ask (sm : SourceMap) : Query → Timed Unit SourceMap
  | .byteRange s => TM.spanByteRange sm s >>= fun r => .ok r.1
  | .sourceText s => TM.spanSourceText sm s >>= fun r => .ok r.1

/-- Ask one question after the other. -/
def askAll (sm : SourceMap) : List Query → Timed Unit SourceMap
  | [] => .ok sm
  | q :: qs => q.ask sm >>= fun sm => askAll sm qs

/-- The distance of two positions. -/
def gap (a b : Nat) : Nat := (a - b) + (b - a)

/-- How far one travels from position `p`, going from the beginning to the end of each span in turn. -/
def travel (p : Nat) : List Query → Nat
  | [] => 0
  | q :: qs => gap p q.span.lo + gap q.span.lo q.span.hi + travel q.span.hi qs

/-- The spans come in the order of the text, and do not overlap. -/
def Ascending : List Query → Prop :=
  List.Pairwise (fun a b => a.span.hi ≤ b.span.lo)

end PM2.Spec
