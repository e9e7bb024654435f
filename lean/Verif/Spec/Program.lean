import Verif.Spec.Session
import Verif.Spec.Wrapper
import Verif.Spec.Additive
/-!
# Specification: the spans that a program has
-/

namespace PM2.Spec
open Wrap

section
variable [Compiler]

def spanSpans : WSpan → List Span
  | .compiler _ => []
  | .fallback s => [s]

mutual
/-- The spans of the fallback in a tree, at any depth. -/
def treeSpans : Tree → List Span
  | .groupC _ | .identC _ | .literalC _ => []
  | .groupF _ ts s => s :: treesSpans ts
  | .identF _ _ s => [s]
  | .punct _ _ s => spanSpans s
  | .literalF _ s => [s]
def treesSpans : List Tree → List Span
  | [] => []
  | t :: ts => treeSpans t ++ treesSpans ts
end

def streamSpans {σ : Type} : WStream σ → List Span
  | .compiler _ => []
  | .fallback ts => treesSpans ts

/-- The spans of the fallback in a value. -/
def valueSpans {σ : Type} : Value σ → List Span
  | .stream s => streamSpans s
  | .tree t => treeSpans t
  | .span s => spanSpans s
  | .iterF ts => treesSpans ts
  | .error (.fallback s) => [s]
  | .delim (.fallback s) => [s]
  | _ => []

/-- A variable has the span. -/
def HasSpan {σ : Type} (s : State σ) (sp : Span) : Prop := ∃ v ∈ s.vars, sp ∈ valueSpans v

/-- Spans are invalidated only when no variable has a span of a parsed text. Texts of more than `u32::MAX`
characters are excluded. -/
def Live {σ : Type} (s : State σ) : Op → Prop
  | .fromStr src | .literalFromStr src => src.length < 2 ^ 32
  | .invalidate => ∀ sp, HasSpan s sp → sp = Span.callSite
  | _ => True

/-- Every call of the program is so, as far as the program gets. -/
def LiveRun {σ : Type} [UnicodeTables] [Rep σ] (s : State σ) : List (Bool × Op) → Prop
  | [] => True
  | (inside, op) :: ops => Live s op ∧ ∀ s', Wrap.step inside s op = .ok s' → LiveRun s' ops

/-- The texts parsed since the last invalidation. -/
def textsOf (texts : List (List Char)) : List (Bool × Op) → List (List Char)
  | [] => texts
  | (_, op) :: ops => textsOf (textsAfter texts op) ops

end

end PM2.Spec
