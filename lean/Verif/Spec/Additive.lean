import Verif.Model.NoSpanWrapper
import Verif.Spec.Wrapper
import Verif.Spec.History
/-!
# Specification: programs that do not look at positions
-/

namespace PM2.Spec
open Wrap

section
variable [Compiler]

/-- A span without its positions, if it is the fallback's. -/
def eraseSpanW : WSpan → WSpan
  | .compiler s => .compiler s
  | .fallback _ => .fallback Span.callSite

mutual
/-- A tree without the positions of the fallback, at any depth. -/
def eraseTreeW : Tree → Tree
  | .groupC g => .groupC g
  | .groupF d ts _ => .groupF d (eraseTreesW ts) Span.callSite
  | .identC i => .identC i
  | .identF sym raw _ => .identF sym raw Span.callSite
  | .punct ch sp s => .punct ch sp (eraseSpanW s)
  | .literalC l => .literalC l
  | .literalF r _ => .literalF r Span.callSite
def eraseTreesW : List Tree → List Tree
  | [] => []
  | t :: ts => eraseTreeW t :: eraseTreesW ts
end

def eraseDelimW : WDelim → WDelim
  | .compiler a b c => .compiler a b c
  | .fallback _ => .fallback Span.callSite

def eraseError : LexError → LexError
  | .compiler e => .compiler e
  | .fallback _ => .fallback Span.callSite
  | .compilerPanic => .compilerPanic

def eraseStreamW {σ : Type} : WStream σ → WStream σ
  | .compiler s => .compiler s
  | .fallback ts => .fallback (eraseTreesW ts)

/-- A value without the positions of the fallback. -/
def eraseValue {σ : Type} : Value σ → Value σ
  | .stream s => .stream (eraseStreamW s)
  | .tree t => .tree (eraseTreeW t)
  | .span s => .span (eraseSpanW s)
  | .iterF ts => .iterF (eraseTreesW ts)
  | .error e => .error (eraseError e)
  | .delim d => .delim (eraseDelimW d)
  | v => v

/-- The variables without positions, and no source map. -/
def eraseState {σ : Type} (s : State σ) : State σ := ⟨SourceMap.init, s.vars.map eraseValue⟩

/-- `Debug` of the value shows no position and no span of the fallback. -/
def HidesSpans {σ : Type} : Value σ → Prop
  | .stream s => streamMode s = true
  | .tree t => treeMode t = true
  | .span s => spanMode s = true
  | .iterF ts => ∀ t ∈ ts, treeMode t = true
  | .error (.compiler _) => True
  | .error _ => False
  | .delim d => delimMode d = true
  | _ => True

/-- The call exists in both configurations, and is not asked for the position of a value of the
fallback. -/
def Blind {σ : Type} (s : State σ) : Op → Prop
  | .byteRange _ | .start _ | .end_ _ | .file _ | .localFile _ | .invalidate => False
  | .defSite | .spanEq _ _ | .value _ _ => False
  | .join i j => ∀ a b, s.vars[i]? = some (.span a) → s.vars[j]? = some (.span b) →
      spanMode a = true ∨ spanMode b = true
  | .sourceText i => ∀ a, s.vars[i]? = some (.span a) → spanMode a = true
  | .subspan i _ _ => ∀ t, s.vars[i]? = some (.tree t) → treeMode t = true
  | .debugIdent _ i => ∀ t, s.vars[i]? = some (.tree t) → treeMode t = true
  | .debug _ i => ∀ v, s.vars[i]? = some v → HidesSpans v
  | _ => True

variable [UnicodeTables]

/-- Every call of the program is blind to positions, as far as the program gets. -/
def BlindRun {σ : Type} [Rep σ] (s : State σ) : List (Bool × Op) → Prop
  | [] => True
  | (inside, op) :: ops => Blind s op ∧ ∀ s', Wrap.step inside s op = .ok s' → BlindRun s' ops

omit [UnicodeTables] in
/-- The texts of the source map after a call, if there was room. -/
def textsAfter (texts : List (List Char)) : Op → List (List Char)
  | .fromStr src | .literalFromStr src => texts ++ [src]
  | .invalidate => []
  | _ => texts

omit [UnicodeTables] in
/-- There are positions for the text that the call parses, after `texts`. -/
def StepFits (texts : List (List Char)) : Op → Prop
  | .fromStr src | .literalFromStr src => Room texts src
  | _ => True

omit [UnicodeTables] in
/-- There are positions for all texts that the program parses, after `texts`. -/
def Fits (texts : List (List Char)) : List (Bool × Op) → Prop
  | [] => True
  | (_, op) :: ops => StepFits texts op ∧ Fits (textsAfter texts op) ops

end

end PM2.Spec
