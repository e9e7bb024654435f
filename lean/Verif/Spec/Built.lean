import Verif.Spec.HeapParse
import Verif.Spec.Grammar
import Verif.Spec.Stream
/-!
# Specification: programs whose streams can be printed and parsed again

The programs of `Spec/HeapParse.lean`, with conditions on what they put into streams: no group without delimiters, and after a
joint punct only what it can be joint to.
-/

namespace PM2.Spec
open Heap

/-- The stream ends with a joint punct. -/
def EndsJoint (ts : List TokenTree) : Prop := ∃ ts' c span, ts = ts' ++ [.punct c .joint span]

/-- `us` may follow `ts`: if `ts` ends with a joint punct, `us` begins with what it can be joint to. -/
def MayFollow (ts us : List TokenTree) : Prop :=
  us ≠ [] → ∀ ts' c span, ts = ts' ++ [.punct c .joint span] →
    (c ≠ '\'' → JoinsWith c us) ∧ (c = '\'' → QuoteJoins us)

/-- Not a number with a minus sign. -/
def NotNegative : TokenTree → Prop
  | .literal ('-' :: _) _ => False
  | _ => True

section
variable [UnicodeTables]

/-- The trees that the constructors give, except groups without delimiters and a quote that is not joint. -/
def BuiltTree : TokenTree → Prop
  | .ident sym raw _ => ValidIdent sym ∧ (raw = true → sym ∉ neverRaw)
  | .punct c sp _ => c ∈ punctChars ∧ (sp = .alone → c ≠ '\'')
  | .literal x _ => WholeLiteral x ∨ x = errorText
  | .group d ts _ => d ≠ .none ∧ WF ts

/-- What the program may do when its variables are `v`. `pushOwned` and `pushMut`, which only the crate itself does, push the
token as it is. -/
def BuiltOp (v : List Val) : Op → Prop
  | .leaf t => ∀ t', leafValue t = some t' → BuiltTree t'
  | .groupNew d i => d ≠ .none ∧ ∀ ts, v[i]? = some (.stream ts) → ¬ EndsJoint ts
  | .pushOwnedPM i j => ∀ ts t, v[i]? = some (.owned ts) → v[j]? = some (.tree t) → MayFollow ts (splitNeg t)
  | .pushMutPM i j => ∀ ts t, v[i]? = some (.borrowed ts) → v[j]? = some (.tree t) → MayFollow ts (splitNeg t)
  | .pushOwned i j => ∀ ts t, v[i]? = some (.owned ts) → v[j]? = some (.tree t) → NotNegative t ∧ MayFollow ts [t]
  | .pushMut i j => ∀ ts t, v[i]? = some (.borrowed ts) → v[j]? = some (.tree t) → NotNegative t ∧ MayFollow ts [t]
  | .extendOwned i j => ∀ ts us, v[i]? = some (.owned ts) → v[j]? = some (.owned us) → MayFollow ts us
  | .extendMut i j => ∀ ts us, v[i]? = some (.borrowed ts) → v[j]? = some (.owned us) → MayFollow ts us
  | _ => True

/-- The program keeps to that in each of its steps. Any text may be parsed. -/
def BuiltActs (sm : SourceMap) (v : List Val) : List Act → Prop
  | [] => True
  | a :: as => (∀ o, a = .op o → BuiltOp v o) ∧
      ∀ sm' v', vact sm v a = .ok (sm', v') → BuiltActs sm' v' as

end

end PM2.Spec
