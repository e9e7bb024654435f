import Verif.Model.Wrapper
/-!
# Specification: modes, and appending at once
-/

namespace PM2.Spec
open Wrap

section
variable [Compiler]

/-- A compiler's stream to which everything is appended at once. -/
structure Eager where
  tokens : List CTree

instance : Rep Eager where
  new ts := ⟨ts⟩
  isEmpty s := s.tokens.isEmpty
  intoStream s := s.tokens
  extendTrees s ts := ⟨s.tokens ++ ts.flatMap Compiler.enter⟩
  extendStreams s ss := ⟨s.tokens ++ ss.flatMap Eager.tokens⟩

/-- The tokens of a deferred stream. -/
def now (d : Deferred) : Eager := ⟨d.stream ++ d.extra.flatMap Compiler.enter⟩

/-- A stream with another representation of compiler's streams. -/
def mapStream {σ τ : Type} (f : σ → τ) : WStream σ → WStream τ
  | .compiler s => .compiler (f s)
  | .fallback ts => .fallback ts

/-- A value with another representation of compiler's streams. -/
def mapValue {σ τ : Type} (f : σ → τ) : Value σ → Value τ
  | .stream s => .stream (mapStream f s)
  | .tree t => .tree t
  | .span s => .span s
  | .iterC ts => .iterC ts
  | .iterF ts => .iterF ts
  | .error e => .error e
  | .bool b => .bool b
  | .text t => .text t
  | .streamC ts => .streamC ts
  | .spanC s => .spanC s
  | .delim d => .delim d
  | .delimiter d => .delimiter d
  | .spacing s => .spacing s
  | .ordering o => .ordering o
  | .range lo hi => .range lo hi
  | .lineColumn lc => .lineColumn lc
  | .hint lower upper => .hint lower upper
  | .bytes bs => .bytes bs
  | .conversion r => .conversion r
  | .none => .none

def mapState {σ τ : Type} (f : σ → τ) (s : State σ) : State τ := ⟨s.sm, s.vars.map (mapValue f)⟩

/-- Change the result. -/
def mapOut {α β : Type} (f : α → β) : Out α → Out β
  | .ok a => .ok (f a)
  | .mismatch => .mismatch
  | .panic => .panic
  | .diverge => .diverge
  | .ill => .ill

/-! ## Modes: `true` for the compiler, `false` for the fallback -/

def spanMode : WSpan → Bool
  | .compiler _ => true
  | .fallback _ => false

/-- The mode of a tree, not looking into groups. -/
def treeMode : Tree → Bool
  | .groupC _ | .identC _ | .literalC _ => true
  | .groupF _ _ _ | .identF _ _ _ | .literalF _ _ => false
  | .punct _ _ s => spanMode s

def streamMode {σ : Type} : WStream σ → Bool
  | .compiler _ => true
  | .fallback _ => false

def delimMode : WDelim → Bool
  | .compiler _ _ _ => true
  | .fallback _ => false

/-- Everything in the tree is of mode `m`. -/
inductive TreeOf : Bool → Tree → Prop
  | compiler {t} : treeMode t = true → TreeOf true t
  | ident {sym raw s} : TreeOf false (.identF sym raw s)
  | punct {ch sp s} : TreeOf false (.punct ch sp (.fallback s))
  | literal {r s} : TreeOf false (.literalF r s)
  | group {d ts s} : (∀ t ∈ ts, TreeOf false t) → TreeOf false (.groupF d ts s)

/-- Everything in the value is of mode `m`. -/
def ValueOf {σ : Type} (m : Bool) : Value σ → Prop
  | .stream (.compiler _) => m = true
  | .stream (.fallback ts) => m = false ∧ ∀ t ∈ ts, TreeOf false t
  | .tree t => TreeOf m t
  | .span s => spanMode s = m
  | .iterC _ => m = true
  | .iterF ts => m = false ∧ ∀ t ∈ ts, TreeOf false t
  | .error (.fallback _) => m = false
  | .delim d => delimMode d = m
  | _ => True

/-- The call brings in a value of the compiler from outside. -/
def Imports : Op → Prop
  | .fromCompiler _ | .spanFromCompiler _ => True
  | _ => False

def IsPunct : Tree → Prop
  | .punct _ _ _ => True
  | _ => False

def IsIdent : Tree → Prop
  | .identC _ | .identF _ _ _ => True
  | _ => False

/-- The variables are the trees. -/
def HaveTrees {σ : Type} (s : State σ) (is : List Nat) (ts : List Tree) : Prop :=
  is.map (fun i => s.vars[i]?) = ts.map (fun t => some (.tree t))

/-- The variables are the streams. -/
def HaveStreams {σ : Type} (s : State σ) (is : List Nat) (ss : List (WStream σ)) : Prop :=
  is.map (fun i => s.vars[i]?) = ss.map (fun t => some (.stream t))

/-- The calls that mix modes and are refused:
- `resolved_at` and `located_at` of spans of two modes
- `set_span` of a group, identifier or literal of another mode
- comparing identifiers of two modes
- inside a macro, making a stream of trees that are the fallback's
- appending trees of the fallback to a stream of the compiler
- concatenating streams of two modes -/
def Mixes {σ : Type} (inside : Bool) (s : State σ) : Op → Prop
  | .resolvedAt i j | .locatedAt i j =>
    ∃ a b, s.vars[i]? = some (.span a) ∧ s.vars[j]? = some (.span b) ∧ spanMode a ≠ spanMode b
  | .setSpan i j =>
    ∃ t a, s.vars[i]? = some (.tree t) ∧ s.vars[j]? = some (.span a) ∧ ¬ IsPunct t ∧ treeMode t ≠ spanMode a
  | .identEq i j =>
    ∃ t u, s.vars[i]? = some (.tree t) ∧ s.vars[j]? = some (.tree u) ∧ IsIdent t ∧ IsIdent u ∧
      treeMode t ≠ treeMode u
  | .fromTree i => inside = true ∧ ∃ t, s.vars[i]? = some (.tree t) ∧ treeMode t = false
  | .collectTrees is => inside = true ∧ ∃ ts, HaveTrees s is ts ∧ ∃ t ∈ ts, treeMode t = false
  | .extendTrees i js =>
    ∃ x ts, s.vars[i]? = some (.stream x) ∧ HaveTrees s js ts ∧ streamMode x = true ∧
      ∃ t ∈ ts, treeMode t = false
  | .extendStreams i js =>
    ∃ x ss, s.vars[i]? = some (.stream x) ∧ HaveStreams s js ss ∧ ∃ y ∈ ss, streamMode y ≠ streamMode x
  | .collectStreams is =>
    ∃ x ss, HaveStreams s is (x :: ss) ∧ ∃ y ∈ ss, streamMode y ≠ streamMode x
  | _ => False

end

end PM2.Spec
