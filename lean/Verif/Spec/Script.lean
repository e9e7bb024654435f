import Verif.Model.Script
import Verif.Spec.Panics
/-!
# Specification: iterators of the user and caught panics, in both modes

`extend` and `collect` first run the iterator to its end, until it panics, or until it returns what the stream does not take. Then
everything that was taken is appended in one call.
-/

namespace PM2.Spec
open Wrap

section
variable [Compiler]

/-- Everything is appended at once; an interrupted `extend` of the compiler is the compiler's. -/
instance [Unwinding] : Torn Eager where
  torn s ss := ⟨Unwinding.left s.tokens (ss.map Eager.tokens)⟩

/-- An iterator that returns what is in the variables `js`, and then runs `c` and returns `None`. -/
def feedOf (c : Script) : List Nat → Feed
  | [] => .stop c
  | j :: js => .yield .skip j (feedOf c js)

/-- An iterator that returns what is in the variables `js`, and then goes on like `it`. -/
def feedThen (it : Feed) : List Nat → Feed
  | [] => it
  | j :: js => .yield .skip j (feedThen it js)

section
variable {σ : Type} [Rep σ] [Torn σ]

/-- A stream after `Extend<TokenStream>` with these streams. -/
def appended (x : WStream σ) (xs : List (WStream σ)) (e : End) : Out (WStream σ) :=
  match x with
  | .fallback _ => x.extendStreams xs
  | .compiler d =>
    if e = .returned then x.extendStreams xs
    else do .ok (.compiler (Torn.torn d (← unwrapNightlies xs)))

/-- What is taken of a stream of the fallback, and how that ends, if there is a panic after `k` tokens and before the last. -/
def firstPart (k : Nat) : WStream σ → Out (List (WStream σ) × End)
  | .fallback ts => if k < ts.length then .ok ([.fallback (ts.take k)], .panicked) else .ill
  | .compiler _ => .ok ([], .mismatched)

variable [UnicodeTables]

mutual
/-- The state after the code, and how it ended. -/
def runAll : Script → State σ → Out (State σ × End)
  | .skip, s => .ok (s, .returned)
  | .op inside o, s =>
    if !o.plain then .ill
    else (Wrap.step inside s o).tried (fun s' => .ok (s', .returned)) (fun e => .ok (leave inside s o, e))
  | .panic, s => .ok (s, .panicked)
  | .seq c d, s => do
    let (s, e) ← runAll c s
    if e = .returned then runAll d s else .ok (s, e)
  | .catch_ c, s => do
    let (s', e) ← runAll c s
    .ok (if e = .returned then s' else { s' with vars := s'.vars.take s.vars.length }, .returned)
  | .extendTrees i it, s => do
    let x ← s.stream i
    let (s, ts, e) ← takenTrees (streamMode x) it (s.set i .none)
    .ok (s.set i (.stream (← x.extendTrees ts)), e)
  | .extendStreams i it, s => do
    let x ← s.stream i
    let (s, xs, e) ← takenStreams (some (streamMode x)) it (s.set i .none)
    .ok (s.set i (.stream (← appended x xs e)), e)
  | .collectTrees inside it, s => do
    let (s, ts, e) ← takenTrees inside it s
    if e = .returned then do .ok (s.push (.stream (← WStream.collectTrees inside ts)), e) else .ok (s, e)
  | .collectStreams inside it, s => do
    let (s, xs, e) ← takenStreams none it s
    if e = .returned then do .ok (s.push (.stream (← WStream.collectStreams inside xs)), e) else .ok (s, e)

/-- The trees that an iterator returns. If `strict`, those of the fallback are not taken. -/
def takenTrees (strict : Bool) : Feed → State σ → Out (State σ × List Tree × End)
  | .stop c, s => do
    let (s, e) ← runAll c s
    .ok (s, [], e)
  | .yield c j it, s => do
    let (s, e) ← runAll c s
    if e = .returned then do
      let t ← s.tree j
      if !strict || treeMode t then do
        let (s, ts, e) ← takenTrees strict it s
        .ok (s, t :: ts, e)
      else .ok (s, [], .mismatched)
    else .ok (s, [], e)
  | .hint .., _ => .ill

/-- The streams that an iterator returns. Only those of the mode are taken; if there is no mode, those of the mode of the first. -/
def takenStreams (mode : Option Bool) : Feed → State σ → Out (State σ × List (WStream σ) × End)
  | .stop c, s => do
    let (s, e) ← runAll c s
    .ok (s, [], e)
  | .yield c j it, s => do
    let (s, e) ← runAll c s
    if e = .returned then do
      let x ← s.stream j
      if mode.all (· == streamMode x) then do
        let (s, xs, e) ← takenStreams (some (streamMode x)) it s
        .ok (s, x :: xs, e)
      else .ok (s, [], .mismatched)
    else .ok (s, [], e)
  | .hint c j k, s =>
    if mode = some false then do
      let (s, e) ← runAll c s
      if e = .returned then do
        let (xs, e) ← firstPart k (← s.stream j)
        .ok (s, xs, e)
      else .ok (s, [], e)
    else .ill
end

end

/-- The calls that take an iterator. -/
inductive TakesIterator : Op → Prop where
  | collectTrees (js : List Nat) : TakesIterator (.collectTrees js)
  | collectStreams (js : List Nat) : TakesIterator (.collectStreams js)
  | extendTrees (i : Nat) (js : List Nat) : TakesIterator (.extendTrees i js)
  | extendStreams (i : Nat) (js : List Nat) : TakesIterator (.extendStreams i js)

/-- The variable that a call assigns to. -/
def opTarget : Op → Option Nat
  | .extendTrees i _ | .extendStreams i _ | .next i | .setSpan i _ => some i
  | _ => none

mutual
/-- The variables that a script assigns to. -/
def targets : Script → List Nat
  | .skip | .panic => []
  | .op _ o => (opTarget o).toList
  | .seq c d => targets c ++ targets d
  | .catch_ c => targets c
  | .extendTrees i it | .extendStreams i it => i :: feedTargets it
  | .collectTrees _ it | .collectStreams _ it => feedTargets it
/-- Those of an iterator. -/
def feedTargets : Feed → List Nat
  | .stop c => targets c
  | .yield c _ it => targets c ++ feedTargets it
  | .hint c _ _ => targets c
end

mutual
/-- Every call of the script has this property, also those of iterators. -/
def EveryOp (P : Bool → Op → Prop) : Script → Prop
  | .skip | .panic => True
  | .op inside o => P inside o
  | .seq c d => EveryOp P c ∧ EveryOp P d
  | .catch_ c => EveryOp P c
  | .extendTrees _ it | .extendStreams _ it => EveryFeedOp P it
  | .collectTrees inside it => P inside (.collectTrees []) ∧ EveryFeedOp P it
  | .collectStreams inside it => P inside (.collectStreams []) ∧ EveryFeedOp P it
def EveryFeedOp (P : Bool → Op → Prop) : Feed → Prop
  | .stop c => EveryOp P c
  | .yield c _ it => EveryOp P c ∧ EveryFeedOp P it
  | .hint c _ _ => EveryOp P c
end

section
variable {σ : Type} [Rep σ] [Torn σ] [UnicodeTables]

mutual
/-- Spans are invalidated only when no variable has a span of a parsed text, and nothing else has: `H` are the spans of streams that are
being extended, and of what was taken from iterators that have not ended. Texts of more than `u32::MAX` characters are excluded, and
a `CStr` has no NUL before its end. All this as far as the script gets. -/
def LiveScript (H : Span → Prop) : Script → State σ → Prop
  | .skip, _ | .panic, _ => True
  | .op _ o, s => Live s o ∧ CText o ∧ (o = .invalidate → ∀ sp, H sp → sp = Span.callSite)
  | .seq c d, s => LiveScript H c s ∧ ∀ s', runAll c s = .ok (s', .returned) → LiveScript H d s'
  | .catch_ c, s => LiveScript H c s
  | .extendTrees i it, s | .extendStreams i it, s =>
    ∀ v, s.vars[i]? = some v → LiveFeed (fun sp => H sp ∨ sp ∈ valueSpans v) it (s.set i .none)
  | .collectTrees _ it, s | .collectStreams _ it, s => LiveFeed H it s
def LiveFeed (H : Span → Prop) : Feed → State σ → Prop
  | .stop c, s => LiveScript H c s
  | .yield c j it, s => LiveScript H c s ∧ ∀ s' v, runAll c s = .ok (s', .returned) → s'.vars[j]? = some v →
      LiveFeed (fun sp => H sp ∨ sp ∈ valueSpans v) it s'
  | .hint c _ _, s => LiveScript H c s
end

end

end

end PM2.Spec
