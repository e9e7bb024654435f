import Verif.Model.Detection
/-!
# Specification: which implementation is used
-/

namespace PM2.Spec
open Detect

/-- What is decided after a step. Forcing decides for the fallback; a detection decides what it found. -/
def decide1 : Option Bool → Ev → Option Bool
  | _, .forced => some false
  | _, .detect _ b => some b
  | mode, _ => mode

/-- What is decided after some steps, from `mode`. -/
def decided (mode : Option Bool) (es : List (Nat × Ev)) : Option Bool :=
  es.foldl (fun m e => decide1 m e.2) mode

/-- A step is right: a query detects only if nothing is decided, and answers what is decided. -/
def StepOk (mode : Option Bool) : Ev → Prop
  | .detect true _ => mode = none
  | .ret b => mode = some b
  | _ => True

/-- Every step of a history is right. -/
def HistoryOk : Option Bool → List (Nat × Ev) → Prop
  | _, [] => True
  | mode, e :: es => StepOk mode e.2 ∧ HistoryOk (decide1 mode e.2) es

/-- The steps are ordered by happens-before: one thread at a time acts, first `c`, and the next one
learns what it knows. -/
def Ordered : Nat → List (Nat × Ev) → Prop
  | _, [] => True
  | c, (t, .sync u) :: es => t = c ∧ Ordered u es
  | c, (t, _) :: es => t = c ∧ Ordered c es

/-- The thread that acts after a step, `c` acting before. -/
def nextActor (c : Nat) : Ev → Nat
  | .sync u => u
  | _ => c

/-- The thread that acts after the steps. -/
def actor (c : Nat) (es : List (Nat × Ev)) : Nat := es.foldl (fun c e => nextActor c e.2) c

/-- All steps are by threads that know what the threads `ks` know: these threads and those that learn it
from such a thread. -/
def Informed : List Nat → List (Nat × Ev) → Prop
  | _, [] => True
  | ks, (t, .sync u) :: es => t ∈ ks ∧ Informed (u :: ks) es
  | ks, (t, _) :: es => t ∈ ks ∧ Informed ks es

/-- The results of the calls of `is_available`. -/
def detections (es : List (Nat × Ev)) : List Bool :=
  es.filterMap (fun e => match e.2 with | .detect _ b => some b | _ => none)

/-- The answers of the queries. -/
def answers (es : List (Nat × Ev)) : List Bool :=
  es.filterMap (fun e => match e.2 with | .ret b => some b | _ => none)

/-- Neither `force` nor `unforce` is called. -/
def NoForce (es : List (Nat × Ev)) : Prop := ∀ t, (t, Ev.callForce) ∉ es ∧ (t, Ev.callUnforce) ∉ es

/-- How many steps a thread has to go to the end of its call, at most. -/
def rank : PC → Nat
  | .idle => 0
  | .load 0 => 6
  | .once 0 => 5
  | .init (some 0) => 4
  | .store (some 0) _ => 3
  | .leave 0 => 2
  | .load 1 => 1
  | .init none => 2
  | .store none _ => 1
  | .force => 1
  | _ => 7

/-- The step begins a call, or is outside of the module. -/
def IsCall : Ev → Prop
  | .callQuery | .callForce | .callUnforce | .sync _ => True
  | _ => False

end PM2.Spec
