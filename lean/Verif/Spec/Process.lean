import Verif.Model.Process
import Verif.Spec.Detection
import Verif.Spec.Wrapper
/-!
# Specification: what the threads of a process do
-/

namespace PM2.Spec
open Wrap

section
variable [Compiler]

/-- What a step is for the detection. -/
def Process.detectEvent : Process.Ev → Option Detect.Ev
  | .start _ => some .callQuery
  | .finish b _ => some (.ret b)
  | .plain _ => none
  | .detect e => some e

/-- The steps of the detection. -/
def Process.detectEvents (es : List (Nat × Process.Ev)) : List (Nat × Detect.Ev) :=
  es.filterMap (fun e => (Process.detectEvent e.2).map (e.1, ·))

/-- The calls that thread `t` has made, in order. -/
def Process.calls (t : Nat) (es : List (Nat × Process.Ev)) : List Op :=
  es.filterMap fun
    | (u, .finish _ op) | (u, .plain op) => if u = t then some op else none
    | _ => none

/-- The calls that thread `t` has made, each with what was decided at this time. -/
def Process.decidedCalls (t : Nat) : Option Bool → List (Nat × Process.Ev) → List (Bool × Op)
  | _, [] => []
  | m, (u, e) :: es =>
    (match e with
      | .finish _ op | .plain op => if u = t then [(m.getD false, op)] else []
      | _ => []) ++
    Process.decidedCalls t (match Process.detectEvent e with | some d => decide1 m d | none => m) es

/-- Run a program in one mode. -/
def runIn {σ : Type} [UnicodeTables] [Rep σ] (mode : Bool) (s : State σ) (ops : List Op) : Out (State σ) :=
  Wrap.run s (ops.map (mode, ·))

end

end PM2.Spec
