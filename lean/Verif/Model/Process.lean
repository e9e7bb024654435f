import Verif.Model.Detection
import Verif.Model.Wrapper
/-!
# Processes: threads that run programs of the API and share the detection

Any number of threads, each with its own values and its own source map (src/fallback.rs:323-336, a
`thread_local!`; no value of the crate can be sent to another thread, C92), share `WORKS` and `INIT` of
src/detection.rs. A call that asks `inside_proc_macro()` begins with a query, which goes on in steps of
`Model/Detection.lean` interleaved with those of other threads, and then runs with the answer. A thread whose
call panics ends.
-/

namespace PM2.Process
open Wrap
open Detect (upd)

section
variable [Compiler] {σ : Type}

/-- The calls that ask `inside_proc_macro()`, all of them once. src/wrapper.rs:91, 99, 184, 196, 381, 389, 398, 770,
782, 793, 803, 844, 852, 860, 868, 876, 895, 903, 981; src/wrapper.rs:225 (no stream to concatenate);
src/wrapper.rs:271 (an error of the compiler); src/lib.rs:853 (after the check of the character). -/
def queries (s : State σ) : Op → Bool
  | .new | .fromStr _ | .fromTree _ | .collectTrees _ | .callSite | .mixedSite | .defSite | .literalNew _
  | .literalFromStr _ | .literalUnchecked _ | .byteCharacter _ | .cString _ | .invalidate => true
  | .punctNew ch _ => isPunctCtorChar ch
  | .collectStreams is => is.isEmpty
  | .errorSpan i =>
    match s.vars[i]? with
    | some (.error (.compiler _)) => true
    | some (.error .compilerPanic) => true
    | _ => false
  | _ => false

/-- `detect` is shared; `thread t` is what has become of thread `t`; `call t` is its call that waits for the
answer of `inside_proc_macro()`. -/
structure St (σ : Type) where
  detect : Detect.St
  thread : Nat → Out (State σ)
  call : Nat → Option Op

def St.init : St σ := ⟨.init, fun _ => .ok .init, fun _ => none⟩

/-- What happens in a step. -/
inductive Ev where
  /-- a call asks `inside_proc_macro()` -/
  | start (op : Op)
  /-- the call gets the answer and runs -/
  | finish (inside : Bool) (op : Op)
  /-- a call that does not ask -/
  | plain (op : Op)
  /-- `force` or `unforce`, a step of the detection, or synchronization -/
  | detect (e : Detect.Ev)

/-- The step is not one of a call of this model. -/
def Internal : Detect.Ev → Prop
  | .callQuery | .ret _ => False
  | _ => True

variable [UnicodeTables] [Rep σ]

/-- One step of thread `t`. -/
inductive Step : St σ → Nat → Ev → St σ → Prop
  | start {p t s op d} : p.thread t = .ok s → p.call t = none → queries s op = true →
      Detect.Step p.detect t .callQuery d → Step p t (.start op) { p with detect := d, call := upd p.call t (some op) }
  | finish {p t s op b d} : p.thread t = .ok s → p.call t = some op → Detect.Step p.detect t (.ret b) d →
      Step p t (.finish b op)
        { detect := d, thread := upd p.thread t (Wrap.step b s op), call := upd p.call t none }
  /-- the answer is not used -/
  | plain {p t s op} : p.thread t = .ok s → p.call t = none → p.detect.pc t = .idle → queries s op = false →
      Step p t (.plain op) { p with thread := upd p.thread t (Wrap.step false s op) }
  /-- src/fallback.rs:42-52 begin, if the thread lives and is not in a call -/
  | force {p t s e d} : p.thread t = .ok s → p.call t = none → e = .callForce ∨ e = .callUnforce →
      Detect.Step p.detect t e d → Step p t (.detect e) { p with detect := d }
  | internal {p t e d} : Internal e → e ≠ .callForce → e ≠ .callUnforce → Detect.Step p.detect t e d →
      Step p t (.detect e) { p with detect := d }

/-- An execution: the steps with their threads. -/
inductive Exec (p₀ : St σ) : List (Nat × Ev) → St σ → Prop
  | init : Exec p₀ [] p₀
  | step {es p t e p'} : Exec p₀ es p → Step p t e p' → Exec p₀ (es ++ [(t, e)]) p'

end

end PM2.Process
