import Verif.Model.PanicHook
import Verif.Model.Process
/-!
# Processes before rustc 1.57

As `Model/Process.lean`, but with the detection of `Model/PanicHook.lean` (cfg `no_is_available`), which takes away the
panic hook of the process for a while and can itself panic. A call that panics runs the hook that is registered at
this time.
-/

namespace PM2.OldProcess
open Wrap
open Detect (upd)
open Hook (Handler)
open Process (queries)

section
variable [Compiler] {σ : Type}

/-- `hook` is shared; `thread t` is what has become of thread `t`; `call t` is its call that waits for the
answer of `inside_proc_macro()`. -/
structure St (σ : Type) where
  hook : Hook.St
  thread : Nat → Out (State σ)
  call : Nat → Option Op

def St.init : St σ := ⟨.init, fun _ => .ok .init, fun _ => none⟩

/-- The hook that runs if the call panics, by itself (src/wrapper.rs:49-60 for `mismatch`) or in the compiler. -/
def report (h : Handler) : Out (State σ) → Option Handler
  | .panic | .mismatch => some h
  | _ => none

/-- What happens in a step. -/
inductive Ev where
  /-- a call asks `inside_proc_macro()` -/
  | start (op : Op)
  /-- the call gets the answer and runs, and if it panics this hook runs -/
  | finish (inside : Bool) (op : Op) (ran : Option Handler)
  /-- a call that does not ask -/
  | plain (op : Op) (ran : Option Handler)
  /-- `force` or `unforce`, a step of the detection, synchronization, or hooks -/
  | hook (e : Hook.Ev)

/-- The step is not the beginning or the end of a call, and does not panic. -/
def Internal : Hook.Ev → Prop
  | .api .callQuery | .api (.ret _) | .api .callForce | .api .callUnforce | .race | .poisoned => False
  | _ => True

variable [UnicodeTables] [Rep σ]

/-- One step of thread `t`. -/
inductive Step : St σ → Nat → Ev → St σ → Prop
  | start {p t s op d} : p.thread t = .ok s → p.call t = none → queries s op = true →
      Hook.Step p.hook t (.api .callQuery) d →
      Step p t (.start op) { p with hook := d, call := upd p.call t (some op) }
  | finish {p t s op b d} : p.thread t = .ok s → p.call t = some op → Hook.Step p.hook t (.api (.ret b)) d →
      Step p t (.finish b op (report d.hook (Wrap.step b s op)))
        { hook := d, thread := upd p.thread t (Wrap.step b s op), call := upd p.call t none }
  /-- the answer is not used -/
  | plain {p t s op} : p.thread t = .ok s → p.call t = none → p.hook.pc t = .idle → queries s op = false →
      Step p t (.plain op (report p.hook.hook (Wrap.step false s op)))
        { p with thread := upd p.thread t (Wrap.step false s op) }
  /-- src/fallback.rs:42-52 begin, if the thread lives and is not in a call -/
  | force {p t s e d} : p.thread t = .ok s → p.call t = none → e = .callForce ∨ e = .callUnforce →
      Hook.Step p.hook t (.api e) d → Step p t (.hook (.api e)) { p with hook := d }
  | internal {p t e d} : Internal e → Hook.Step p.hook t e d → Step p t (.hook e) { p with hook := d }
  /-- src/detection.rs:14, 72-74: the call panics, or `unforce` does -/
  | panics {p t e d} : e = .race ∨ e = .poisoned → Hook.Step p.hook t e d →
      Step p t (.hook e) { hook := d, thread := upd p.thread t .panic, call := upd p.call t none }

/-- An execution: the steps with their threads. -/
inductive Exec (p₀ : St σ) : List (Nat × Ev) → St σ → Prop
  | init : Exec p₀ [] p₀
  | step {es p t e p'} : Exec p₀ es p → Step p t e p' → Exec p₀ (es ++ [(t, e)]) p'

end

end PM2.OldProcess
