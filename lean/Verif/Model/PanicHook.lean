import Verif.Model.Detection
/-!
# Detecting the compiler's API before rustc 1.57 (src/detection.rs, cfg `no_is_available`)

`initialize` (src/detection.rs:56-75) takes away the panic hook, registers one that does nothing, tries a call of the compiler's
API, and registers the first hook again. The hook is global; `take_hook` and `set_hook` are atomic. Any
number of threads run, with the memory of `Model/Detection.lean`; in between, the rest of the program
(idle threads) sets and takes hooks and panics.

A hook that does nothing is created in each call of `initialize`; its address is the number in `null`.
Its closure captures nothing, so it has no storage and the addresses of different calls may be (and
with Rust's `Box` are) equal; the model allows any numbers. A thread that panics in this module ends.
A panic in the closure of `call_once` poisons `INIT`; `call_once` panics if it is poisoned.
-/

namespace PM2.Hook
open Detect (upd)

/-- A panic hook: that of the standard library, one of `initialize`, or the program's. -/
inductive Handler where
  | default
  | null (addr : Nat)
  | user (n : Nat)
deriving DecidableEq, Repr

/-- Where a thread is in the code. `o` is the number of recursive calls of `inside_proc_macro`, if
`initialize` runs in `call_once`; `none` in `unforce`. -/
inductive PC where
  /-- not in this module -/
  | idle
  /-- src/detection.rs:8, before the load -/
  | load (depth : Nat)
  /-- src/detection.rs:14, before `call_once` -/
  | once (depth : Nat)
  /-- src/detection.rs:62-64, before `take_hook` -/
  | take1 (o : Option Nat)
  /-- src/detection.rs:65, before `set_hook` -/
  | set1 (o : Option Nat) (addr : Nat) (orig : Handler)
  /-- src/detection.rs:67, before the call -/
  | probe (o : Option Nat) (addr : Nat) (orig : Handler)
  /-- src/detection.rs:68, before the store -/
  | store (o : Option Nat) (addr : Nat) (orig : Handler) (works : Bool)
  /-- src/detection.rs:70, before `take_hook` -/
  | take2 (o : Option Nat) (addr : Nat) (orig : Handler)
  /-- src/detection.rs:71, before `set_hook` -/
  | set2 (o : Option Nat) (addr : Nat) (orig got : Handler)
  /-- src/detection.rs:72, before the comparison -/
  | check (o : Option Nat) (addr : Nat) (got : Handler)
  /-- src/detection.rs:14, at the end of the closure -/
  | leave (depth : Nat)
  /-- src/detection.rs:19, before the store -/
  | force
  /-- unwound by a panic of this module -/
  | panicked
deriving DecidableEq, Repr

/-- The state of `INIT`; when it is done, the view of the thread that ran the closure. -/
inductive OnceState where
  | new
  | running (t : Nat)
  | done (view : Nat)
  | poisoned
deriving DecidableEq, Repr

structure St where
  mo : List Nat
  view : Nat → Nat
  once : OnceState
  hook : Handler
  pc : Nat → PC

/-- src/detection.rs:4-5; the standard library's hook is registered. -/
def St.init : St := ⟨[0], fun _ => 0, .new, .default, fun _ => .idle⟩

/-- A store of `x` to `WORKS` by thread `t`, at place `p` of the modification order. -/
def St.write (s : St) (t p x : Nat) : St :=
  { s with
    mo := s.mo.take p ++ x :: s.mo.drop p
    view := upd (fun u => if s.view u < p then s.view u else s.view u + 1) t p
    once := match s.once with
      | .done w => .done (if w < p then w else w + 1)
      | o => o }

/-- What happens in a step. -/
inductive Ev where
  /-- what also happens with `is_available` -/
  | api (e : Detect.Ev)
  /-- `initialize` takes the hook -/
  | enter (h : Handler)
  /-- the call of the compiler's API returns (`works`) or panics with the hook `h`; for a query or for
  `unforce` -/
  | probe (query works : Bool) (h : Handler)
  /-- `initialize` puts the hook back -/
  | exit (h : Handler)
  /-- the panic "observed race condition" -/
  | race
  /-- the panic of `call_once` -/
  | poisoned
  /-- the program registers a hook -/
  | set (h : Handler)
  /-- the program takes the hook -/
  | took (h : Handler)
  /-- the program panics, and this hook runs -/
  | ran (h : Handler)
  | internal
deriving DecidableEq, Repr

/-- One step of thread `t`. -/
inductive Step : St → Nat → Ev → St → Prop
  /-- src/detection.rs:7 -/
  | callQuery {s t} : s.pc t = .idle → Step s t (.api .callQuery) { s with pc := upd s.pc t (.load 0) }
  /-- src/detection.rs:18 -/
  | callForce {s t} : s.pc t = .idle → Step s t (.api .callForce) { s with pc := upd s.pc t .force }
  /-- src/detection.rs:22-23 -/
  | callUnforce {s t} : s.pc t = .idle →
      Step s t (.api .callUnforce) { s with pc := upd s.pc t (.take1 none) }
  /-- src/detection.rs:9 -/
  | loadFalse {s t d i} : s.pc t = .load d → s.view t ≤ i → s.mo[i]? = some 1 →
      Step s t (.api (.ret false)) { s with view := upd s.view t i, pc := upd s.pc t .idle }
  /-- src/detection.rs:10 -/
  | loadTrue {s t d i} : s.pc t = .load d → s.view t ≤ i → s.mo[i]? = some 2 →
      Step s t (.api (.ret true)) { s with view := upd s.view t i, pc := upd s.pc t .idle }
  /-- src/detection.rs:11 -/
  | loadOther {s t d i v} : s.pc t = .load d → s.view t ≤ i → s.mo[i]? = some v → v ≠ 1 → v ≠ 2 →
      Step s t (.api .other) { s with view := upd s.view t i, pc := upd s.pc t (.once d) }
  /-- src/detection.rs:14: this thread runs the closure -/
  | onceRun {s t d} : s.pc t = .once d → s.once = .new →
      Step s t (.api .other) { s with once := .running t, pc := upd s.pc t (.take1 (some d)) }
  /-- src/detection.rs:14-15: the closure has been run -/
  | onceDone {s t d w} : s.pc t = .once d → s.once = .done w →
      Step s t (.api .other)
        { s with view := upd s.view t (max (s.view t) w), pc := upd s.pc t (.load (d + 1)) }
  /-- src/detection.rs:14: the closure has panicked -/
  | oncePoisoned {s t d} : s.pc t = .once d → s.once = .poisoned →
      Step s t .poisoned { s with pc := upd s.pc t .panicked }
  /-- src/detection.rs:62-64 -/
  | take1 {s t o} (addr : Nat) : s.pc t = .take1 o →
      Step s t (.enter s.hook) { s with hook := .default, pc := upd s.pc t (.set1 o addr s.hook) }
  /-- src/detection.rs:65 -/
  | set1 {s t o addr orig} : s.pc t = .set1 o addr orig →
      Step s t .internal { s with hook := .null addr, pc := upd s.pc t (.probe o addr orig) }
  /-- src/detection.rs:67 -/
  | probe {s t o addr orig} (works : Bool) : s.pc t = .probe o addr orig →
      Step s t (.probe o.isSome works s.hook) { s with pc := upd s.pc t (.store o addr orig works) }
  /-- src/detection.rs:68 -/
  | store {s t o addr orig works p} : s.pc t = .store o addr orig works → s.view t < p → p ≤ s.mo.length →
      Step s t (.api .other)
        { s.write t p (works.toNat + 1) with pc := upd s.pc t (.take2 o addr orig) }
  /-- src/detection.rs:70 -/
  | take2 {s t o addr orig} : s.pc t = .take2 o addr orig →
      Step s t .internal { s with hook := .default, pc := upd s.pc t (.set2 o addr orig s.hook) }
  /-- src/detection.rs:71 -/
  | set2 {s t o addr orig got} : s.pc t = .set2 o addr orig got →
      Step s t (.exit orig) { s with hook := orig, pc := upd s.pc t (.check o addr got) }
  /-- src/detection.rs:72-75: in `call_once` -/
  | checkOnce {s t d addr} : s.pc t = .check (some d) addr (.null addr) →
      Step s t .internal { s with pc := upd s.pc t (.leave d) }
  /-- src/detection.rs:72-75, 24: in `unforce` -/
  | checkUnforce {s t addr} : s.pc t = .check none addr (.null addr) →
      Step s t .internal { s with pc := upd s.pc t .idle }
  /-- src/detection.rs:72-73: in `call_once`, which is poisoned -/
  | raceOnce {s t d addr got} : s.pc t = .check (some d) addr got → got ≠ .null addr →
      Step s t .race { s with once := .poisoned, pc := upd s.pc t .panicked }
  /-- src/detection.rs:72-73: in `unforce` -/
  | raceUnforce {s t addr got} : s.pc t = .check none addr got → got ≠ .null addr →
      Step s t .race { s with pc := upd s.pc t .panicked }
  /-- src/detection.rs:14-15: the closure ends -/
  | leave {s t d} : s.pc t = .leave d →
      Step s t (.api .other) { s with once := .done (s.view t), pc := upd s.pc t (.load (d + 1)) }
  /-- src/detection.rs:19 -/
  | force {s t p} : s.pc t = .force → s.view t < p → p ≤ s.mo.length →
      Step s t (.api .forced) { s.write t p 1 with pc := upd s.pc t .idle }
  /-- not in this module: synchronization elsewhere in the program -/
  | sync {s t u} : s.pc t = .idle → s.pc u = .idle →
      Step s t (.api (.sync u)) { s with view := upd s.view u (max (s.view u) (s.view t)) }
  /-- not in this module: `std::panic::set_hook` -/
  | set {s t} (h : Handler) : s.pc t = .idle → Step s t (.set h) { s with hook := h }
  /-- not in this module: `std::panic::take_hook` -/
  | took {s t} : s.pc t = .idle → Step s t (.took s.hook) { s with hook := .default }
  /-- not in this module: a panic -/
  | ran {s t} : s.pc t = .idle → Step s t (.ran s.hook) s

/-- An execution from `s₀`: the steps with their threads. -/
inductive Exec (s₀ : St) : List (Nat × Ev) → St → Prop
  | init : Exec s₀ [] s₀
  | step {es s t e s'} : Exec s₀ es s → Step s t e s' → Exec s₀ (es ++ [(t, e)]) s'

end PM2.Hook
