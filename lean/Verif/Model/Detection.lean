/-!
# Detecting the compiler's API (src/detection.rs, src/fallback.rs:42-52)

The atomic `WORKS` and the `Once` `INIT`, shared by any number of threads (numbered), as a transition
system. All accesses to `WORKS` are `Relaxed`, so the model of memory is coherence only: the writes to
`WORKS` are in a modification order `mo`; a thread has a `view`, the newest write it knows of; a load
returns any write that is not older than the view; a store goes anywhere in `mo` after the view.
`Once::call_once` runs its closure in one thread while others wait, and everything that happened in
the closure is known to every thread that returns from `call_once`.

`proc_macro::is_available()` may answer anything, in each call. Modelled is the variant
`not(no_is_available)` of `initialize` (rustc 1.57 and later).
-/

namespace PM2.Detect

/-- Where a thread is in the code. `depth` is the number of recursive calls of `inside_proc_macro`
(src/detection.rs:15). -/
inductive PC where
  /-- not in this module -/
  | idle
  /-- src/detection.rs:8, before the load -/
  | load (depth : Nat)
  /-- src/detection.rs:14, before `call_once` -/
  | once (depth : Nat)
  /-- src/detection.rs:28, before `is_available()`; in `call_once` or (`none`) in `unforce` -/
  | init (inOnce : Option Nat)
  /-- src/detection.rs:29, before the store -/
  | store (inOnce : Option Nat) (available : Bool)
  /-- src/detection.rs:14, at the end of the closure -/
  | leave (depth : Nat)
  /-- src/detection.rs:19, before the store -/
  | force
deriving DecidableEq, Repr

/-- The state of `INIT`; when it is done, the view of the thread that ran the closure. -/
inductive OnceState where
  | new
  | running (t : Nat)
  | done (view : Nat)
deriving DecidableEq, Repr

structure St where
  mo : List Nat
  view : Nat → Nat
  once : OnceState
  pc : Nat → PC

/-- src/detection.rs:4-5. -/
def St.init : St := ⟨[0], fun _ => 0, .new, fun _ => .idle⟩

/-- `f` with another value for `t`. -/
def upd {α : Type} (f : Nat → α) (t : Nat) (a : α) : Nat → α := fun u => if u = t then a else f u

/-- A store of `x` by thread `t`, at place `p` of the modification order. -/
def St.write (s : St) (t p x : Nat) : St :=
  { s with
    mo := s.mo.take p ++ x :: s.mo.drop p
    view := upd (fun u => if s.view u < p then s.view u else s.view u + 1) t p
    once := match s.once with
      | .done w => .done (if w < p then w else w + 1)
      | o => o }

/-- What happens in a step. -/
inductive Ev where
  | callQuery
  | callForce
  | callUnforce
  /-- `inside_proc_macro()` returns -/
  | ret (b : Bool)
  /-- `is_available()` returns `b`; called for a query or for `unforce` -/
  | detect (query : Bool) (b : Bool)
  /-- `force()` stores -/
  | forced
  /-- thread `u` learns what this thread knows (it is spawned, joins, takes a lock, …) -/
  | sync (u : Nat)
  | other
deriving DecidableEq, Repr

/-- One step of thread `t`. -/
inductive Step : St → Nat → Ev → St → Prop
  /-- src/detection.rs:7 -/
  | callQuery {s t} : s.pc t = .idle → Step s t .callQuery { s with pc := upd s.pc t (.load 0) }
  /-- src/detection.rs:18 -/
  | callForce {s t} : s.pc t = .idle → Step s t .callForce { s with pc := upd s.pc t .force }
  /-- src/detection.rs:22-23 -/
  | callUnforce {s t} : s.pc t = .idle → Step s t .callUnforce { s with pc := upd s.pc t (.init none) }
  /-- src/detection.rs:9 -/
  | loadFalse {s t d i} : s.pc t = .load d → s.view t ≤ i → s.mo[i]? = some 1 →
      Step s t (.ret false) { s with view := upd s.view t i, pc := upd s.pc t .idle }
  /-- src/detection.rs:10 -/
  | loadTrue {s t d i} : s.pc t = .load d → s.view t ≤ i → s.mo[i]? = some 2 →
      Step s t (.ret true) { s with view := upd s.view t i, pc := upd s.pc t .idle }
  /-- src/detection.rs:11 -/
  | loadOther {s t d i v} : s.pc t = .load d → s.view t ≤ i → s.mo[i]? = some v → v ≠ 1 → v ≠ 2 →
      Step s t .other { s with view := upd s.view t i, pc := upd s.pc t (.once d) }
  /-- src/detection.rs:14: this thread runs the closure -/
  | onceRun {s t d} : s.pc t = .once d → s.once = .new →
      Step s t .other { s with once := .running t, pc := upd s.pc t (.init (some d)) }
  /-- src/detection.rs:14-15: the closure has been run -/
  | onceDone {s t d w} : s.pc t = .once d → s.once = .done w →
      Step s t .other { s with view := upd s.view t (max (s.view t) w), pc := upd s.pc t (.load (d + 1)) }
  /-- src/detection.rs:28 -/
  | detect {s t o} (b : Bool) : s.pc t = .init o →
      Step s t (.detect o.isSome b) { s with pc := upd s.pc t (.store o b) }
  /-- src/detection.rs:29 -/
  | storeOnce {s t d b p} : s.pc t = .store (some d) b → s.view t < p → p ≤ s.mo.length →
      Step s t .other { s.write t p (b.toNat + 1) with pc := upd s.pc t (.leave d) }
  /-- src/detection.rs:29 -/
  | storeUnforce {s t b p} : s.pc t = .store none b → s.view t < p → p ≤ s.mo.length →
      Step s t .other { s.write t p (b.toNat + 1) with pc := upd s.pc t .idle }
  /-- src/detection.rs:14-15: the closure ends -/
  | leave {s t d} : s.pc t = .leave d →
      Step s t .other { s with once := .done (s.view t), pc := upd s.pc t (.load (d + 1)) }
  /-- src/detection.rs:19 -/
  | force {s t p} : s.pc t = .force → s.view t < p → p ≤ s.mo.length →
      Step s t .forced { s.write t p 1 with pc := upd s.pc t .idle }

  /-- not in this module: synchronization elsewhere in the program -/
  | sync {s t u} : s.pc t = .idle → s.pc u = .idle →
      Step s t (.sync u) { s with view := upd s.view u (max (s.view u) (s.view t)) }

/-- An execution from `s₀`: the steps with their threads. -/
inductive Exec (s₀ : St) : List (Nat × Ev) → St → Prop
  | init : Exec s₀ [] s₀
  | step {es s t e s'} : Exec s₀ es s → Step s t e s' → Exec s₀ (es ++ [(t, e)]) s'

end PM2.Detect
