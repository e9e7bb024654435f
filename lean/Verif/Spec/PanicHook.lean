import Verif.Model.PanicHook
import Verif.Spec.Detection
/-!
# Specification: the panic hook while the compiler's API is detected

About the events of an execution only.
-/

namespace PM2.Spec
open Hook (Handler)

/-- What the event is with `is_available`; nothing if it is about the hook. -/
def asDetect : Hook.Ev → Option Detect.Ev
  | .api e => some e
  | .probe q b _ => some (.detect q b)
  | _ => none

/-- The events without those about the hook. -/
def detectEvents (es : List (Nat × Hook.Ev)) : List (Nat × Detect.Ev) :=
  es.filterMap (fun x => (asDetect x.2).map (x.1, ·))

/-- The hook that the program has registered: as if detection did nothing to it. -/
def programHook1 (h : Handler) : Hook.Ev → Handler
  | .set h' => h'
  | .took _ => .default
  | _ => h

def programHook (h : Handler) (es : List (Nat × Hook.Ev)) : Handler :=
  es.foldl (fun h x => programHook1 h x.2) h

/-- The threads that have taken the hook and not yet put it back. -/
def holders1 (hs : List Nat) (t : Nat) : Hook.Ev → List Nat
  | .enter _ => t :: hs
  | .exit _ => hs.erase t
  | _ => hs

def holders (hs : List Nat) (es : List (Nat × Hook.Ev)) : List Nat :=
  es.foldl (fun hs x => holders1 hs x.1 x.2) hs

/-- The program does not change the hook while a detection has taken it. -/
def QuietStep (hs : List Nat) : Hook.Ev → Prop
  | .set _ | .took _ => hs = []
  | _ => True

def Quiet : List Nat → List (Nat × Hook.Ev) → Prop
  | _, [] => True
  | hs, (t, e) :: es => QuietStep hs e ∧ Quiet (holders1 hs t e) es

/-- No detection takes the hook while another one has it. -/
def DisjointStep (hs : List Nat) : Hook.Ev → Prop
  | .enter _ => hs = []
  | _ => True

def Disjoint : List Nat → List (Nat × Hook.Ev) → Prop
  | _, [] => True
  | hs, (t, e) :: es => DisjointStep hs e ∧ Disjoint (holders1 hs t e) es

/-- The event is right if the program has registered `h` and `hs` have taken it: the failing call of
the compiler's API prints nothing, there is no race, and while no detection has taken the hook a panic
of the program runs the program's hook, which is what the program finds registered. (While a detection
has taken it, a panic runs the standard library's hook or the one that does nothing.) -/
def HookStepOk (h : Handler) (hs : List Nat) : Hook.Ev → Prop
  | .probe _ _ h' => ∃ a, h' = .null a
  | .race | .poisoned => False
  | .ran h' => if hs = [] then h' = h else h' = .default ∨ ∃ a, h' = .null a
  | .took h' => h' = h
  | _ => True

def HookOk : Handler → List Nat → List (Nat × Hook.Ev) → Prop
  | _, _, [] => True
  | h, hs, (t, e) :: es => HookStepOk h hs e ∧ HookOk (programHook1 h e) (holders1 hs t e) es

/-- What each thread has taken. -/
def taken1 (m : Nat → Option Handler) (t : Nat) : Hook.Ev → Nat → Option Handler
  | .enter h => Detect.upd m t (some h)
  | .exit _ => Detect.upd m t none
  | _ => m

/-- A detection puts back what it took before it ends or panics, and takes it once. -/
def RestoreStepOk (m : Nat → Option Handler) (t : Nat) : Hook.Ev → Prop
  | .exit h => m t = some h
  | .probe .. => m t ≠ none
  | .internal | .api .other => True
  | _ => m t = none

def RestoreOk : (Nat → Option Handler) → List (Nat × Hook.Ev) → Prop
  | _, [] => True
  | m, (t, e) :: es => RestoreStepOk m t e ∧ RestoreOk (taken1 m t e) es

/-- `unforce` is not called. -/
def NoUnforce (es : List (Nat × Hook.Ev)) : Prop := ∀ t, (t, Hook.Ev.api .callUnforce) ∉ es

/-- How many steps a thread has to go to the end of its call, at most. -/
def hookRank : Hook.PC → Nat
  | .idle | .panicked => 0
  | .load 0 => 12
  | .once 0 => 11
  | .take1 (some 0) => 10
  | .set1 (some 0) _ _ => 9
  | .probe (some 0) _ _ => 8
  | .store (some 0) _ _ _ => 7
  | .take2 (some 0) _ _ => 6
  | .set2 (some 0) _ _ _ => 5
  | .check (some 0) _ _ => 4
  | .leave 0 => 3
  | .load 1 => 1
  | .take1 none => 7
  | .set1 none _ _ => 6
  | .probe none _ _ => 5
  | .store none _ _ _ => 4
  | .take2 none _ _ => 3
  | .set2 none _ _ _ => 2
  | .check none _ _ => 1
  | .force => 1
  | _ => 13

/-- The step begins a call, or is outside of the module. -/
def IsHookCall : Hook.Ev → Prop
  | .api e => IsCall e
  | .set _ | .took _ | .ran _ => True
  | _ => False

end PM2.Spec
