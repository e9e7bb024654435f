import Verif.Model.OldProcess
import Verif.Spec.PanicHook
import Verif.Spec.Process
/-!
# Specification: what the threads of a process do, before rustc 1.57
-/

namespace PM2.Spec
open Wrap

section
variable [Compiler]

/-- What a step is in a process whose compiler has `is_available`; nothing if it is about the hook. -/
def OldProcess.asProcess : OldProcess.Ev → Option Process.Ev
  | .start op => some (.start op)
  | .finish b op _ => some (.finish b op)
  | .plain op _ => some (.plain op)
  | .hook e => (asDetect e).map .detect

/-- The steps without those about the hook. -/
def OldProcess.processEvents (es : List (Nat × OldProcess.Ev)) : List (Nat × Process.Ev) :=
  es.filterMap (fun e => (OldProcess.asProcess e.2).map (e.1, ·))

/-- What a step does with the hook and the detection. -/
def OldProcess.hookEvent : OldProcess.Ev → List Hook.Ev
  | .start _ => [.api .callQuery]
  | .finish b _ r => .api (.ret b) :: (r.map .ran).toList
  | .plain _ r => (r.map .ran).toList
  | .hook e => [e]

def OldProcess.hookEvents (es : List (Nat × OldProcess.Ev)) : List (Nat × Hook.Ev) :=
  es.flatMap (fun e => (OldProcess.hookEvent e.2).map (e.1, ·))

end

end PM2.Spec
