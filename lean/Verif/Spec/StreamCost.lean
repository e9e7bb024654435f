import Verif.Model.Heap
/-! # What the operations on token streams have to do -/

namespace PM2.Spec
open Heap

/-- The number of tokens in the vectors of a heap. -/
def heapTokens (h : Heap) : Nat :=
  (h.map (fun o => match o with | some c => c.vec.length | none => 0)).sum

/-- The number of tokens that a variable holds itself. -/
def rootTokens : Root → Nat
  | .tree _ => 1
  | .owned v => v.length
  | _ => 0

/-- The number of tokens in memory. -/
def storedTokens (s : State) : Nat := heapTokens s.heap + (s.vars.map rootTokens).sum

/-- The number of tokens that an operation handles one by one: the elements of an iterator that is cloned, those that
extend another vector, and those of a vector that others share and that has to be copied before it is changed or
iterated over. -/
def handled (s : State) : Op → Nat
  | .cloneOwned i | .extendOwned _ i | .extendMut _ i => match s.vars[i]? with
    | some (.owned v) => v.length
    | _ => 0
  | .makeMut i | .intoOwned i => match s.vars[i]? with
    | some (.stream a) => match s.heap.get a with
      | some c => if c.rc = 1 then 0 else c.vec.length
      | none => 0
    | _ => 0
  | _ => 0

/-- The number of tokens that a program handles one by one. -/
def handledRun (s : State) : List Op → Nat
  | [] => 0
  | op :: ops => handled s op + match step s op with
    | .ok s' => handledRun s' ops
    | _ => 0

/-- The operations that drop. -/
def IsDrop : Op → Prop
  | .dropStream _ | .dropTree _ | .dropOwned _ => True
  | _ => False

end PM2.Spec
