import Verif.Spec.Stream
import Verif.Model.HeapParse
/-!
# Specification: programs that parse, on values

A parsed stream is a new value. There is no heap.
-/

namespace PM2.Spec
open Heap

mutual
/-- The number of groups in a tree, itself included. -/
def treeGroups : TokenTree → Nat
  | .group _ ts _ => streamGroups ts + 1
  | _ => 0
/-- The number of groups in a stream, at all depths. -/
def streamGroups : List TokenTree → Nat
  | [] => 0
  | t :: ts => treeGroups t + streamGroups ts
end

/-- The texts that a program parses. -/
def actTexts : List Act → List (List Char)
  | [] => []
  | .op _ :: as => actTexts as
  | .parse src :: as => src :: actTexts as

section
variable [UnicodeTables]

/-- One step on values. -/
def vact (sm : SourceMap) (v : List Val) : Act → Res Unit (SourceMap × List Val)
  | .op o =>
    match vstep v o with
    | some v => .ok (sm, v)
    | none => .err ()
  | .parse src =>
    match TokenStream.fromStr sm src with
    | (sm, .ok ts) => .ok (sm, v ++ [.stream ts])
    | (sm, .err _) => .ok (sm, v)
    | (_, .panic) => .panic
    | (_, .diverge) => .diverge

/-- A program on values. -/
def vacts (sm : SourceMap) (v : List Val) : List Act → Res Unit (SourceMap × List Val)
  | [] => .ok (sm, v)
  | a :: as =>
    match vact sm v a with
    | .ok (sm, v) => vacts sm v as
    | .err e => .err e
    | .panic => .panic
    | .diverge => .diverge

/-- A state of a thread that a program that starts without variables gets to. -/
def Reached (sm : SourceMap) (s : State) : Prop := ∃ as, acts SourceMap.init State.init as = .ok (sm, s)

end

/-- The cells that were there are as they were. -/
def OldCells (s s' : State) : Prop := ∀ a, a < s.heap.length → s'.heap.get a = s.heap.get a

/-- The cells that have been allocated since `s` are in use, each by one owner; there are `n` of them. -/
structure NewCells (s s' : State) (n : Nat) : Prop where
  count : s'.heap.length = s.heap.length + n
  one : ∀ a, s.heap.length ≤ a → a < s'.heap.length → ∃ c, s'.heap.get a = some c ∧ c.rc = 1

end PM2.Spec
