import Verif.Spec.Direct
import Verif.Model.HeapApi
/-!
# Specification: programs of the API, on values

The steps of `Verif.Model.HeapApi` without a heap: a call is a call of the fallback on values (`fstep`), and a variable that is
moved out of or dropped holds nothing.
-/

namespace PM2.Spec.Direct
open Heap Wrap HeapApi

section
variable [CompilerTypes]

/-- The variables hold nothing any more. -/
def FState.kill (f : FState) : List Nat → FState
  | [] => f
  | i :: is => (f.set i (.plain .none)).kill is

/-- The same value without tokens. -/
def plainOf : Datum → Plain
  | .bool b => .bool b
  | .text t => .text t
  | .streamC ts => .streamC ts
  | .delimiter d => .delimiter d
  | .spacing s => .spacing s
  | .ordering o => .ordering o
  | .range lo hi => .range lo hi
  | .lineColumn lc => .lineColumn lc
  | .hint l u => .hint l u
  | .bytes bs => .bytes bs
  | .conversion r => .conversion r
  | .none => .none

/-- What is in a variable, in the heap `h`, is the value. -/
inductive Fits (h : Heap) : HValue → FValue → Prop
  | stream {a c ts} : h.get a = some c → Shows h c.vec ts → Fits h (.stream a) (.stream ts)
  | tree {t t'} : Shows h [t] [t'] → Fits h (.tree t) (.tree t')
  | iter {l ts} : Shows h l ts → Fits h (.iter l) (.iter ts)
  | span {s} : Fits h (.span s) (.span s)
  | error {s} : Fits h (.error s) (.error s)
  | delim {d ts s} : Fits h (.delim s) (.delim d ts s)
  | datum {d} : Fits h (.datum d) (.plain (plainOf d))

/-- The source map is the same, and the variables hold the values. -/
structure Represents (s : HState) (f : FState) : Prop where
  sm : s.sm = f.sm
  len : s.vars.length = f.vars.length
  fits : ∀ (i : Nat) v w, s.vars[i]? = some v → f.vars[i]? = some w → Fits s.heap v w

/-- The same outcome. -/
def Agree : Out FState → Out HState → Prop
  | .ok f, .ok s => Represents s f
  | .mismatch, .mismatch => True
  | .panic, .panic => True
  | .diverge, .diverge => True
  | .ill, .ill => True
  | _, _ => False

end

section
variable [Compiler] [UnicodeTables]

/-- What a call takes by value. -/
def takes : Wrap.Op → List Nat
  | .intoCompiler i | .fromTree i | .intoIter i | .groupNew _ i => [i]
  | .collectTrees is | .collectStreams is => is
  | .extendTrees _ js | .extendStreams _ js => js
  | _ => []

/-- What a call takes by mutable reference, besides what it takes by value. -/
def extends_ : Wrap.Op → List Nat
  | .extendTrees i _ | .extendStreams i _ => [i]
  | _ => []

/-- One step on values. What is moved must not be used twice. -/
def fact (f : FState) : ApiAct → Out FState
  | .call op => fstep f op
  | .give op => if (extends_ op ++ takes op).Nodup then do .ok ((← fstep f op).kill (takes op)) else .ill
  | .drop i => do
    let _ ← f.read some i
    .ok (f.kill [i])

/-- A program on values. -/
def facts (f : FState) : List ApiAct → Out FState
  | [] => .ok f
  | a :: as => do facts (← fact f a) as

end

end PM2.Spec.Direct
