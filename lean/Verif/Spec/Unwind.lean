import Verif.Spec.HeapParse
import Verif.Spec.History
import Verif.Model.Unwind
/-!
# Specification: iterators of the user and panics, on values

`extend` first runs the iterator to its end, or until it panics. The stream cannot be used in the meantime. Then all tokens that
the iterator returned are appended, also if it panicked.
-/

namespace PM2.Spec
open Heap

mutual
/-- The texts in a program, in the order of the calls that parse them. -/
def codeTexts : Code → List (List Char)
  | .skip | .panic | .invalidate => []
  | .act a => actTexts [a]
  | .seq c d => codeTexts c ++ codeTexts d
  | .catch_ c => codeTexts c
  | .extendTrees _ it | .extendStreams _ it | .collectTrees it | .collectStreams it
  | .gatherStreams it => iterTexts it
/-- Those in an iterator. -/
def iterTexts : Iter → List (List Char)
  | .stop c | .hint c _ _ => codeTexts c
  | .yield c _ it => codeTexts c ++ iterTexts it
end

/-- The iterator ends with a `size_hint` that panics. -/
def endsInHint : Iter → Bool
  | .stop _ => false
  | .yield _ _ it => endsInHint it
  | .hint .. => true

/-- What only the crate itself can do. -/
inductive Internal : Act → Prop where
  | makeMut (i : Nat) : Internal (.op (.makeMut i))
  | pushMut (i j : Nat) : Internal (.op (.pushMut i j))
  | extendMut (i j : Nat) : Internal (.op (.extendMut i j))
  | pushMutPM (i j : Nat) : Internal (.op (.pushMutPM i j))
  | endMut (i : Nat) : Internal (.op (.endMut i))

/-- There are positions for the text, if a text is parsed. -/
def ActRoom (texts : List (List Char)) : Act → Prop
  | .op _ => True
  | .parse src => Room texts src

/-- An iterator that returns what is in the variables `js`, and then runs `c` and returns `None`. -/
def yields (c : Code) : List Nat → Iter
  | [] => .stop c
  | j :: js => .yield .skip j (yields c js)

/-- Ending with a panic, or without. -/
def ending (p : Bool) : Code := if p then .panic else .skip

section
variable [UnicodeTables]

mutual
/-- The values after the code, and whether it panicked. -/
def vexec : Code → SourceMap → List Val → Res Unit (SourceMap × List Val × Bool)
  | .skip, sm, v => .ok (sm, v, false)
  | .act a, sm, v =>
    if !a.isCall then .err ()
    else if a.noRoom sm then .ok (sm, v, true)
    else do
      let (sm, v) ← vact sm v a
      .ok (sm, v, false)
  | .invalidate, sm, v => .ok (sm.invalidate, v, false)
  | .panic, sm, v => .ok (sm, v, true)
  | .seq c d, sm, v => do
    let (sm, v, p) ← vexec c sm v
    if p then .ok (sm, v, true) else vexec d sm v
  | .catch_ c, sm, v => do
    let (sm, w, p) ← vexec c sm v
    .ok (sm, if p then w.take v.length ++ List.replicate (w.length - v.length) .dead else w, false)
  | .extendTrees i it, sm, v =>
    match v[i]? with
    | some (.stream ts) => do
      let (sm, v, us, p) ← vtrees it sm (v.set i .dead)
      .ok (sm, v.set i (.stream (ts ++ us)), p)
    | _ => .err ()
  | .extendStreams i it, sm, v =>
    match v[i]? with
    | some (.stream ts) => do
      let (sm, v, us, p) ← vstreams it sm (v.set i .dead)
      .ok (sm, v.set i (.stream (ts ++ us)), p)
    | _ => .err ()
  | .collectTrees it, sm, v => do
    let (sm, w, us, p) ← vtrees it sm (v ++ [.dead, .dead])
    .ok (sm, w.set (v.length + 1) (if p then .dead else .stream us), p)
  | .collectStreams (.stop c), sm, v => do
    let (sm, v, p) ← vexec c sm v
    .ok (sm, v ++ (if p then [] else [.dead, .stream []]), p)
  | .collectStreams (.yield c i it), sm, v => do
    let (sm, v, p) ← vexec c sm v
    if p then .ok (sm, v, true) else
      match v[i]? with
      | some (.stream ts) => do
        let (sm, v, us, p) ← vstreams it sm (v.set i .dead)
        .ok (sm, v.set i (if p then .dead else .stream (ts ++ us)), p)
      | _ => .err ()
  | .collectStreams (.hint ..), _, _ => .err ()
  | .gatherStreams it, sm, v =>
    if endsInHint it then .err () else do
    let (sm, w, us, p) ← vstreams it sm (v ++ [.dead, .dead])
    .ok (sm, w.set (v.length + 1) (if p then .dead else .stream us), p)

/-- The values after an iterator of trees, the tokens that it returned, and whether it panicked. -/
def vtrees : Iter → SourceMap → List Val → Res Unit (SourceMap × List Val × List TokenTree × Bool)
  | .stop c, sm, v => do
    let (sm, v, p) ← vexec c sm v
    .ok (sm, v, [], p)
  | .yield c j it, sm, v => do
    let (sm, v, p) ← vexec c sm v
    if p then .ok (sm, v, [], true) else
      match v[j]? with
      | some (.tree t) => do
        let (sm, v, us, p) ← vtrees it sm (v.set j .dead)
        .ok (sm, v, splitNeg t ++ us, p)
      | _ => .err ()
  | .hint .., _, _ => .err ()

/-- The same for an iterator of streams. -/
def vstreams : Iter → SourceMap → List Val → Res Unit (SourceMap × List Val × List TokenTree × Bool)
  | .stop c, sm, v => do
    let (sm, v, p) ← vexec c sm v
    .ok (sm, v, [], p)
  | .yield c j it, sm, v => do
    let (sm, v, p) ← vexec c sm v
    if p then .ok (sm, v, [], true) else
      match v[j]? with
      | some (.stream ts) => do
        let (sm, v, us, p) ← vstreams it sm (v.set j .dead ++ [.dead])
        .ok (sm, v, ts ++ us, p)
      | _ => .err ()
  | .hint c j k, sm, v => do
    let (sm, v, p) ← vexec c sm v
    if p then .ok (sm, v, [], true) else
      match v[j]? with
      | some (.stream ts) =>
        if k < ts.length then .ok (sm, v.set j .dead ++ List.replicate (k + 2) .dead, ts.take k, true) else .err ()
      | _ => .err ()
end

end

end PM2.Spec
