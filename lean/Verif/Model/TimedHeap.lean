import Verif.Model.Heap
import Verif.Model.Timed
/-!
# Token streams on the heap with a count of the steps (src/rcvec.rs, src/fallback.rs:54-57, 76-81, 101-195, 269-323)

The functions of `Verif.Model.Heap` again, in the monad that counts steps. A step is a call of one of the functions, an
iteration of a loop, or a token that is cloned, moved or dropped. Cloning a token clones the `Rc` of a group, the `Box<str>`
of an identifier, or the `String` of a literal; that is one step for each token. What does not depend on the number of
tokens is part of the step: allocating a cell, moving a vector, freeing a cell. Pushing a token takes one step
(amortised). Moving the elements of an iterator into another vector takes a step for each.

That the functions compute the same results as those of `Verif.Model.Heap` is proved (`Proof/TimedHeap.lean`).
-/

namespace PM2.Heap.T
open Timed (tick step)

/-- Operations on streams, with steps. -/
abbrev TRes (α : Type) := Timed Unit α

/-- Read a cell through a reference. -/
def read (h : Heap) (a : Addr) : TRes Cell := ⟨h.read a, 0⟩

/-- `Rc::clone`. -/
def rcClone (h : Heap) (a : Addr) : TRes Heap := tick 1 do
  let c ← read h a
  .ok (h.set a (some ⟨c.rc + 1, c.vec⟩))

/-- `TokenTree::clone` (derived, src/lib.rs:577). -/
def cloneTree (h : Heap) : HTree → TRes Heap
  | .group _ a _ => rcClone h a
  | _ => tick 1 (.ok h)

/-- `Vec::<TokenTree>::clone`. -/
def cloneVec (h : Heap) : List HTree → TRes Heap
  | [] => .ok h
  | t :: l => tick 1 do
    let h ← cloneTree h t
    cloneVec h l

/-- Dropping a vector: its elements are dropped in order. -/
def dropVec (dropT : Heap → HTree → TRes Heap) (h : Heap) : List HTree → TRes Heap
  | [] => .ok h
  | t :: l => tick 1 do
    let h ← dropT h t
    dropVec dropT h l

/-- `Rc::drop`. -/
def rcDrop (dropT : Heap → HTree → TRes Heap) (h : Heap) (a : Addr) : TRes Heap := tick 1 do
  let c ← read h a
  if c.rc = 1 then do
    let h ← dropVec dropT (h.set a (some ⟨0, []⟩)) c.vec
    .ok (h.set a none)
  else .ok (h.set a (some ⟨c.rc - 1, c.vec⟩))

/-- src/fallback.rs:144-166: the loop. -/
def dropLoop (dropT : Heap → HTree → TRes Heap) :
    Nat → Heap → List HTree → List (List HTree) → TRes Heap
  | 0, _, _, _ => .diverge
  | fuel + 1, h, t :: current, stack => tick 1 <|
    match t with
    | .group d a s => do
      let c ← read h a
      if c.rc = 1 then do
        let h ← dropT (h.set a (some ⟨c.rc, []⟩)) (.group d a s)
        dropLoop dropT fuel h c.vec (current :: stack)
      else do
        let h ← dropT h (.group d a s)
        dropLoop dropT fuel h current stack
    | _ => dropLoop dropT fuel h current stack
  | fuel + 1, h, [], stack => tick 1 <|
    match stack with
    | next :: stack => dropLoop dropT fuel h next stack
    | [] => .ok h

/-- Dropping a `TokenTree`, given how to drop the stream of a group. -/
def dropTreeWith (dropS : Heap → Addr → TRes Heap) (h : Heap) : HTree → TRes Heap
  | .group _ a _ => dropS h a
  | _ => tick 1 (.ok h)

/-- Dropping a `TokenStream`: src/fallback.rs:138-167 `Drop::drop`, with src/rcvec.rs:109-112 `take`, then the field
`inner` is dropped (src/rcvec.rs:7-9). -/
def dropStream : Nat → Heap → Addr → TRes Heap
  | 0, _, _ => .diverge
  | d + 1, h, a => tick 1 do
    let c ← read h a
    let h ← if c.rc = 1 then
        dropLoop (dropTreeWith (dropStream d)) (2 * h.tokens + 1) (h.set a (some ⟨c.rc, []⟩)) c.vec []
      else .ok h
    rcDrop (dropTreeWith (dropStream d)) h a

/-- Dropping a `TokenTree`. -/
def dropTree (d : Nat) (h : Heap) (t : HTree) : TRes Heap := dropTreeWith (dropStream d) h t

/-- src/rcvec.rs:37-44 `make_mut`. -/
def makeMut (h : Heap) (a : Addr) : TRes (Heap × Addr) := tick 1 do
  let c ← read h a
  if c.rc = 1 then .ok (h, a)
  else do
    let h ← cloneVec h c.vec
    let (h, b) := h.alloc c.vec
    let c ← read h a
    .ok (h.set a (some ⟨c.rc - 1, c.vec⟩), b)

/-- src/fallback.rs:105-108 `take_inner`, with src/rcvec.rs:51-61 `make_owned`. -/
def takeInner (d : Nat) (h : Heap) (a : Addr) : TRes (Heap × List HTree) := tick 1 do
  let c ← read h a
  if c.rc = 1 then do
    let h ← rcDrop (dropTree d) (h.set a (some ⟨c.rc, []⟩)) a
    .ok (h, c.vec)
  else do
    let h ← cloneVec h c.vec
    let h ← rcDrop (dropTree d) h a
    .ok (h, c.vec)

/-- src/rcvec.rs:97-99 `RcVecMut::push` and 101-103 `RcVecMut::extend`: a step for each token. -/
def pushMut (h : Heap) (a : Addr) (ts : List HTree) : TRes Heap := tick ts.length do
  let c ← read h a
  .ok (h.set a (some ⟨c.rc, c.vec ++ ts⟩))

/-- One operation, see `Heap.step`. -/
def step (s : State) : Op → TRes State := fun op => tick 1 <| match op with
  | .cloneStream i =>
    match s.vars[i]? with
    | some (.stream a) => do
      let h ← rcClone s.heap a
      .ok ⟨h, s.vars ++ [.stream a]⟩
    | _ => .err ()
  | .cloneTree i =>
    match s.vars[i]? with
    | some (.tree t) => do
      let h ← T.cloneTree s.heap t
      .ok ⟨h, s.vars ++ [.tree t]⟩
    | _ => .err ()
  | .cloneOwned i =>
    match s.vars[i]? with
    | some (.owned v) => do
      let h ← cloneVec s.heap v
      .ok ⟨h, s.vars ++ [.owned v]⟩
    | _ => .err ()
  | .dropStream i =>
    match s.vars[i]? with
    | some (.stream a) => do
      let h ← T.dropStream dropDepth s.heap a
      .ok ⟨h, s.vars.set i .dead⟩
    | _ => .err ()
  | .dropTree i =>
    match s.vars[i]? with
    | some (.tree t) => do
      let h ← T.dropTree dropDepth s.heap t
      .ok ⟨h, s.vars.set i .dead⟩
    | _ => .err ()
  | .dropOwned i =>
    match s.vars[i]? with
    | some (.owned v) => do
      let h ← dropVec (T.dropTree dropDepth) s.heap v
      .ok ⟨h, s.vars.set i .dead⟩
    | _ => .err ()
  | .intoOwned i =>
    match s.vars[i]? with
    | some (.stream a) => do
      let (h, v) ← takeInner dropDepth s.heap a
      .ok ⟨h, s.vars.set i .dead ++ [.owned v]⟩
    | _ => .err ()
  | .pushOwned i j =>
    match s.vars[i]?, s.vars[j]? with
    | some (.owned v), some (.tree t) => tick 1 <|
      .ok ⟨s.heap, (s.vars.set j .dead).set i (.owned (v ++ [t]))⟩
    | _, _ => .err ()
  | .pushOwnedPM i j =>
    match s.vars[i]?, s.vars[j]? with
    | some (.owned v), some (.tree t) => tick (splitToken t).length <|
      .ok ⟨s.heap, (s.vars.set j .dead).set i (.owned (v ++ splitToken t))⟩
    | _, _ => .err ()
  | .extendOwned i j =>
    match s.vars[i]?, s.vars[j]? with
    | some (.owned v), some (.owned w) =>
      if i = j then .err () else tick w.length <| .ok ⟨s.heap, (s.vars.set j .dead).set i (.owned (v ++ w))⟩
    | _, _ => .err ()
  | .makeMut i =>
    match s.vars[i]? with
    | some (.stream a) => do
      let (h, b) ← T.makeMut s.heap a
      .ok ⟨h, s.vars.set i (.borrowed b)⟩
    | _ => .err ()
  | .pushMut i j =>
    match s.vars[i]?, s.vars[j]? with
    | some (.borrowed a), some (.tree t) => do
      let h ← T.pushMut s.heap a [t]
      .ok ⟨h, s.vars.set j .dead⟩
    | _, _ => .err ()
  | .extendMut i j =>
    match s.vars[i]?, s.vars[j]? with
    | some (.borrowed a), some (.owned w) => do
      let h ← T.pushMut s.heap a w
      .ok ⟨h, s.vars.set j .dead⟩
    | _, _ => .err ()
  | .pushMutPM i j =>
    match s.vars[i]?, s.vars[j]? with
    | some (.borrowed a), some (.tree t) => do
      let h ← T.pushMut s.heap a (splitToken t)
      .ok ⟨h, s.vars.set j .dead⟩
    | _, _ => .err ()
  | .groupStream i =>
    match s.vars[i]? with
    | some (.tree (.group _ a _)) => do
      let h ← rcClone s.heap a
      .ok ⟨h, s.vars ++ [.stream a]⟩
    | _ => .err ()
  -- The others take a constant time.
  | op => ⟨Heap.step s op, 0⟩

/-- A program. -/
def run (s : State) : List Op → TRes State
  | [] => .ok s
  | op :: ops => do
    let s ← T.step s op
    run s ops

end PM2.Heap.T
