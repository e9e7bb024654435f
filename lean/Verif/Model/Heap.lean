import Verif.Model.Token
/-!
# Token streams on the heap (src/rcvec.rs, src/fallback.rs:54-57, 76-81, 101-195, 269-323)

A `fallback::TokenStream` is an `Rc<Vec<TokenTree>>`, and a `Group` owns the stream of its contents, so
a token stream is a reference into a heap of reference-counted vectors. The heap is a list of cells;
the address of a cell is its index. Freed cells are `none` and addresses are not used again. Touching
a freed cell is `panic` (in Rust it would be memory unsafety). There are no weak references in the
crate, so `Rc::get_mut` (src/rcvec.rs:46-49) succeeds if and only if the count is 1. Everything is single-threaded (`Rc` is
not `Send`). Not modelled: allocation failure, overflow of reference counts, capacities.

A program is a sequence of operations on variables (`Op`). A variable holds a token stream, a token
stream that is mutably borrowed for an extension, a token tree, or an owned vector of token trees (a
builder or an iterator). Operations that use a variable that does not hold what they need are `err`
(rustc rejects them). Iterators that the user passes to `extend` or `collect` may run any operations
between two elements; the operations `makeMut`, `push`, `endMut` are therefore separate steps.

Function calls in `Drop` are counted: `dropStream d` may call itself to depth `d`; deeper calls are
`diverge`, like loops that run out of fuel.
-/

namespace PM2.Heap

abbrev Addr := Nat

/-- src/lib.rs:577-587 `TokenTree`; groups refer to the cell of their contents
(src/fallback.rs:718-723 `Group`). -/
inductive HTree where
  | group (delimiter : Delimiter) (stream : Addr) (span : Span)
  | ident (sym : List Char) (raw : Bool) (span : Span)
  | punct (ch : Char) (spacing : Spacing) (span : Span)
  | literal (repr : List Char) (span : Span)
deriving Repr, DecidableEq

/-- The contents of an `Rc<Vec<TokenTree>>` (src/rcvec.rs:7-9): strong count and vector. -/
structure Cell where
  rc : Nat
  vec : List HTree
deriving Repr, DecidableEq

abbrev Heap := List (Option Cell)

/-- The live cell at an address. -/
def Heap.get (h : Heap) (a : Addr) : Option Cell := (h[a]?).join

/-- Read a cell through a reference. -/
def Heap.read (h : Heap) (a : Addr) : Res Unit Cell :=
  match h.get a with
  | some c => .ok c
  | none => .panic

/-! ### `Rc` -/

/-- `Rc::new`. -/
def Heap.alloc (h : Heap) (v : List HTree) : Heap × Addr := (h ++ [some ⟨1, v⟩], h.length)

/-- `Rc::clone`. -/
def rcClone (h : Heap) (a : Addr) : Res Unit Heap := do
  let c ← h.read a
  .ok (h.set a (some ⟨c.rc + 1, c.vec⟩))

/-- `TokenTree::clone` (derived, src/lib.rs:577): clones the stream of a group. -/
def cloneTree (h : Heap) : HTree → Res Unit Heap
  | .group _ a _ => rcClone h a
  | _ => .ok h

/-- `Vec::<TokenTree>::clone`. -/
def cloneVec (h : Heap) : List HTree → Res Unit Heap
  | [] => .ok h
  | t :: l => do
    let h ← cloneTree h t
    cloneVec h l

/-- Dropping a vector: its elements are dropped in order. `dropT` drops an element. -/
def dropVec (dropT : Heap → HTree → Res Unit Heap) (h : Heap) : List HTree → Res Unit Heap
  | [] => .ok h
  | t :: l => do
    let h ← dropT h t
    dropVec dropT h l

/-- `Rc::drop`: decrement; the last owner drops the vector and frees the cell. -/
def rcDrop (dropT : Heap → HTree → Res Unit Heap) (h : Heap) (a : Addr) : Res Unit Heap := do
  let c ← h.read a
  if c.rc = 1 then do
    let h ← dropVec dropT (h.set a (some ⟨0, []⟩)) c.vec
    .ok (h.set a none)
  else .ok (h.set a (some ⟨c.rc - 1, c.vec⟩))

/-! ### `Drop` -/

/-- src/fallback.rs:144-166: the loop. `current` is the iterator in hand, `stack` the others. At the
end of the body of the inner loop, the token is dropped (`dropT`). -/
def dropLoop (dropT : Heap → HTree → Res Unit Heap) :
    Nat → Heap → List HTree → List (List HTree) → Res Unit Heap
  | 0, _, _, _ => .diverge
  | fuel + 1, h, t :: current, stack =>
    match t with
    | .group d a s => do
      let c ← h.read a
      if c.rc = 1 then do
        let h ← dropT (h.set a (some ⟨c.rc, []⟩)) (.group d a s)
        dropLoop dropT fuel h c.vec (current :: stack)
      else do
        let h ← dropT h (.group d a s)
        dropLoop dropT fuel h current stack
    | _ => dropLoop dropT fuel h current stack
  | fuel + 1, h, [], stack =>
    match stack with
    | next :: stack => dropLoop dropT fuel h next stack
    | [] => .ok h

/-- The number of tokens in a heap. -/
def Heap.tokens (h : Heap) : Nat :=
  (h.map (fun o => match o with | some c => c.vec.length | none => 0)).sum

/-- Dropping a `TokenTree`, given how to drop the stream of a group. -/
def dropTreeWith (dropS : Heap → Addr → Res Unit Heap) (h : Heap) : HTree → Res Unit Heap
  | .group _ a _ => dropS h a
  | _ => .ok h

/-- Dropping a `TokenStream`: src/fallback.rs:138-167 `Drop::drop`, with src/rcvec.rs:109-112 `take`, then the field `inner` is dropped
(src/rcvec.rs:7-9). The depth of nested calls is at most the first argument. -/
def dropStream : Nat → Heap → Addr → Res Unit Heap
  | 0, _, _ => .diverge
  | d + 1, h, a => do
    let c ← h.read a
    let h ← if c.rc = 1 then
        dropLoop (dropTreeWith (dropStream d)) (2 * h.tokens + 1) (h.set a (some ⟨c.rc, []⟩)) c.vec []
      else .ok h
    rcDrop (dropTreeWith (dropStream d)) h a

/-- Dropping a `TokenTree`. -/
def dropTree (d : Nat) (h : Heap) (t : HTree) : Res Unit Heap := dropTreeWith (dropStream d) h t

/-! ### `RcVec` -/

/-- src/rcvec.rs:37-44 `make_mut`, i.e. `Rc::make_mut`: a shared vector is cloned into a new cell. -/
def makeMut (h : Heap) (a : Addr) : Res Unit (Heap × Addr) := do
  let c ← h.read a
  if c.rc = 1 then .ok (h, a)
  else do
    let h ← cloneVec h c.vec
    let (h, b) := h.alloc c.vec
    let c ← h.read a
    .ok (h.set a (some ⟨c.rc - 1, c.vec⟩), b)

/-- src/fallback.rs:105-108 `take_inner`, with src/rcvec.rs:51-61 `make_owned`: the vector is moved
out if this is the only owner, and cloned otherwise; the `Rc` is dropped. -/
def takeInner (d : Nat) (h : Heap) (a : Addr) : Res Unit (Heap × List HTree) := do
  let c ← h.read a
  if c.rc = 1 then do
    let h ← rcDrop (dropTree d) (h.set a (some ⟨c.rc, []⟩)) a
    .ok (h, c.vec)
  else do
    let h ← cloneVec h c.vec
    let h ← rcDrop (dropTree d) h a
    .ok (h, c.vec)

/-- src/rcvec.rs:97-99 `RcVecMut::push`: writes through the mutable borrow. -/
def pushMut (h : Heap) (a : Addr) (ts : List HTree) : Res Unit Heap := do
  let c ← h.read a
  .ok (h.set a (some ⟨c.rc, c.vec ++ ts⟩))

/-- src/fallback.rs:111-134 `push_token_from_proc_macro`: the tokens that are pushed. -/
def splitToken : HTree → List HTree
  | .literal ('-' :: repr) s => [.punct '-' .alone s, .literal repr s]
  | t => [t]

/-! ### Programs -/

/-- The contents of a variable. -/
inductive Root where
  /-- moved out or dropped -/
  | dead
  /-- a `TokenStream` -/
  | stream (a : Addr)
  /-- a `TokenStream` whose vector is mutably borrowed -/
  | borrowed (a : Addr)
  /-- a `TokenTree` -/
  | tree (t : HTree)
  /-- an `RcVecBuilder` or `RcVecIntoIter` -/
  | owned (v : List HTree)
deriving Repr, DecidableEq

/-- Operations on variables, which are numbered. Results go into a new variable. -/
inductive Op where
  /-- `RcVecBuilder::new` (src/rcvec.rs:65-67); `with_capacity` (69-73) differs in the capacity only -/
  | builder
  /-- `RcVecBuilder::build` (src/rcvec.rs:89-93) -/
  | build (i : Nat)
  /-- `TokenStream::clone` (derived, src/fallback.rs:54) with src/rcvec.rs:115-121 -/
  | cloneStream (i : Nat)
  /-- `TokenTree::clone` -/
  | cloneTree (i : Nat)
  /-- `RcVecIntoIter::clone` (derived, src/rcvec.rs:19) -/
  | cloneOwned (i : Nat)
  /-- dropping a `TokenStream` (src/fallback.rs:137-168) -/
  | dropStream (i : Nat)
  /-- dropping a `TokenTree` -/
  | dropTree (i : Nat)
  /-- dropping a builder or an iterator -/
  | dropOwned (i : Nat)
  /-- `TokenStream::into_iter`, `take_inner` (src/fallback.rs:105-108, 316-323) -/
  | intoOwned (i : Nat)
  /-- `RcVecIntoIter::next` (src/rcvec.rs:137-139); at the end, there is no new variable -/
  | next (i : Nat)
  /-- `RcVecBuilder::push` (src/rcvec.rs:75-77), `push_token_from_parser` (src/fallback.rs:186-188) -/
  | pushOwned (i j : Nat)
  /-- `push_token_from_proc_macro` on a builder (src/fallback.rs:111-134, 269-277) -/
  | pushOwnedPM (i j : Nat)
  /-- `RcVecBuilder::extend` with the elements of another builder (src/rcvec.rs:79-81, 123-132) -/
  | extendOwned (i j : Nat)
  /-- `RcVec::make_mut` (src/rcvec.rs:37-44); the reborrowings `as_mut` (83-87, 105-107) change nothing -/
  | makeMut (i : Nat)
  /-- `RcVecMut::push` (src/rcvec.rs:97-99) -/
  | pushMut (i j : Nat)
  /-- `RcVecMut::extend` with the elements of an iterator (src/rcvec.rs:101-103,
  src/fallback.rs:308-312) -/
  | extendMut (i j : Nat)
  /-- `push_token_from_proc_macro` (src/fallback.rs:111-134, 299-306) -/
  | pushMutPM (i j : Nat)
  /-- the end of the mutable borrow -/
  | endMut (i : Nat)
  /-- `Group::new` (src/fallback.rs:726-732) -/
  | groupNew (d : Delimiter) (i : Nat)
  /-- `Group::stream` (src/fallback.rs:738-740) -/
  | groupStream (i : Nat)
  /-- a new identifier, punct or literal, by whatever constructor -/
  | leaf (t : HTree)
  /-- `TokenTree::set_span` (src/lib.rs:606-613) -/
  | setSpan (i : Nat) (s : Span)
deriving Repr, DecidableEq

structure State where
  heap : Heap
  vars : List Root
deriving Repr, DecidableEq

def State.init : State := ⟨[], []⟩

/-- src/lib.rs:606-613 `TokenTree::set_span`. -/
def HTree.setSpan : HTree → Span → HTree
  | .group d a _, s => .group d a s
  | .ident sym raw _, s => .ident sym raw s
  | .punct ch sp _, s => .punct ch sp s
  | .literal r _, s => .literal r s

def HTree.isLeaf : HTree → Bool
  | .group .. => false
  | _ => true

/-- The call depth allowed for `Drop`. -/
def dropDepth : Nat := 2

/-- One operation. -/
def step (s : State) : Op → Res Unit State
  | .builder => .ok ⟨s.heap, s.vars ++ [.owned []]⟩
  | .build i =>
    match s.vars[i]? with
    | some (.owned v) =>
      let (h, a) := s.heap.alloc v
      .ok ⟨h, s.vars.set i .dead ++ [.stream a]⟩
    | _ => .err ()
  | .cloneStream i =>
    match s.vars[i]? with
    | some (.stream a) => do
      let h ← rcClone s.heap a
      .ok ⟨h, s.vars ++ [.stream a]⟩
    | _ => .err ()
  | .cloneTree i =>
    match s.vars[i]? with
    | some (.tree t) => do
      let h ← Heap.cloneTree s.heap t
      .ok ⟨h, s.vars ++ [.tree t]⟩
    | _ => .err ()
  | .cloneOwned i =>
    match s.vars[i]? with
    | some (.owned v) => do
      let h ← cloneVec s.heap v
      .ok ⟨h, s.vars ++ [.owned v]⟩
    | _ => .err ()
  | .dropStream i =>
    match s.vars[i]? with
    | some (.stream a) => do
      let h ← Heap.dropStream dropDepth s.heap a
      .ok ⟨h, s.vars.set i .dead⟩
    | _ => .err ()
  | .dropTree i =>
    match s.vars[i]? with
    | some (.tree t) => do
      let h ← Heap.dropTree dropDepth s.heap t
      .ok ⟨h, s.vars.set i .dead⟩
    | _ => .err ()
  | .dropOwned i =>
    match s.vars[i]? with
    | some (.owned v) => do
      let h ← dropVec (Heap.dropTree dropDepth) s.heap v
      .ok ⟨h, s.vars.set i .dead⟩
    | _ => .err ()
  | .intoOwned i =>
    match s.vars[i]? with
    | some (.stream a) => do
      let (h, v) ← takeInner dropDepth s.heap a
      .ok ⟨h, s.vars.set i .dead ++ [.owned v]⟩
    | _ => .err ()
  | .next i =>
    match s.vars[i]? with
    | some (.owned (t :: v)) => .ok ⟨s.heap, s.vars.set i (.owned v) ++ [.tree t]⟩
    | some (.owned []) => .ok s
    | _ => .err ()
  | .pushOwned i j =>
    match s.vars[i]?, s.vars[j]? with
    | some (.owned v), some (.tree t) =>
      .ok ⟨s.heap, (s.vars.set j .dead).set i (.owned (v ++ [t]))⟩
    | _, _ => .err ()
  | .pushOwnedPM i j =>
    match s.vars[i]?, s.vars[j]? with
    | some (.owned v), some (.tree t) =>
      .ok ⟨s.heap, (s.vars.set j .dead).set i (.owned (v ++ splitToken t))⟩
    | _, _ => .err ()
  | .extendOwned i j =>
    match s.vars[i]?, s.vars[j]? with
    | some (.owned v), some (.owned w) =>
      if i = j then .err () else .ok ⟨s.heap, (s.vars.set j .dead).set i (.owned (v ++ w))⟩
    | _, _ => .err ()
  | .makeMut i =>
    match s.vars[i]? with
    | some (.stream a) => do
      let (h, b) ← Heap.makeMut s.heap a
      .ok ⟨h, s.vars.set i (.borrowed b)⟩
    | _ => .err ()
  | .pushMut i j =>
    match s.vars[i]?, s.vars[j]? with
    | some (.borrowed a), some (.tree t) => do
      let h ← Heap.pushMut s.heap a [t]
      .ok ⟨h, s.vars.set j .dead⟩
    | _, _ => .err ()
  | .extendMut i j =>
    match s.vars[i]?, s.vars[j]? with
    | some (.borrowed a), some (.owned w) => do
      let h ← Heap.pushMut s.heap a w
      .ok ⟨h, s.vars.set j .dead⟩
    | _, _ => .err ()
  | .pushMutPM i j =>
    match s.vars[i]?, s.vars[j]? with
    | some (.borrowed a), some (.tree t) => do
      let h ← Heap.pushMut s.heap a (splitToken t)
      .ok ⟨h, s.vars.set j .dead⟩
    | _, _ => .err ()
  | .endMut i =>
    match s.vars[i]? with
    | some (.borrowed a) => .ok ⟨s.heap, s.vars.set i (.stream a)⟩
    | _ => .err ()
  | .groupNew d i =>
    match s.vars[i]? with
    | some (.stream a) => .ok ⟨s.heap, s.vars.set i .dead ++ [.tree (.group d a Span.callSite)]⟩
    | _ => .err ()
  | .groupStream i =>
    match s.vars[i]? with
    | some (.tree (.group _ a _)) => do
      let h ← rcClone s.heap a
      .ok ⟨h, s.vars ++ [.stream a]⟩
    | _ => .err ()
  | .leaf t => if t.isLeaf then .ok ⟨s.heap, s.vars ++ [.tree t]⟩ else .err ()
  | .setSpan i sp =>
    match s.vars[i]? with
    | some (.tree t) => .ok ⟨s.heap, s.vars.set i (.tree (t.setSpan sp))⟩
    | _ => .err ()

/-- A program. -/
def run (s : State) : List Op → Res Unit State
  | [] => .ok s
  | op :: ops => do
    let s ← step s op
    run s ops

/-- src/fallback.rs:101-103 `TokenStream::is_empty`, with src/rcvec.rs:29-31 `len`, which 25-27 `is_empty` and
33-35 `iter` agree with. -/
def isEmpty (h : Heap) (a : Addr) : Res Unit Bool := do
  let c ← h.read a
  .ok (c.vec.length == 0)

/-- src/rcvec.rs:141-143 `RcVecIntoIter::size_hint` (`vec::IntoIter` knows its length). -/
def sizeHint (v : List HTree) : Nat × Option Nat := (v.length, some v.length)

end PM2.Heap
