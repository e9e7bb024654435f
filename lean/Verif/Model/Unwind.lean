import Verif.Model.HeapParse
/-!
# Iterators of the user, and panics that are caught

`extend` and `collect` call the `next` of an iterator that is code of the user: it can call the crate again, and it can panic. A
panic can be caught (`catch_unwind`; the types of the crate are `UnwindSafe`, C92). Here programs are the calls that are made in
one execution, with the code of the iterators inside of the calls that run it, on the heap of `Verif.Model.Heap` and with the
source map of the thread. A panic is put where it occurs, whatever its cause. Variables are numbered in the order in which they
are made. A text for which there are no positions left makes the parser panic before it has changed anything.

Outside of macros: `src/wrapper.rs` forwards to `src/fallback.rs`.
-/

namespace PM2.Heap

/-- The operations that only the crate itself can use: a `RcVecMut` is not given to the user. -/
def Act.isCall : Act → Bool
  | .op (.makeMut _) | .op (.pushMut ..) | .op (.extendMut ..) | .op (.pushMutPM ..) | .op (.endMut _) => false
  | _ => true

/-- src/fallback.rs:464-470, 198-212: `add_file` panics because of overflow, before it changes the source map. -/
def Act.noRoom (sm : SourceMap) : Act → Bool
  | .op _ => false
  | .parse src =>
    match getCursor (ε := Unit) sm src with
    | .panic => true
    | _ => false

mutual
/-- What a program does in one execution. -/
inductive Code where
  | skip
  | act (a : Act)
  /-- src/extra.rs:71-75, src/fallback.rs:339-343 `invalidate_current_thread_spans` -/
  | invalidate
  | panic
  | seq (c d : Code)
  /-- `catch_unwind`: the variables that the code made are dropped if it panics -/
  | catch_ (c : Code)
  /-- src/fallback.rs:299-306 `Extend<TokenTree>` on the stream `i` -/
  | extendTrees (i : Nat) (it : Iter)
  /-- src/fallback.rs:308-312 `Extend<TokenStream>` on the stream `i` -/
  | extendStreams (i : Nat) (it : Iter)
  /-- src/fallback.rs:279-285 `FromIterator<TokenTree>` -/
  | collectTrees (it : Iter)
  /-- src/wrapper.rs:206-228 `FromIterator<TokenStream>` -/
  | collectStreams (it : Iter)
  /-- src/fallback.rs:287-297 `FromIterator<TokenStream>`, which is called if the crate is built without the wrapper -/
  | gatherStreams (it : Iter)

/-- What an iterator does. -/
inductive Iter where
  /-- `next` runs `c` and returns `None` -/
  | stop (c : Code)
  /-- `next` runs `c` and returns what is in the variable `j` -/
  | yield (c : Code) (j : Nat) (rest : Iter)
  /-- `next` runs `c` and returns the stream in the variable `j`. After `k` tokens of it, `Vec::extend` has taken one more and
  has no place for it; it calls `size_hint`, which panics. -/
  | hint (c : Code) (j k : Nat)
end

/-- The iterator has a `size_hint` that panics. -/
def Iter.hints : Iter → Bool
  | .stop _ => false
  | .yield _ _ it => it.hints
  | .hint .. => true

/-- Dropping a variable at the end of its scope. -/
def dropVar (s : State) (k : Nat) : Res Unit State :=
  match s.vars[k]? with
  | some (.stream _) => step s (.dropStream k)
  | some (.tree _) => step s (.dropTree k)
  | some (.owned _) => step s (.dropOwned k)
  | _ => .ok s

/-- The variables `n`, …, `n + m - 1` are dropped, the last one first. -/
def dropFrom (n : Nat) : Nat → State → Res Unit State
  | 0, s => .ok s
  | m + 1, s => do dropFrom n m (← dropVar s (n + m))

/-- `Vec::extend` on the stream `i` takes `k` tokens from the iterator in the variable `m`, one after the other, and one more,
which is lost in a panic, as is the iterator. -/
def takeSome (i m : Nat) : Nat → Nat → List Op
  | 0, p => [.next m, .dropTree p, .dropOwned m]
  | k + 1, p => .next m :: .pushMut i p :: takeSome i m k (p + 1)

section
variable [UnicodeTables]

mutual
/-- The state after the code, and whether it panicked. -/
def execCode : Code → SourceMap → State → Res Unit (SourceMap × State × Bool)
  | .skip, sm, s => .ok (sm, s, false)
  | .act a, sm, s =>
    if !a.isCall then .err ()
    else if a.noRoom sm then .ok (sm, s, true)
    else do
      let (sm, s) ← act sm s a
      .ok (sm, s, false)
  | .invalidate, sm, s => .ok (sm.invalidate, s, false)
  | .panic, sm, s => .ok (sm, s, true)
  | .seq c d, sm, s => do
    let (sm, s, p) ← execCode c sm s
    if p then .ok (sm, s, true) else execCode d sm s
  | .catch_ c, sm, s => do
    let n := s.vars.length
    let (sm, s, p) ← execCode c sm s
    if p then do .ok (sm, ← dropFrom n (s.vars.length - n) s, false) else .ok (sm, s, false)
  | .extendTrees i it, sm, s => do
    let (sm, s, p) ← eachTree i it sm (← step s (.makeMut i))
    .ok (sm, ← step s (.endMut i), p)
  | .extendStreams i it, sm, s => do
    let (sm, s, p) ← eachStream i it sm (← step s (.makeMut i))
    .ok (sm, ← step s (.endMut i), p)
  | .collectTrees it, sm, s => do
    let i := s.vars.length + 1
    let (sm, s, p) ← eachTree i it sm (← run s [.builder, .build (i - 1), .makeMut i])
    .ok (sm, ← run s (.endMut i :: if p then [.dropStream i] else []), p)
  | .collectStreams (.stop c), sm, s => do
    let (sm, s, p) ← execCode c sm s
    .ok (sm, ← run s (if p then [] else [.builder, .build s.vars.length]), p)
  | .collectStreams (.yield c i it), sm, s => do
    let (sm, s, p) ← execCode c sm s
    if p then .ok (sm, s, true) else do
    let (sm, s, p) ← eachStream i it sm (← step s (.makeMut i))
    .ok (sm, ← run s (.endMut i :: if p then [.dropStream i] else []), p)
  | .collectStreams (.hint ..), _, _ => .err ()
  -- The builder is a stream here that nobody else has, so that the code of the iterator cannot use it. Its `extend` asks the
  -- iterator over one stream for `size_hint`, not that of the user.
  | .gatherStreams it, sm, s =>
    if it.hints then .err () else do
    let i := s.vars.length + 1
    let (sm, s, p) ← eachStream i it sm (← run s [.builder, .build (i - 1), .makeMut i])
    .ok (sm, ← run s (.endMut i :: if p then [.dropStream i] else []), p)

/-- `for_each` of src/fallback.rs:301-305. It does not call `size_hint`. -/
def eachTree (i : Nat) : Iter → SourceMap → State → Res Unit (SourceMap × State × Bool)
  | .stop c, sm, s => execCode c sm s
  | .yield c j it, sm, s => do
    let (sm, s, p) ← execCode c sm s
    if p then .ok (sm, s, true) else eachTree i it sm (← step s (.pushMutPM i j))
  | .hint .., _, _ => .err ()

/-- `Vec::extend` with `Flatten` (src/fallback.rs:310, src/rcvec.rs:101-103). -/
def eachStream (i : Nat) : Iter → SourceMap → State → Res Unit (SourceMap × State × Bool)
  | .stop c, sm, s => execCode c sm s
  | .yield c j it, sm, s => do
    let (sm, s, p) ← execCode c sm s
    if p then .ok (sm, s, true) else
      eachStream i it sm (← run s [.intoOwned j, .extendMut i s.vars.length])
  | .hint c j k, sm, s => do
    let (sm, s, p) ← execCode c sm s
    if p then .ok (sm, s, true) else
      let m := s.vars.length
      .ok (sm, ← run s (.intoOwned j :: takeSome i m k (m + 1)), true)
end

end

end PM2.Heap
