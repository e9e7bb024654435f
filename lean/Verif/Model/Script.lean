import Verif.Model.Wrapper
/-!
# Model: iterators of the user and caught panics, in both modes

The wrapper's `extend` and `collect` with iterators that are code of the user. An iterator can call the crate, on other values, in
either mode, and it can panic. A script is what a program does in one execution; panics can be caught in it.

What the compiler's own `Extend<TokenStream>` leaves in a stream, if the iterator panics, is a parameter. A `size_hint` that panics
is modelled where it is called between tokens (`Vec::extend`, in the fallback); elsewhere it can only panic in place of `next`.
Streams of the fallback are values here; in the model of C112 they are on the heap.
-/

namespace PM2.Wrap
variable [Compiler]

/-- What a compiler's stream has after its `Extend<TokenStream>` was interrupted by a panic of the iterator. The iterator had
returned the given streams. -/
class Unwinding where
  left : List CTree → List (List CTree) → List CTree

/-- Such an interrupted `extend` for a representation of compiler's streams. -/
class Torn (σ : Type) where
  torn : σ → List σ → σ

/-- src/wrapper.rs:247-251, 210-217: `evaluate_now` is before the iterator is used. -/
instance [Unwinding] : Torn Deferred where
  torn d ds :=
    let d := d.evaluateNow
    { d with stream := Unwinding.left d.stream (ds.map Deferred.intoStream) }

/-- How code ended. -/
inductive End where
  | returned
  | panicked
  /-- with the panic of src/wrapper.rs:49-60 -/
  | mismatched
deriving DecidableEq

mutual
/-- What a program does in one execution. -/
inductive Script where
  | skip
  /-- a call without an iterator of the user; `inside` is what `inside_proc_macro()` answers -/
  | op (inside : Bool) (o : Op)
  | panic
  | seq (c d : Script)
  /-- `catch_unwind`: the variables that the code made are gone if it panics -/
  | catch_ (c : Script)
  /-- src/wrapper.rs:230-242 `Extend<TokenTree>` on the stream `i` -/
  | extendTrees (i : Nat) (it : Feed)
  /-- src/wrapper.rs:244-257 `Extend<TokenStream>` on the stream `i` -/
  | extendStreams (i : Nat) (it : Feed)
  /-- src/wrapper.rs:194-204 `FromIterator<TokenTree>` -/
  | collectTrees (inside : Bool) (it : Feed)
  /-- src/wrapper.rs:206-228 `FromIterator<TokenStream>` -/
  | collectStreams (inside : Bool) (it : Feed)

/-- What an iterator does. -/
inductive Feed where
  /-- `next` runs `c` and returns `None` -/
  | stop (c : Script)
  /-- `next` runs `c` and returns what is in the variable `j` -/
  | yield (c : Script) (j : Nat) (rest : Feed)
  /-- `next` runs `c` and returns the stream in the variable `j`. After `k` tokens of it, `Vec::extend` has taken one more and
  has no place for it; it calls `size_hint`, which panics. -/
  | hint (c : Script) (j k : Nat)
end

/-- The calls that take no iterator. -/
def Op.plain : Op → Bool
  | .collectTrees _ | .collectStreams _ | .extendTrees .. | .extendStreams .. => false
  | _ => true

/-- Code after a call, and code after a panic of the call. -/
def Out.tried {α β : Type} (x : Out α) (f : α → Out β) (g : End → Out β) : Out β :=
  match x with
  | .ok a => f a
  | .mismatch => g .mismatched
  | .panic => g .panicked
  | .diverge => .diverge
  | .ill => .ill

section
variable {σ : Type} [Rep σ]

/-- One round of the loops of src/wrapper.rs:235-237 and src/fallback.rs:301-305. -/
def WStream.push : WStream σ → Tree → Out (WStream σ)
  | .compiler d, t => do .ok (.compiler (Rep.extendTrees d [← intoCompilerToken t]))
  | .fallback ts, t => .ok (.fallback (ts ++ pushTree t))

/-- src/wrapper.rs:230-242: the tree in the variable `j` is appended. -/
def addTree (s : State σ) (x : WStream σ) (j : Nat) : Out (WStream σ) := do x.push (← s.tree j)

/-- src/wrapper.rs:198: the compiler gets the tree in the variable `j`. -/
def addCompiler (s : State σ) (cs : List CTree) (j : Nat) : Out (List CTree) := do
  .ok (cs ++ [← intoCompilerToken (← s.tree j)])

/-- src/wrapper.rs:250, 212-215: the compiler gets the stream in the variable `j`. -/
def addNightly (s : State σ) (ds : List σ) (j : Nat) : Out (List σ) := do
  .ok (ds ++ [← (← s.stream j).unwrapNightly])

/-- src/wrapper.rs:253, 219-222, with src/fallback.rs:308-312: the trees of the stream in the variable `j` are appended. -/
def addStable (s : State σ) (ts : List Tree) (j : Nat) : Out (List Tree) := do
  .ok (ts ++ (← (← s.stream j).unwrapStable))

/-- src/fallback.rs:308-312, src/rcvec.rs:101-103: only the first `k` trees of the stream are appended, and one more is lost. -/
def addSome (s : State σ) (ts : List Tree) (j k : Nat) : Out (List Tree) := do
  let us ← (← s.stream j).unwrapStable
  if k < us.length then .ok (ts ++ us.take k) else .ill

variable [Torn σ] [UnicodeTables]

/-- What a call without an iterator leaves if it panics. The parsers panic in `add_file` (src/fallback.rs:464-470); an iterator over a
compiler's stream has taken the token when src/wrapper.rs:352-361 rejects it. Nothing else is changed before a panic. -/
def leave (inside : Bool) (s : State σ) : Op → State σ
  | .fromStr src => { s with sm := (WStream.fromStr (σ := σ) inside s.sm src).sm }
  | .literalFromStr src => { s with sm := (literalFromStr inside s.sm src).sm }
  | .next i =>
    match s.vars[i]? with
    | some (.iterC (_ :: ts)) => s.set i (.iterC ts)
    | _ => s
  | _ => s

/-- A compiler's stream after `Extend<TokenStream>`. -/
def extended (d : σ) (ds : List σ) (e : End) : σ := if e = .returned then Rep.extendStreams d ds else Torn.torn d ds

mutual
/-- The state after the code, and how it ended. While a stream is extended, its variable cannot be used. -/
def exec : Script → State σ → Out (State σ × End)
  | .skip, s => .ok (s, .returned)
  | .op inside o, s =>
    if !o.plain then .ill
    else (step inside s o).tried (fun s' => .ok (s', .returned)) (fun e => .ok (leave inside s o, e))
  | .panic, s => .ok (s, .panicked)
  | .seq c d, s => do
    let (s, e) ← exec c s
    if e = .returned then exec d s else .ok (s, e)
  | .catch_ c, s => do
    let (s', e) ← exec c s
    .ok (if e = .returned then s' else { s' with vars := s'.vars.take s.vars.length }, .returned)
  | .extendTrees i it, s => do
    let (s, x, e) ← loopTrees it (s.set i .none) (← s.stream i)
    .ok (s.set i (.stream x), e)
  | .extendStreams i it, s => do
    match ← s.stream i with
    | .compiler d => do
      let (s, ds, e) ← loopNightly it (s.set i .none) []
      .ok (s.set i (.stream (.compiler (extended d ds e))), e)
    | .fallback ts => do
      let (s, ts, e) ← loopStable it (s.set i .none) ts
      .ok (s.set i (.stream (.fallback ts)), e)
  | .collectTrees true it, s => do
    let (s, cs, e) ← loopCompiler it s []
    .ok (if e = .returned then s.push (.stream (.compiler (Rep.new (extendC [] cs)))) else s, e)
  | .collectTrees false it, s => do
    let (s, x, e) ← loopTrees it s (.fallback [])
    .ok (if e = .returned then s.push (.stream x) else s, e)
  | .collectStreams inside (.stop c), s => do
    let (s, e) ← exec c s
    .ok (if e = .returned then s.push (.stream (WStream.new inside)) else s, e)
  | .collectStreams _ (.yield c j it), s => do
    let (s, e) ← exec c s
    if e = .returned then
      match ← s.stream j with
      | .compiler d => do
        let (s, ds, e) ← loopNightly it s []
        .ok (if e = .returned then s.push (.stream (.compiler (extended d ds e))) else s, e)
      | .fallback ts => do
        let (s, ts, e) ← loopStable it s ts
        .ok (if e = .returned then s.push (.stream (.fallback ts)) else s, e)
    else .ok (s, e)
  | .collectStreams _ (.hint ..), _ => .ill

/-- The loops over an iterator; also what was made of the values that it returned. -/
def loopTrees : Feed → State σ → WStream σ → Out (State σ × WStream σ × End)
  | .stop c, s, x => do
    let (s, e) ← exec c s
    .ok (s, x, e)
  | .yield c j it, s, x => do
    let (s, e) ← exec c s
    if e = .returned then (addTree s x j).tried (loopTrees it s) (fun e => .ok (s, x, e)) else .ok (s, x, e)
  | .hint .., _, _ => .ill

def loopCompiler : Feed → State σ → List CTree → Out (State σ × List CTree × End)
  | .stop c, s, x => do
    let (s, e) ← exec c s
    .ok (s, x, e)
  | .yield c j it, s, x => do
    let (s, e) ← exec c s
    if e = .returned then (addCompiler s x j).tried (loopCompiler it s) (fun e => .ok (s, x, e)) else .ok (s, x, e)
  | .hint .., _, _ => .ill

def loopNightly : Feed → State σ → List σ → Out (State σ × List σ × End)
  | .stop c, s, x => do
    let (s, e) ← exec c s
    .ok (s, x, e)
  | .yield c j it, s, x => do
    let (s, e) ← exec c s
    if e = .returned then (addNightly s x j).tried (loopNightly it s) (fun e => .ok (s, x, e)) else .ok (s, x, e)
  | .hint .., _, _ => .ill

def loopStable : Feed → State σ → List Tree → Out (State σ × List Tree × End)
  | .stop c, s, x => do
    let (s, e) ← exec c s
    .ok (s, x, e)
  | .yield c j it, s, x => do
    let (s, e) ← exec c s
    if e = .returned then (addStable s x j).tried (loopStable it s) (fun e => .ok (s, x, e)) else .ok (s, x, e)
  | .hint c j k, s, x => do
    let (s, e) ← exec c s
    if e = .returned then (addSome s x j k).tried (fun x => .ok (s, x, .panicked)) (fun e => .ok (s, x, e)) else .ok (s, x, e)
end

end

end PM2.Wrap
