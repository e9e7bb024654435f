import Verif.Model.HeapParse
import Verif.Model.HeapPrint
import Verif.Model.Wrapper
/-!
# The API on the heap, outside of macros

The calls of `Wrap.Op`, as `src/wrapper.rs` forwards them to `src/fallback.rs` when `inside_proc_macro()` is false, on the heap of
`Verif.Model.Heap`: the variables of a program hold streams, trees and iterators as they are in memory. A stream is the address
of its cell.

Calls that take a stream or a tree by value get a clone of it, and the variable can be used again, or (`give`) it is moved
out of the variable. A move is a clone after which the original is dropped. Variables can also be dropped.
-/

namespace PM2.HeapApi
open Heap Wrap

section
variable [CompilerTypes]

/-- Values that hold no tokens of the fallback and no spans. -/
inductive Datum where
  | bool (b : Bool)
  | text (t : List Char)
  | streamC (ts : List CTree)
  | delimiter (d : Delimiter)
  | spacing (s : Spacing)
  | ordering (o : Ordering)
  | range (lo hi : Nat)
  | lineColumn (lc : LineColumn)
  | hint (lower : Nat) (upper : Option Nat)
  | bytes (bs : List UInt8)
  | conversion (r : Except ConversionError (List Char ⊕ List UInt8))
  /-- `None`, or a variable that was dropped or moved out of -/
  | none

/-- The contents of a variable. -/
inductive HValue where
  /-- a `TokenStream` (src/fallback.rs:54-57) -/
  | stream (a : Addr)
  /-- a `TokenTree`, `Group`, `Ident`, `Punct` or `Literal` -/
  | tree (t : HTree)
  /-- a `TokenTreeIter` (src/fallback.rs:314) -/
  | iter (l : List HTree)
  | span (s : Span)
  /-- a `LexError` (src/fallback.rs:59-62) -/
  | error (s : Span)
  /-- a `DelimSpan` (src/extra.rs:82-96): the span of the group -/
  | delim (s : Span)
  | datum (d : Datum)

/-- What the variable refers to. -/
def HValue.root : HValue → Root
  | .stream a => .stream a
  | .tree t => .tree t
  | .iter l => .owned l
  | _ => .dead

def HValue.ofRoot : Root → HValue
  | .stream a => .stream a
  | .tree t => .tree t
  | .owned l => .iter l
  | .borrowed _ => .datum .none
  | .dead => .datum .none

/-- The variable after an operation on the heap that left `r` in it. -/
def HValue.withRoot (v : HValue) (r : Root) : HValue :=
  match v.root with
  | .dead => v
  | _ => .ofRoot r

/-- The thread's source map, the heap and the variables. -/
structure HState where
  sm : SourceMap
  heap : Heap
  vars : List HValue

def HState.init : HState := ⟨SourceMap.init, [], []⟩

namespace HState

def push (s : HState) (v : HValue) : HState := { s with vars := s.vars ++ [v] }

/-- A variable of the right type. -/
def read {α : Type} (s : HState) (f : HValue → Option α) (i : Nat) : Out α :=
  match s.vars[i]? with
  | none => .ill
  | some v => Out.typed (f v)

/-- Several variables of the right type. -/
def reads {α : Type} (s : HState) (f : HValue → Option α) : List Nat → Out (List α)
  | [] => .ok []
  | i :: is => do .ok ((← s.read f i) :: (← s.reads f is))

/-- The variables for the operations on the heap. -/
def state (s : HState) : State := ⟨s.heap, s.vars.map HValue.root⟩

end HState

/-- Operations on the heap, where an error is a variable that does not hold what is needed. -/
def ofHeap {α : Type} (x : Res Unit α) : Out α :=
  match x with
  | .ok a => .ok a
  | .err _ => .ill
  | .panic => .panic
  | .diverge => .diverge

/-- After operations on the heap that ended in `st`, without a result. -/
def HState.after (s : HState) (st : State) : HState :=
  { s with heap := st.heap, vars := List.zipWith HValue.withRoot s.vars st.vars }

/-- Operations that change variables. -/
def HState.change (s : HState) (ops : List Heap.Op) : Out HState := do
  .ok (s.after (← ofHeap (Heap.run s.state ops)))

/-- Operations whose result is the variable `k`; other new variables are temporary. -/
def HState.result (s : HState) (ops : List Heap.Op) (k : Nat) : Out HState := do
  let st ← ofHeap (Heap.run s.state ops)
  match st.vars[k]? with
  | some r => .ok ((s.after st).push (.ofRoot r))
  | none => .ill

/-- `Write for String`: pieces are appended. -/
def textWriter : Writer (List Char) := fun s c => (s ++ c, true)

/-- Printing to a `String`, which does not fail; an error of an implementation would make `to_string` panic. -/
def HState.print (s : HState) (p : HPrinter) : Out HState :=
  match p.run _ textWriter [] s.heap with
  | .ok ((t, true), h) => .ok ({ s with heap := h }.push (.datum (.text t)))
  | .ok ((_, false), _) => .panic
  | .err _ => .ill
  | .panic => .panic
  | .diverge => .diverge

def HValue.stream? : HValue → Option Addr
  | .stream a => some a
  | _ => none
def HValue.tree? : HValue → Option HTree
  | .tree t => some t
  | _ => none
def HValue.iter? : HValue → Option (List HTree)
  | .iter l => some l
  | _ => none
def HValue.span? : HValue → Option Span
  | .span s => some s
  | _ => none
def HValue.error? : HValue → Option Span
  | .error s => some s
  | _ => none
def HValue.delim? : HValue → Option Span
  | .delim s => some s
  | _ => none
def HValue.group? : HValue → Option (Delimiter × Span)
  | .tree (.group d _ s) => some (d, s)
  | _ => none
def HValue.ident? : HValue → Option (List Char × Bool × Span)
  | .tree (.ident sym raw s) => some (sym, raw, s)
  | _ => none
def HValue.punct? : HValue → Option (Char × Spacing)
  | .tree (.punct ch sp _) => some (ch, sp)
  | _ => none
def HValue.literal? : HValue → Option (List Char × Span)
  | .tree (.literal r s) => some (r, s)
  | _ => none

/-- `None` or a span. -/
def HValue.ofSpan : Option Span → HValue
  | some s => .span s
  | none => .datum .none

/-- `None` or a text. -/
def HValue.ofText : Option (List Char) → HValue
  | some t => .datum (.text t)
  | none => .datum .none

/-- src/lib.rs:592-599 `TokenTree::span`, with src/fallback.rs:742-744, 832-834, 1149-1151. -/
def treeSpan : HTree → Span
  | .group _ _ s => s
  | .ident _ _ s => s
  | .punct _ _ s => s
  | .literal _ s => s

/-- A token without a stream, in memory. -/
def leafOf : TokenTree → HTree
  | .ident sym raw s => .ident sym raw s
  | .punct ch sp s => .punct ch sp s
  | .literal r s => .literal r s
  | .group d _ s => .group d 0 s

/-- Cloning a stream, tree or iterator. -/
def cloneOp : HValue → Nat → Option Heap.Op
  | .stream _, i => some (.cloneStream i)
  | .tree _, i => some (.cloneTree i)
  | .iter _, i => some (.cloneOwned i)
  | _, _ => none

/-- Dropping a stream, tree or iterator. -/
def dropOp : HValue → Nat → Option Heap.Op
  | .stream _, i => some (.dropStream i)
  | .tree _, i => some (.dropTree i)
  | .iter _, i => some (.dropOwned i)
  | _, _ => none

/-- Streams given by value: the clones are the variables from the next on. -/
def streamArgs (own : Bool) (is : List Nat) : List Heap.Op :=
  is.map .cloneStream ++ if own then is.map .dropStream else []

/-- Trees given by value. -/
def treeArgs (own : Bool) (is : List Nat) : List Heap.Op :=
  is.map .cloneTree ++ if own then is.map .dropTree else []

/-- src/fallback.rs:299-306 `Extend<TokenTree>`: the stream `i`, the trees `js`. -/
def extendTrees (i : Nat) (js : List Nat) : List Heap.Op :=
  .makeMut i :: js.map (.pushMutPM i) ++ [.endMut i]

/-- src/fallback.rs:308-312 `Extend<TokenStream>`: each stream of `js` becomes an iterator (the variables from `n` on), which is
moved to the end of the stream `i`. -/
def extendStreams (n i : Nat) (js : List Nat) : List Heap.Op :=
  .makeMut i :: go n js ++ [.endMut i]
where
  go : Nat → List Nat → List Heap.Op
    | _, [] => []
    | n, j :: js => .intoOwned j :: .extendMut i n :: go (n + 1) js

end

section
variable [Compiler] [UnicodeTables]

/-- One call; `own`: what is given by value is moved. Printing may recurse as deep as there are cells.

`.new`, `.default` src/fallback.rs:77-81; `.fromTree` src/wrapper.rs:182-192, src/fallback.rs:269-277; `.collectTrees`
src/wrapper.rs:194-204, src/fallback.rs:279-285; `.collectStreams` src/wrapper.rs:206-228 (the first stream is extended);
`.extendTrees` src/wrapper.rs:230-242; `.extendStreams` src/wrapper.rs:244-257; `.intoIter` src/wrapper.rs:321-333; `.next`
src/wrapper.rs:335-371; `.groupNew`, `.groupStream` src/fallback.rs:726-740; `.delimSpan` src/extra.rs:98-117; the others as
in `Verif.Model.Wrapper`. `.intoCompiler` (src/wrapper.rs:147-156) prints the stream and drops it; if it is given a clone, the clone
and its drop are left out. -/
def call (own : Bool) (s : HState) : Wrap.Op → Out HState
  | .new => s.result [.builder, .build s.vars.length] (s.vars.length + 1)
  | .fromStr src =>
    match Heap.parse s.sm s.state src with
    | (sm, .ok st) =>
      match st.vars[s.vars.length]? with
      | some r => .ok (({ s with sm := sm }.after st).push (.ofRoot r))
      | none => .ill
    | (sm, .err (e, st)) => .ok (({ s with sm := sm }.after st).push (.error e))
    | (_, .panic) => .panic
    | (_, .diverge) => .diverge
  | .fromCompiler _ => .ill
  | .spanFromCompiler _ => .ill
  | .clone i => do
    let v ← s.read some i
    match cloneOp v i with
    | some op => s.result [op] s.vars.length
    | none => .ok (s.push v)
  | .isEmpty i => do .ok (s.push (.datum (.bool (← ofHeap (Heap.isEmpty s.heap (← s.read HValue.stream? i))))))
  | .display i => do s.print (displayH s.heap.length (← s.read HValue.stream? i))
  | .intoCompiler i => do
    match (displayH s.heap.length (← s.read HValue.stream? i)).run _ textWriter [] s.heap with
    | .ok ((t, true), h) =>
      match Compiler.parseStream t with
      | .ok ts => do
        let s ← HState.change { s with heap := h } (if own then [.dropStream i] else [])
        .ok (s.push (.datum (.streamC ts)))
      | _ => .panic
    | .ok ((_, false), _) => .panic
    | .err _ => .ill
    | .panic => .panic
    | .diverge => .diverge
  | .fromTree i => do
    let _ ← s.read HValue.tree? i
    let n := s.vars.length
    s.result (treeArgs own [i] ++ [.builder, .pushOwnedPM (n + 1) n, .build (n + 1)]) (n + 2)
  | .collectTrees is => do
    let _ ← s.reads HValue.tree? is
    let n := s.vars.length
    let k := n + is.length
    s.result (treeArgs own is ++ [.builder, .build k] ++ extendTrees (k + 1) (List.range' n is.length)) (k + 1)
  | .collectStreams [] => s.result [.builder, .build s.vars.length] (s.vars.length + 1)
  | .collectStreams (i :: is) => do
    let _ ← s.reads HValue.stream? (i :: is)
    let n := s.vars.length
    s.result (streamArgs own (i :: is) ++ extendStreams (n + 1 + is.length) n (List.range' (n + 1) is.length)) n
  | .extendTrees i js => do
    let _ ← s.read HValue.stream? i
    let _ ← s.reads HValue.tree? js
    s.change (treeArgs own js ++ extendTrees i (List.range' s.vars.length js.length))
  | .extendStreams i js => do
    let _ ← s.read HValue.stream? i
    let _ ← s.reads HValue.stream? js
    let n := s.vars.length
    s.change (streamArgs own js ++ extendStreams (n + js.length) i (List.range' n js.length))
  | .intoIter i => do
    let _ ← s.read HValue.stream? i
    s.result (streamArgs own [i] ++ [.intoOwned s.vars.length]) (s.vars.length + 1)
  | .next i => do
    match ← s.read HValue.iter? i with
    | [] => .ok (s.push (.datum .none))
    | _ :: _ => s.result [.next i] s.vars.length
  | .callSite => .ok (s.push (.span Span.callSite))
  | .mixedSite => .ok (s.push (.span Span.callSite))
  | .resolvedAt i j => do
    let a ← s.read HValue.span? i
    .ok (s.push (.span (a.resolvedAt (← s.read HValue.span? j))))
  | .locatedAt i j => do
    let a ← s.read HValue.span? i
    .ok (s.push (.span (a.locatedAt (← s.read HValue.span? j))))
  | .unwrap i => do
    let _ ← s.read HValue.span? i
    .panic
  | .join i j => do
    let a ← s.read HValue.span? i
    let b ← s.read HValue.span? j
    .ok (s.push (.ofSpan (← Out.ofRes (a.join s.sm b))))
  | .spanEq i j => do
    let a ← s.read HValue.span? i
    .ok (s.push (.datum (.bool (a == (← s.read HValue.span? j)))))
  | .groupNew d i => do
    let _ ← s.read HValue.stream? i
    s.result (streamArgs own [i] ++ [.groupNew d s.vars.length]) (s.vars.length + 1)
  | .groupStream i => do
    let _ ← s.read HValue.group? i
    s.result [.groupStream i] s.vars.length
  | .span i => do .ok (s.push (.span (treeSpan (← s.read HValue.tree? i))))
  | .spanOpen i => do .ok (s.push (.span (← s.read HValue.group? i).2.firstByte))
  | .spanClose i => do .ok (s.push (.span (← s.read HValue.group? i).2.lastByte))
  | .setSpan i j => do
    let _ ← s.read HValue.tree? i
    s.change [.setSpan i (← s.read HValue.span? j)]
  | .identNew t i => do
    s.result [.leaf (leafOf (← Out.ofRes (Ident.new t (← s.read HValue.span? i))))] s.vars.length
  | .identNewRaw t i => do
    s.result [.leaf (leafOf (← Out.ofRes (Ident.newRaw t (← s.read HValue.span? i))))] s.vars.length
  | .identEq i j => do
    let a ← s.read HValue.ident? i
    let b ← s.read HValue.ident? j
    .ok (s.push (.datum (.bool (IdentData.eq ⟨a.1, a.2.1⟩ ⟨b.1, b.2.1⟩))))
  | .identEqStr i t => do
    let a ← s.read HValue.ident? i
    .ok (s.push (.datum (.bool (← Out.ofRes (IdentData.eqStr ⟨a.1, a.2.1⟩ t)))))
  | .punctNew ch sp => do s.result [.leaf (leafOf (← Out.ofRes (PM2.punctNew ch sp)))] s.vars.length
  | .literalNew r => s.result [.leaf (leafOf (PM2.literalNew r))] s.vars.length
  | .literalFromStr src =>
    match Literal.fromStr s.sm src with
    | (sm, .ok (r, sp)) => HState.result { s with sm := sm } [.leaf (.literal r sp)] s.vars.length
    | (sm, .err e) => .ok ({ s with sm := sm }.push (.error e))
    | (_, .panic) => .panic
    | (_, .diverge) => .diverge
  | .subspan i a b => do .ok (s.push (.ofSpan (PM2.subspan (← s.read HValue.literal? i).2 a b)))
  | .errorSpan i => do .ok (s.push (.span (← s.read HValue.error? i)))
  | .invalidate => .ok ({ s with sm := s.sm.invalidate }.push (.datum .none))
  | .defSite => .ok (s.push (.span Span.callSite))
  | .byteRange i => do
    let r ← Out.ofRes ((← s.read HValue.span? i).byteRange s.sm)
    .ok ({ s with sm := r.1 }.push (.datum (.range r.2.1 r.2.2)))
  | .start i => do .ok (s.push (.datum (.lineColumn (← Out.ofRes ((← s.read HValue.span? i).start s.sm)))))
  | .end_ i => do .ok (s.push (.datum (.lineColumn (← Out.ofRes ((← s.read HValue.span? i).end_ s.sm)))))
  | .file i => do .ok (s.push (.datum (.text (← Out.ofRes ((← s.read HValue.span? i).file s.sm)))))
  | .localFile i => do
    let _ ← s.read HValue.span? i
    .ok (s.push (.datum .none))
  | .sourceText i => do
    let r ← Out.ofRes ((← s.read HValue.span? i).sourceText s.sm)
    .ok ({ s with sm := r.1 }.push (.ofText r.2))
  | .delimiter i => do .ok (s.push (.datum (.delimiter (← s.read HValue.group? i).1)))
  | .delimSpan i => do .ok (s.push (.delim (← s.read HValue.group? i).2))
  | .delimJoin i => do .ok (s.push (.span (← s.read HValue.delim? i)))
  | .delimOpen i => do .ok (s.push (.span (← s.read HValue.delim? i).firstByte))
  | .delimClose i => do .ok (s.push (.span (← s.read HValue.delim? i).lastByte))
  | .treeText i => do s.print (displayTreeH {} s.heap.length (← s.read HValue.tree? i))
  | .asChar i => do .ok (s.push (.datum (.text [(← s.read HValue.punct? i).1])))
  | .spacing i => do .ok (s.push (.datum (.spacing (← s.read HValue.punct? i).2)))
  | .identCmp i j => do
    let a ← s.read HValue.ident? i
    let b ← s.read HValue.ident? j
    .ok (s.push (.datum (.ordering (IdentData.cmp ⟨a.1, a.2.1⟩ ⟨b.1, b.2.1⟩))))
  | .identHash i => do
    let a ← s.read HValue.ident? i
    .ok (s.push (.datum (.bytes (IdentData.hashInput ⟨a.1, a.2.1⟩))))
  | .literalUnchecked r => s.result [.leaf (leafOf (PM2.literalNew r))] s.vars.length
  | .sizeHint i => do
    let l ← s.read HValue.iter? i
    .ok (s.push (.datum (.hint (Heap.sizeHint l).1 (Heap.sizeHint l).2)))
  | .byteCharacter b => s.result [.leaf (leafOf (PM2.literalNew (litByteCharacter b)))] s.vars.length
  | .cString bs => do s.result [.leaf (leafOf (PM2.literalNew (← Out.ofRes (litCString bs))))] s.vars.length
  | .debug alternate i => do
    match ← s.read some i with
    | .stream a => s.print (debugStreamH true alternate s.heap.length a)
    | .tree t => s.print (debugTreeH true alternate s.heap.length t)
    | .iter l => s.print (debugIterH true alternate s.heap.length l)
    | .span sp => .ok (s.push (.datum (.text (debugSpan true sp))))
    | .error sp => .ok (s.push (.datum (.text (debugLexError true alternate sp))))
    | .delim sp => .ok (s.push (.datum (.text (debugSpan true sp))))
    | .datum (.delimiter d) => .ok (s.push (.datum (.text (debugDelimiter d))))
    | .datum (.spacing sp) => .ok (s.push (.datum (.text (debugSpacing sp))))
    | .datum (.lineColumn lc) => .ok (s.push (.datum (.text (debugLineColumn alternate lc))))
    | .datum _ => .ill
  | .debugIdent alternate i => do
    let a ← s.read HValue.ident? i
    .ok (s.push (.datum (.text (debugIdent true alternate a.1 a.2.1 a.2.2))))
  | .errorText i => do
    let _ ← s.read HValue.error? i
    .ok (s.push (.datum (.text displayLexError)))
  | .value k i => do
    .ok (s.push (.datum (.conversion (← Out.ofRes (literalValue (← s.read HValue.literal? i).1 k)))))

/-- A step of a program. -/
inductive ApiAct where
  /-- a call that is given clones of what it takes by value -/
  | call (op : Wrap.Op)
  /-- a call that is given what it takes by value -/
  | give (op : Wrap.Op)
  /-- the variable is dropped -/
  | drop (i : Nat)

def apiAct (s : HState) : ApiAct → Out HState
  | .call op => call false s op
  | .give op => call true s op
  | .drop i => do
    let v ← s.read some i
    match dropOp v i with
    | some op => s.change [op]
    | none => .ok { s with vars := s.vars.set i (.datum .none) }

/-- A program. -/
def apiActs (s : HState) : List ApiAct → Out HState
  | [] => .ok s
  | a :: as => do apiActs (← apiAct s a) as

end

end PM2.HeapApi
