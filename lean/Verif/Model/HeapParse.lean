import Verif.Model.Heap
import Verif.Model.SourceMap
/-!
# The parser on the heap (src/parse.rs:171-250, 908-954)

The functions of the lexer that make, hold and drop streams, with the streams in the heap of `Verif.Model.Heap`. What the
lexer does to streams is a sequence of the operations of that file, so the results are new variables: a `TokenStreamBuilder`
is a variable that holds an owned vector. The other functions of the lexer are those of `Verif.Model.Parse`. When
`token_stream` returns an error, its local variables are dropped; the error comes with the state after that.
-/

namespace PM2.Heap
variable {ο : Type} [Pos ο]

/-- An operation on a stream. One that rustc would reject is a `panic` here. -/
def exec {ε : Type} (s : State) (op : Op) : Res ε State :=
  match step s op with
  | .ok s => .ok s
  | .err _ => .panic
  | .panic => .panic
  | .diverge => .diverge

/-- An identifier, punct or literal. The constructors of these do not make groups. -/
def leafOf {ε : Type} : TokenTree → Res ε HTree
  | .group .. => .panic
  | .ident sym raw s => .ok (.ident sym raw s)
  | .punct ch sp s => .ok (.punct ch sp s)
  | .literal r s => .ok (.literal r s)

/-- A new variable that holds a token. -/
def newLeaf {ε : Type} (s : State) (t : TokenTree) : Res ε (State × Nat) := do
  let t ← leafOf t
  let s' ← exec s (.leaf t)
  .ok (s', s.vars.length)

/-- `set_span` on a new token. -/
def newSpanned {ε : Type} (s : State) (t : TokenTree) (span : Span) : Res ε (State × Nat) := do
  let (s, i) ← newLeaf s t
  let s ← exec s (.setSpan i span)
  .ok (s, i)

/-- `set_span` on a new token and `push_token_from_parser` (src/fallback.rs:186-188) to the builder `b`. -/
def pushSpanned {ε : Type} (s : State) (b : Nat) (t : TokenTree) (span : Span) : Res ε State := do
  let (s, i) ← newSpanned s t span
  exec s (.pushOwned b i)

/-- src/fallback.rs:190-194 `TokenStreamBuilder::build` of the builder `b`, src/fallback.rs:726-732 `Group::new` and
754-756 `set_span`, and `push_token_from_parser` to the builder `outer`. -/
def pushGroup {ε : Type} (s : State) (outer : Nat) (d : Delimiter) (b : Nat) (span : Span) : Res ε State := do
  let i := s.vars.length
  let s ← exec s (.build b)
  let g := s.vars.length
  let s ← exec s (.groupNew d i)
  let s ← exec s (.setSpan g span)
  exec s (.pushOwned outer g)

/-- src/fallback.rs:175-184 `TokenStreamBuilder::new` and `with_capacity`. -/
def newBuilder {ε : Type} (s : State) : Res ε (State × Nat) := do
  let s' ← exec s .builder
  .ok (s', s.vars.length)

section
variable [UnicodeTables]

/-- src/parse.rs:908-954 `doc_comment`, with `tokens` in the variable `b`. -/
def docCommentH (s : State) (b : Nat) (input : Cursor ο) : PRes (Cursor ο × State) := do
  let lo := input.off
  let (rest, comment, inner) ← docCommentContents input
  let span : Span := Pos.span lo rest.off
  scanBareCr (comment.length + 1) comment
  let pound ← punctNew '#' .alone
  let s ← pushSpanned s b pound span
  let s ← (if inner then do
      let bang ← punctNew '!' .alone
      pushSpanned s b bang span
    else .ok s : PRes State)
  let (s, docIdent) ← newLeaf s (identNewUnchecked ['d', 'o', 'c'] span)
  let equal ← punctNew '=' .alone
  let (s, equal) ← newSpanned s equal span
  let (s, literal) ← newSpanned s (literalNew (litString comment)) span
  let (s, bracketed) ← newBuilder s
  let s ← exec s (.pushOwned bracketed docIdent)
  let s ← exec s (.pushOwned bracketed equal)
  let s ← exec s (.pushOwned bracketed literal)
  let s ← pushGroup s b .bracket bracketed span
  .ok (rest, s)

/-- An entry of `stack` (src/parse.rs:205-208): the builder is in the variable `outer`. -/
structure FrameH (ο : Type) where
  lo : ο
  delim : Delimiter
  outer : Nat
deriving Repr

/-- The mutable state of the loop in `token_stream` (src/parse.rs:172-173): `input`, the variable of `tokens`, `stack` (head
= top), and the heap. -/
structure LStateH (ο : Type) where
  state : State
  input : Cursor ο
  tokens : Nat
  stack : List (FrameH ο)
deriving Repr

/-- Dropping builders. -/
def dropBuilders {ε : Type} (s : State) : List Nat → Res ε State
  | [] => .ok s
  | i :: is => do
    let s ← exec s (.dropOwned i)
    dropBuilders s is

/-- `return Err(…)`: the variables `locals` are dropped. -/
def fail {α : Type} (s : State) (locals : List Nat) (span : Span) : Res (Span × State) α := do
  let s ← dropBuilders s locals
  .err (span, s)

/-- One iteration of the loop in `token_stream` (src/parse.rs:175-249): either the next state or the returned stream. The
variables are dropped in the reverse order of their declarations, and the elements of `stack` from the bottom. -/
def lexStepH (st : LStateH ο) : Res (Span × State) (LStateH ο ⊕ (State × Nat)) := do
  let input ← skipWhitespace st.input
  (docCommentH st.state st.tokens input).ifOk
    (fun (rest, s) => .ok (.inl ⟨s, rest, st.tokens, st.stack⟩))
    fun _ =>
  let lo := input.off
  match (bytesOf input.rest) with
  | [] =>
    match st.stack with
    | [] => do
      let i := st.state.vars.length
      let s ← exec st.state (.build st.tokens)
      .ok (.inr (s, i))
    | f :: _ => fail st.state ((st.stack.map FrameH.outer).reverse ++ [st.tokens]) (Pos.span f.lo f.lo)
  | first :: _ =>
    match openDelimiter input first with
    | some d => do
      let input ← advance input 1
      let (s, tokens) ← newBuilder st.state
      .ok (.inl ⟨s, input, tokens, ⟨lo, d, st.tokens⟩ :: st.stack⟩)
    | none =>
      match closeDelimiter first with
      | some d =>
        match st.stack with
        | [] => fail st.state [st.tokens] (lexError input)
        | f :: stack =>
          if f.delim ≠ d then
            fail st.state (f.outer :: (stack.map FrameH.outer).reverse ++ [st.tokens]) (lexError input)
          else do
            let input ← advance input 1
            let s ← pushGroup st.state f.outer f.delim st.tokens (Pos.span f.lo input.off)
            .ok (.inl ⟨s, input, f.outer, stack⟩)
      | none =>
        match leafToken input with
        | .ok (rest, tt) => do
          let s ← pushSpanned st.state st.tokens tt (Pos.span lo rest.off)
          .ok (.inl ⟨s, rest, st.tokens, st.stack⟩)
        | .err _ => fail st.state ((st.stack.map FrameH.outer).reverse ++ [st.tokens]) (lexError input)
        | .panic => .panic
        | .diverge => .diverge

/-- The loop of `token_stream` (src/parse.rs:175-249). -/
def lexLoopH : Nat → LStateH ο → Res (Span × State) (State × Nat)
  | 0, _ => .diverge
  | fuel + 1, st =>
    match lexStepH st with
    | .ok (.inl st) => lexLoopH fuel st
    | .ok (.inr r) => .ok r
    | .err e => .err e
    | .panic => .panic
    | .diverge => .diverge

/-- src/parse.rs:171-250 `token_stream`: the state and the variable of the stream. -/
def tokenStreamH (s : State) (input : Cursor ο) : Res (Span × State) (State × Nat) := do
  let (s, tokens) ← newBuilder s
  lexLoopH (input.rest.length + 1) ⟨s, input, tokens, []⟩

/-- src/fallback.rs:83-94 `TokenStream::from_str_checked`, after `get_cursor` assigned the source the start position `off`. -/
def fromStrH (s : State) (src : List Char) (off : ο) : Res (Span × State) (State × Nat) := do
  let cursor : Cursor ο := ⟨src, off⟩
  let cursor ← (if startsWith cursor.rest ['\ufeff'] then advance cursor 3 else .ok cursor)
  tokenStreamH s cursor

/-- src/fallback.rs:83-94 `TokenStream::from_str_checked` on a thread with source map `sm`, called with the variables of
`s`: the result is a new variable, and the variables of the parser are gone. -/
def parse (sm : SourceMap) (s : State) (src : List Char) : SourceMap × Res (Span × State) State :=
  match getCursor (ε := Span × State) sm src with
  | .ok (sm, cursor) =>
    (sm, match fromStrH s src cursor.off with
      | .ok (s', i) => .ok ⟨s'.heap, s'.vars.take s.vars.length ++ (s'.vars[i]?).toList⟩
      | .err (e, s') => .err (e, ⟨s'.heap, s'.vars.take s.vars.length⟩)
      | .panic => .panic
      | .diverge => .diverge)
  | .err e => (sm, .err e)
  | .panic => (sm, .panic)
  | .diverge => (sm, .diverge)

/-- A step of a program that also parses. -/
inductive Act where
  | op (o : Op)
  | parse (src : List Char)
deriving Repr

/-- One step; the program goes on after a `LexError`. -/
def act (sm : SourceMap) (s : State) : Act → Res Unit (SourceMap × State)
  | .op o => do
    let s ← step s o
    .ok (sm, s)
  | .parse src =>
    match parse sm s src with
    | (sm, .ok s) => .ok (sm, s)
    | (sm, .err (_, s)) => .ok (sm, s)
    | (_, .panic) => .panic
    | (_, .diverge) => .diverge

/-- A program on one thread. -/
def acts (sm : SourceMap) (s : State) : List Act → Res Unit (SourceMap × State)
  | [] => .ok (sm, s)
  | a :: as => do
    let (sm, s) ← act sm s a
    acts sm s as

end

end PM2.Heap
