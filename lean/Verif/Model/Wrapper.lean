import Verif.Model.SourceMap
import Verif.Model.Display
import Verif.Model.Ident
import Verif.Model.Debug
import Verif.Model.Unescape
/-!
# The wrapper (src/wrapper.rs)

With the feature `proc-macro`, every value of the crate is either the compiler's or the fallback's. The
compiler's API is a parameter: types, functions of their arguments, and token streams that are lists of
trees. `enter` says what trees a tree becomes in a stream (for example, a negative literal is split), and
parsing may succeed, fail or panic.

A program is a sequence of calls. Its variables hold streams, trees, spans, iterators and results;
reading a variable stands for using it or a clone of it. Each call is given what `inside_proc_macro()`
answers during the call.

Functions that older compilers do not have are behind `cfg`s of the build script; here the `cfg`s are fields of
the compiler, and a function is only called if its `cfg` says so.
-/

namespace PM2.Wrap

/-- The types of the compiler's API. -/
class CompilerTypes where
  Span : Type
  Group : Type
  Ident : Type
  Literal : Type
  /-- `proc_macro::LexError` -/
  Error : Type

/-- `proc_macro::Delimiter`. -/
inductive CDelimiter where
  | parenthesis
  | brace
  | bracket
  | none
deriving DecidableEq

/-- `proc_macro::Spacing`. -/
inductive CSpacing where
  | joint
  | alone
deriving DecidableEq

/-- `proc_macro::TokenTree`. -/
inductive CTree [CompilerTypes] where
  | group (g : CompilerTypes.Group)
  | punct (ch : Char) (spacing : CSpacing) (span : CompilerTypes.Span)
  | ident (i : CompilerTypes.Ident)
  | literal (l : CompilerTypes.Literal)

/-- The outcome of the compiler's parsers. -/
inductive Outcome (ε α : Type) where
  | ok (a : α)
  | err (e : ε)
  | panic

/-- The functions of the compiler's API. -/
class Compiler extends CompilerTypes where
  callSite : Span
  mixedSite : Span
  defSite : Span
  resolvedAt : Span → Span → Span
  locatedAt : Span → Span → Span
  join : Span → Span → Option Span
  spanEq : Span → Span → Bool
  byteRange : Span → Nat × Nat
  /-- counted from 1 -/
  line : Span → Nat
  /-- counted from 1 -/
  column : Span → Nat
  /-- the empty span at the end -/
  spanEnd : Span → Span
  file : Span → List Char
  localFile : Span → Option (List Char)
  sourceText : Span → Option (List Char)
  groupNew : CDelimiter → List CTree → Group
  groupDelimiter : Group → CDelimiter
  groupStream : Group → List CTree
  groupSpan : Group → Span
  groupSpanOpen : Group → Span
  groupSpanClose : Group → Span
  groupSetSpan : Group → Span → Group
  groupText : Group → List Char
  /-- `none` is a panic -/
  identNew : List Char → Span → Option Ident
  /-- `none` is a panic -/
  identNewRaw : List Char → Span → Option Ident
  identSpan : Ident → Span
  identSetSpan : Ident → Span → Ident
  identText : Ident → List Char
  /-- the constructors of literals, here given what the fallback would write -/
  literalNew : List Char → Literal
  literalSpan : Literal → Span
  literalSetSpan : Literal → Span → Literal
  literalSubspan : Literal → Bound → Bound → Option Span
  literalText : Literal → List Char
  parseLiteral : List Char → Outcome Error Literal
  enter : CTree → List CTree
  parseStream : List Char → Outcome Error (List CTree)
  streamText : List CTree → List Char
  /-- of an iterator over the trees -/
  sizeHint : List CTree → Nat × Option Nat
  /-- `cfg(proc_macro_span)`, build.rs:119-125 -/
  cfgSpan : Bool
  /-- `cfg(proc_macro_span_location)`, build.rs:127-131 -/
  cfgSpanLocation : Bool
  /-- `cfg(proc_macro_span_file)`, build.rs:133-137 -/
  cfgSpanFile : Bool
  /-- `cfg(not(no_source_text))`, build.rs:57-60 -/
  cfgSourceText : Bool
  /-- `cfg(not(no_literal_byte_character))`, build.rs:62-67 -/
  cfgByteCharacter : Bool
  /-- `cfg(not(no_literal_c_string))`, build.rs:62-67 -/
  cfgCString : Bool
  byteCharacter : UInt8 → Literal
  cString : List UInt8 → Literal
  errorText : Error → List Char
  /-- `Debug`, in alternate form or not -/
  streamDebug : Bool → List CTree → List Char
  groupDebug : Bool → Group → List Char
  identDebug : Bool → Ident → List Char
  literalDebug : Bool → Literal → List Char
  spanDebug : Bool → Span → List Char
  errorDebug : Bool → Error → List Char

/-- The outcome of a call. `mismatch` is the panic of src/wrapper.rs:49-60; `ill` is no outcome, the call
has no variables of the right types. -/
inductive Out (α : Type) where
  | ok (a : α)
  | mismatch
  | panic
  | diverge
  | ill

namespace Out
variable {α β : Type}

def bind (x : Out α) (f : α → Out β) : Out β :=
  match x with
  | ok a => f a
  | mismatch => mismatch
  | panic => panic
  | diverge => diverge
  | ill => ill

instance : Monad Out where
  pure := ok
  bind := bind

/-- A fallback function that does not return errors. -/
def ofRes (x : Res Unit α) : Out α :=
  match x with
  | .ok a => ok a
  | .err _ => panic
  | .panic => panic
  | .diverge => diverge

/-- `none` is a panic. -/
def ofOption : Option α → Out α
  | some a => ok a
  | none => panic

/-- `none` is no outcome. -/
def typed : Option α → Out α
  | some a => ok a
  | none => ill

end Out

section types
variable [CompilerTypes]

/-- src/wrapper.rs:374-377 `Span`. -/
inductive WSpan where
  | compiler (s : CompilerTypes.Span)
  | fallback (s : PM2.Span)

/-- src/lib.rs:577-587 `TokenTree`, with src/wrapper.rs:562-565 `Group`, 667-670 `Ident`, 762-765
`Literal` and src/lib.rs:818-823 `Punct`. A fallback group has a fallback stream, and this has trees of
any kind (src/fallback.rs:54-57). -/
inductive Tree where
  | groupC (g : CompilerTypes.Group)
  | groupF (delimiter : Delimiter) (stream : List Tree) (span : PM2.Span)
  | identC (i : CompilerTypes.Ident)
  | identF (sym : List Char) (raw : Bool) (span : PM2.Span)
  | punct (ch : Char) (spacing : Spacing) (span : WSpan)
  | literalC (l : CompilerTypes.Literal)
  | literalF (repr : List Char) (span : PM2.Span)

mutual

/-- A tree of the fallback's parser: src/lib.rs:230-235, 403-408, 719-723, 981-986, 1155-1160 `_new_fallback`,
with src/wrapper.rs:159-161, 284-286, 538-540, 643-645, 714-716, 956-958 `From`. -/
def Tree.ofFallback : TokenTree → Tree
  | .group d ts s => .groupF d (Tree.ofFallbacks ts) s
  | .ident sym raw s => .identF sym raw s
  | .punct ch sp s => .punct ch sp (.fallback s)
  | .literal r s => .literalF r s

def Tree.ofFallbacks : List TokenTree → List Tree
  | [] => []
  | t :: ts => Tree.ofFallback t :: Tree.ofFallbacks ts

end

/-- src/extra.rs:87-96 `DelimSpanEnum`. -/
inductive WDelim where
  | compiler (join open_ close : CompilerTypes.Span)
  | fallback (span : PM2.Span)

/-- src/wrapper.rs:39-46 `LexError`. -/
inductive LexError where
  | compiler (e : CompilerTypes.Error)
  | fallback (span : PM2.Span)
  | compilerPanic

end types

variable [Compiler]

/-! ## Deferred streams -/

/-- What the wrapper does with a compiler's stream, of some representation `σ`. -/
class Rep (σ : Type) where
  /-- from the compiler's stream -/
  new : List CTree → σ
  isEmpty : σ → Bool
  /-- into the compiler's stream -/
  intoStream : σ → List CTree
  /-- append trees -/
  extendTrees : σ → List CTree → σ
  /-- append streams -/
  extendStreams : σ → List σ → σ

/-- src/wrapper.rs:34-37 `DeferredTokenStream`. -/
structure Deferred where
  stream : List CTree
  extra : List CTree

/-- src/wrapper.rs:63-68 `DeferredTokenStream::new`. -/
def Deferred.new (stream : List CTree) : Deferred := ⟨stream, []⟩

/-- src/wrapper.rs:70-72 `DeferredTokenStream::is_empty`. -/
def Deferred.isEmpty (d : Deferred) : Bool := d.stream.isEmpty && d.extra.isEmpty

/-- `proc_macro::TokenStream: Extend<TokenTree>`. -/
def extendC (s : List CTree) (ts : List CTree) : List CTree := s ++ ts.flatMap Compiler.enter

/-- src/wrapper.rs:74-81 `DeferredTokenStream::evaluate_now`. -/
def Deferred.evaluateNow (d : Deferred) : Deferred :=
  if !d.extra.isEmpty then ⟨extendC d.stream d.extra, []⟩ else d

/-- src/wrapper.rs:83-86 `DeferredTokenStream::into_token_stream`. -/
def Deferred.intoStream (d : Deferred) : List CTree := d.evaluateNow.stream

/-- src/wrapper.rs:233-238: the loop of `Extend<TokenTree>`. -/
def Deferred.extendTrees (d : Deferred) (ts : List CTree) : Deferred := { d with extra := d.extra ++ ts }

/-- src/wrapper.rs:247-251 and 210-217: `Extend<TokenStream>` and `FromIterator<TokenStream>` after the
first stream. -/
def Deferred.extendStreams (d : Deferred) (ds : List Deferred) : Deferred :=
  let d := d.evaluateNow
  { d with stream := d.stream ++ ds.flatMap Deferred.intoStream }

instance : Rep Deferred where
  new := Deferred.new
  isEmpty := Deferred.isEmpty
  intoStream := Deferred.intoStream
  extendTrees := Deferred.extendTrees
  extendStreams := Deferred.extendStreams

/-! ## Values -/

/-- src/wrapper.rs:25-28 `TokenStream`. -/
inductive WStream (σ : Type) where
  | compiler (s : σ)
  | fallback (ts : List Tree)

/-- What a variable holds. -/
inductive Value (σ : Type) where
  | stream (s : WStream σ)
  | tree (t : Tree)
  | span (s : WSpan)
  /-- src/wrapper.rs:315-319 `TokenTreeIter`, 338-371; in the model of C48 the fallback's iterator is on the heap -/
  | iterC (ts : List CTree)
  | iterF (ts : List Tree)
  | error (e : LexError)
  | bool (b : Bool)
  | text (t : List Char)
  /-- a `proc_macro::TokenStream` -/
  | streamC (ts : List CTree)
  /-- a `proc_macro::Span` -/
  | spanC (s : CompilerTypes.Span)
  /-- a `DelimSpan` -/
  | delim (d : WDelim)
  | delimiter (d : Delimiter)
  | spacing (s : Spacing)
  | ordering (o : Ordering)
  | range (lo hi : Nat)
  | lineColumn (lc : LineColumn)
  /-- of an iterator -/
  | hint (lower : Nat) (upper : Option Nat)
  /-- what is given to a hasher -/
  | bytes (bs : List UInt8)
  /-- what a value accessor of a literal returns -/
  | conversion (r : Except ConversionError (List Char ⊕ List UInt8))
  /-- `None` or `()` -/
  | none

/-! ## Functions of the wrapper -/

section functions
variable {σ : Type}

/-- src/wrapper.rs:380-386 `Span::call_site`. -/
def WSpan.callSite (inside : Bool) : WSpan :=
  if inside then .compiler Compiler.callSite else .fallback Span.callSite

/-- src/wrapper.rs:388-394 `Span::mixed_site`, with src/fallback.rs:538-540. -/
def WSpan.mixedSite (inside : Bool) : WSpan :=
  if inside then .compiler Compiler.mixedSite else .fallback Span.callSite

/-- src/wrapper.rs:396-403 `Span::def_site`, with src/fallback.rs:542-545. -/
def WSpan.defSite (inside : Bool) : WSpan :=
  if inside then .compiler Compiler.defSite else .fallback Span.callSite

/-- src/wrapper.rs:405-412 `Span::resolved_at`. -/
def WSpan.resolvedAt : WSpan → WSpan → Out WSpan
  | .compiler a, .compiler b => .ok (.compiler (Compiler.resolvedAt a b))
  | .fallback a, .fallback b => .ok (.fallback (a.resolvedAt b))
  | _, _ => .mismatch

/-- src/wrapper.rs:414-421 `Span::located_at`. -/
def WSpan.locatedAt : WSpan → WSpan → Out WSpan
  | .compiler a, .compiler b => .ok (.compiler (Compiler.locatedAt a b))
  | .fallback a, .fallback b => .ok (.fallback (a.locatedAt b))
  | _, _ => .mismatch

/-- src/wrapper.rs:423-428 `Span::unwrap`: its panic is not the one of `mismatch`. -/
def WSpan.unwrap : WSpan → Out CompilerTypes.Span
  | .compiler s => .ok s
  | .fallback _ => .panic

/-- src/wrapper.rs:430-439 `Span::byte_range`. -/
def WSpan.byteRange (sm : SourceMap) : WSpan → Out (SourceMap × Nat × Nat)
  | .compiler s => .ok (sm, if Compiler.cfgSpan then Compiler.byteRange s else (0, 0))
  | .fallback s => Out.ofRes (s.byteRange sm)

/-- src/wrapper.rs:441-453 `Span::start`. -/
def WSpan.start (sm : SourceMap) : WSpan → Out LineColumn
  | .compiler s =>
    .ok (if Compiler.cfgSpanLocation then ⟨Compiler.line s, Compiler.column s - 1⟩ else ⟨0, 0⟩)
  | .fallback s => Out.ofRes (s.start sm)

/-- src/wrapper.rs:455-470 `Span::end`. -/
def WSpan.end_ (sm : SourceMap) : WSpan → Out LineColumn
  | .compiler s =>
    .ok (if Compiler.cfgSpanLocation then
      let e := Compiler.spanEnd s
      ⟨Compiler.line e, Compiler.column e - 1⟩
    else ⟨0, 0⟩)
  | .fallback s => Out.ofRes (s.end_ sm)

/-- src/wrapper.rs:472-481 `Span::file`. -/
def WSpan.file (sm : SourceMap) : WSpan → Out (List Char)
  | .compiler s => .ok (if Compiler.cfgSpanFile then Compiler.file s else "<token stream>".toList)
  | .fallback s => Out.ofRes (s.file sm)

/-- src/wrapper.rs:483-492 `Span::local_file`. -/
def WSpan.localFile : WSpan → Option (List Char)
  | .compiler s => if Compiler.cfgSpanFile then Compiler.localFile s else none
  | .fallback s => s.localFile

/-- src/wrapper.rs:513-521 `Span::source_text`. -/
def WSpan.sourceText (sm : SourceMap) : WSpan → Out (SourceMap × Option (List Char))
  | .compiler s => .ok (sm, if Compiler.cfgSourceText then Compiler.sourceText s else none)
  | .fallback s => Out.ofRes (s.sourceText sm)

/-- src/wrapper.rs:494-502 `Span::join`. -/
def WSpan.join (sm : SourceMap) : WSpan → WSpan → Out (Option WSpan)
  | .compiler a, .compiler b =>
    .ok (if Compiler.cfgSpan then (Compiler.join a b).map .compiler else none)
  | .fallback a, .fallback b => do
    let j ← Out.ofRes (Span.join sm a b)
    .ok (j.map .fallback)
  | _, _ => .ok none

/-- src/wrapper.rs:504-511 `Span::eq`, with src/fallback.rs:519-525 (derived). -/
def WSpan.eq : WSpan → WSpan → Bool
  | .compiler a, .compiler b => Compiler.spanEq a b
  | .fallback a, .fallback b => a == b
  | _, _ => false

/-- src/wrapper.rs:523-528 `Span::unwrap_nightly`. -/
def WSpan.unwrapNightly : WSpan → Out CompilerTypes.Span
  | .compiler s => .ok s
  | .fallback _ => .mismatch

/-- src/wrapper.rs:168-171: the compiler's spacing. -/
def intoSpacing : Spacing → CSpacing
  | .joint => .joint
  | .alone => .alone

/-- src/wrapper.rs:348-351: from the compiler's spacing. -/
def ofSpacing : CSpacing → Spacing
  | .joint => .joint
  | .alone => .alone

/-- src/wrapper.rs:571-576: the compiler's delimiter. -/
def intoDelimiter : Delimiter → CDelimiter
  | .parenthesis => .parenthesis
  | .bracket => .bracket
  | .brace => .brace
  | .none => .none

/-- src/wrapper.rs:587-592: from the compiler's delimiter. -/
def ofDelimiter : CDelimiter → Delimiter
  | .parenthesis => .parenthesis
  | .bracket => .bracket
  | .brace => .brace
  | .none => .none

/-- src/wrapper.rs:164-180 `into_compiler_token`, with `unwrap_nightly` of the kinds of trees (634-639,
705-710, 947-952). -/
def intoCompilerToken : Tree → Out CTree
  | .groupC g => .ok (.group g)
  | .groupF _ _ _ => .mismatch
  | .punct ch sp s => do .ok (.punct ch (intoSpacing sp) (← s.unwrapNightly))
  | .identC i => .ok (.ident i)
  | .identF _ _ _ => .mismatch
  | .literalC l => .ok (.literal l)
  | .literalF _ _ => .mismatch

/-- `into_compiler_token` for each tree of an iterator. -/
def intoCompilerTokens : List Tree → Out (List CTree)
  | [] => .ok []
  | t :: ts => do .ok ((← intoCompilerToken t) :: (← intoCompilerTokens ts))

/-- src/fallback.rs:111-138 `push_token_from_proc_macro`. -/
def pushTree : Tree → List Tree
  | .literalF r s =>
    match r with
    | '-' :: r => [.punct '-' .alone (.fallback s), .literalF r s]
    | r => [.literalF r s]
  | t => [t]

variable [Rep σ]

/-- src/wrapper.rs:90-96 `TokenStream::new`. -/
def WStream.new (inside : Bool) : WStream σ :=
  if inside then .compiler (Rep.new []) else .fallback []

/-- src/fallback.rs:1244-1259 `FromStr2::from_str_checked`, given what the fallback's parser returns, and
the compiler's parser. Also, the texts that are handed to the compiler's parser. Panics of the fallback's
parser are not caught. -/
def fromStr2 {ε α β : Type} (valid : Res ε β) (parse : List Char → Outcome CompilerTypes.Error α) (src : List Char) :
    Out (LexError ⊕ α) × List (List Char) :=
  match valid with
  | .ok _ =>
    (match parse src with
      | .ok a => .ok (.inr a)
      | .err e => .ok (.inl (.compiler e))
      | .panic => .ok (.inl .compilerPanic), [src])
  | .err _ => (.ok (.inl .compilerPanic), [])
  | .panic => (.panic, [])
  | .diverge => (.diverge, [])

/-- What is returned by a call of a parser. -/
structure Parsed (α : Type) where
  /-- the thread's source map -/
  sm : SourceMap
  result : Out (LexError ⊕ α)
  /-- what was handed to the compiler's parser -/
  handed : List (List Char)

section
variable [UnicodeTables]

/-- src/wrapper.rs:98-108 `TokenStream::from_str_checked`, with src/fallback.rs:1266-1271. The thread's
source map gets the text in both modes. -/
def WStream.fromStr (inside : Bool) (sm : SourceMap) (src : List Char) : Parsed (WStream σ) :=
  let r := TokenStream.fromStr sm src
  if inside then
    let c := fromStr2 r.2 Compiler.parseStream src
    ⟨r.1, do
      match ← c.1 with
      | .inl e => .ok (.inl e)
      | .inr ts => .ok (.inr (.compiler (Rep.new ts))), c.2⟩
  else
    ⟨r.1,
      match r.2 with
      | .ok ts => .ok (.inr (.fallback (Tree.ofFallbacks ts)))
      | .err s => .ok (.inl (.fallback s))
      | .panic => .panic
      | .diverge => .diverge, []⟩

/-- src/wrapper.rs:792-800 `Literal::from_str_checked`, with src/fallback.rs:1274-1279. -/
def literalFromStr (inside : Bool) (sm : SourceMap) (src : List Char) : Parsed Tree :=
  let r := Literal.fromStr sm src
  if inside then
    let c := fromStr2 r.2 Compiler.parseLiteral src
    ⟨r.1, do
      match ← c.1 with
      | .inl e => .ok (.inl e)
      | .inr l => .ok (.inr (.literalC l)), c.2⟩
  else
    ⟨r.1,
      match r.2 with
      | .ok (repr, s) => .ok (.inr (.literalF repr s))
      | .err s => .ok (.inl (.fallback s))
      | .panic => .panic
      | .diverge => .diverge, []⟩

end

/-- src/wrapper.rs:110-115 `TokenStream::is_empty`. -/
def WStream.isEmpty : WStream σ → Bool
  | .compiler s => Rep.isEmpty s
  | .fallback ts => ts.isEmpty

/-- src/wrapper.rs:117-122 `TokenStream::unwrap_nightly`, before `into_token_stream`. -/
def WStream.unwrapNightly : WStream σ → Out σ
  | .compiler s => .ok s
  | .fallback _ => .mismatch

/-- src/wrapper.rs:124-129 `TokenStream::unwrap_stable`. -/
def WStream.unwrapStable : WStream σ → Out (List Tree)
  | .compiler _ => .mismatch
  | .fallback ts => .ok ts

/-- `joint` after printing a tree (src/fallback.rs:229-242). -/
def jointAfterW : Tree → Bool
  | .punct _ spacing _ => spacing == .joint
  | _ => false

mutual

/-- Printing one tree: src/wrapper.rs:648-655, 743-750, 961-968 and what they call. -/
def displayTreeW : Tree → List Char
  | .groupC g => Compiler.groupText g
  | .groupF d ts _ =>
    displayOpen d ++ displayLoopW ts true false ++
      (if d == .brace && !ts.isEmpty then [' '] else []) ++ displayClose d
  | .identC i => Compiler.identText i
  | .identF sym raw _ => displayIdent sym raw
  | .punct ch _ _ => [ch]
  | .literalC l => Compiler.literalText l
  | .literalF repr _ => repr

/-- src/fallback.rs:225-246. -/
def displayLoopW : List Tree → (first joint : Bool) → List Char
  | [], _, _ => []
  | t :: ts, first, joint =>
    (if !first && !joint then [' '] else []) ++ displayTreeW t ++ displayLoopW ts false (jointAfterW t)

end

/-- src/wrapper.rs:132-139 `Display for TokenStream`. -/
def WStream.display : WStream σ → List Char
  | .compiler s => Compiler.streamText (Rep.intoStream s)
  | .fallback ts => displayLoopW ts true false

/-- src/wrapper.rs:147-156 `From<TokenStream> for proc_macro::TokenStream`. -/
def WStream.intoCompiler : WStream σ → Out (List CTree)
  | .compiler s => .ok (Rep.intoStream s)
  | .fallback ts =>
    match Compiler.parseStream (displayLoopW ts true false) with
    | .ok ts => .ok ts
    | .err _ => .panic
    | .panic => .panic

/-- src/wrapper.rs:182-192 `From<TokenTree> for TokenStream`. -/
def WStream.fromTree (inside : Bool) (t : Tree) : Out (WStream σ) :=
  if inside then do .ok (.compiler (Rep.new (Compiler.enter (← intoCompilerToken t))))
  else .ok (.fallback (pushTree t))

/-- src/wrapper.rs:194-204 `FromIterator<TokenTree> for TokenStream`. -/
def WStream.collectTrees (inside : Bool) (ts : List Tree) : Out (WStream σ) :=
  if inside then do .ok (.compiler (Rep.new ((← intoCompilerTokens ts).flatMap Compiler.enter)))
  else .ok (.fallback (ts.flatMap pushTree))

/-- `unwrap_nightly` for each stream of an iterator. -/
def unwrapNightlies : List (WStream σ) → Out (List σ)
  | [] => .ok []
  | s :: ss => do .ok ((← s.unwrapNightly) :: (← unwrapNightlies ss))

/-- `unwrap_stable` for each stream of an iterator. -/
def unwrapStables : List (WStream σ) → Out (List (List Tree))
  | [] => .ok []
  | s :: ss => do .ok ((← s.unwrapStable) :: (← unwrapStables ss))

/-- src/wrapper.rs:244-257 `Extend<TokenStream> for TokenStream`. -/
def WStream.extendStreams : WStream σ → List (WStream σ) → Out (WStream σ)
  | .compiler s, ss => do .ok (.compiler (Rep.extendStreams s (← unwrapNightlies ss)))
  | .fallback ts, ss => do .ok (.fallback (ts ++ (← unwrapStables ss).flatten))

/-- src/wrapper.rs:206-228 `FromIterator<TokenStream> for TokenStream`. -/
def WStream.collectStreams (inside : Bool) : List (WStream σ) → Out (WStream σ)
  | [] => .ok (WStream.new inside)
  | s :: ss => s.extendStreams ss

/-- src/wrapper.rs:230-242 `Extend<TokenTree> for TokenStream`. -/
def WStream.extendTrees : WStream σ → List Tree → Out (WStream σ)
  | .compiler s, ts => do .ok (.compiler (Rep.extendTrees s (← intoCompilerTokens ts)))
  | .fallback ts, us => .ok (.fallback (ts ++ us.flatMap pushTree))

/-- src/wrapper.rs:321-333 `IntoIterator for TokenStream`. -/
def WStream.intoIter : WStream σ → Value σ
  | .compiler s => .iterC (Rep.intoStream s)
  | .fallback ts => .iterF ts

omit [Rep σ] in
/-- src/lib.rs:846-858 `Punct::new`. -/
def punctNew (inside : Bool) (ch : Char) (sp : Spacing) : Out Tree :=
  if isPunctCtorChar ch then .ok (.punct ch sp (WSpan.callSite inside)) else .panic

/-- src/wrapper.rs:343-361: a tree from the compiler's iterator. -/
def ofCompilerToken : CTree → Out Tree
  | .group g => .ok (.groupC g)
  | .punct ch sp s => if isPunctCtorChar ch then .ok (.punct ch (ofSpacing sp) (.compiler s)) else .panic
  | .ident i => .ok (.identC i)
  | .literal l => .ok (.literalC l)

/-- src/wrapper.rs:268-275 `LexError::span`; the conversions to `LexError` (277-287) are its constructors. -/
def LexError.span (inside : Bool) : LexError → WSpan
  | .compiler _ => WSpan.callSite inside
  | .compilerPanic => WSpan.callSite inside
  | .fallback s => .fallback s

/-- src/wrapper.rs:568-583 `Group::new`. -/
def groupNewW (d : Delimiter) : WStream σ → Tree
  | .compiler s => .groupC (Compiler.groupNew (intoDelimiter d) (Rep.intoStream s))
  | .fallback ts => .groupF d ts Span.callSite

/-- src/wrapper.rs:585-595 `Group::delimiter`, with src/fallback.rs:734-736. -/
def Tree.delimiter : Tree → Option Delimiter
  | .groupC g => some (ofDelimiter (Compiler.groupDelimiter g))
  | .groupF d _ _ => some d
  | _ => none

/-- src/wrapper.rs:597-602 `Group::stream`. -/
def Tree.stream : Tree → Option (WStream σ)
  | .groupC g => some (.compiler (Rep.new (Compiler.groupStream g)))
  | .groupF _ ts _ => some (.fallback ts)
  | _ => none

/-- src/lib.rs:592-599 `TokenTree::span`, with src/wrapper.rs:604-609, 689-694, 921-926 and
src/fallback.rs:742-744, 1149-1151. -/
def Tree.span : Tree → WSpan
  | .groupC g => .compiler (Compiler.groupSpan g)
  | .groupF _ _ s => .fallback s
  | .identC i => .compiler (Compiler.identSpan i)
  | .identF _ _ s => .fallback s
  | .punct _ _ s => s
  | .literalC l => .compiler (Compiler.literalSpan l)
  | .literalF _ s => .fallback s

/-- src/wrapper.rs:611-616 `Group::span_open`. -/
def Tree.spanOpen : Tree → Option WSpan
  | .groupC g => some (.compiler (Compiler.groupSpanOpen g))
  | .groupF _ _ s => some (.fallback s.firstByte)
  | _ => none

/-- src/wrapper.rs:618-623 `Group::span_close`. -/
def Tree.spanClose : Tree → Option WSpan
  | .groupC g => some (.compiler (Compiler.groupSpanClose g))
  | .groupF _ _ s => some (.fallback s.lastByte)
  | _ => none

/-- src/extra.rs:99-117 `DelimSpan::new` (`Group::delim_span`, src/lib.rs:784-786). -/
def Tree.delimSpan : Tree → Option WDelim
  | .groupC g => some (.compiler (Compiler.groupSpan g) (Compiler.groupSpanOpen g) (Compiler.groupSpanClose g))
  | .groupF _ _ s => some (.fallback s)
  | _ => none

/-- src/extra.rs:120-126 `DelimSpan::join`. -/
def WDelim.join : WDelim → WSpan
  | .compiler join _ _ => .compiler join
  | .fallback s => .fallback s

/-- src/extra.rs:129-135 `DelimSpan::open`. -/
def WDelim.open_ : WDelim → WSpan
  | .compiler _ open_ _ => .compiler open_
  | .fallback s => .fallback s.firstByte

/-- src/extra.rs:138-144 `DelimSpan::close`. -/
def WDelim.close : WDelim → WSpan
  | .compiler _ _ close => .compiler close
  | .fallback s => .fallback s.lastByte

/-- src/lib.rs:860-863 `Punct::as_char`. -/
def Tree.asChar : Tree → Option Char
  | .punct ch _ _ => some ch
  | _ => none

/-- src/lib.rs:865-872 `Punct::spacing`. -/
def Tree.spacing : Tree → Option Spacing
  | .punct _ sp _ => some sp
  | _ => none

/-- src/lib.rs:606-613 `TokenTree::set_span`, with src/wrapper.rs:625-632, 696-703, 928-935 and
src/lib.rs:880-882. -/
def Tree.setSpan : Tree → WSpan → Out Tree
  | .groupC g, .compiler s => .ok (.groupC (Compiler.groupSetSpan g s))
  | .groupF d ts _, .fallback s => .ok (.groupF d ts s)
  | .identC i, .compiler s => .ok (.identC (Compiler.identSetSpan i s))
  | .identF sym raw _, .fallback s => .ok (.identF sym raw s)
  | .punct ch sp _, s => .ok (.punct ch sp s)
  | .literalC l, .compiler s => .ok (.literalC (Compiler.literalSetSpan l s))
  | .literalF r _, .fallback s => .ok (.literalF r s)
  | _, _ => .mismatch

/-- src/wrapper.rs:673-679 `Ident::new_checked`. -/
def identNewW [UnicodeTables] (s : List Char) : WSpan → Out Tree
  | .compiler sp => do .ok (.identC (← Out.ofOption (Compiler.identNew s sp)))
  | .fallback sp => do .ok (Tree.ofFallback (← Out.ofRes (Ident.new s sp)))

/-- src/wrapper.rs:681-687 `Ident::new_raw_checked`. -/
def identNewRawW [UnicodeTables] (s : List Char) : WSpan → Out Tree
  | .compiler sp => do .ok (.identC (← Out.ofOption (Compiler.identNewRaw s sp)))
  | .fallback sp => do .ok (Tree.ofFallback (← Out.ofRes (Ident.newRaw s sp)))

/-- src/wrapper.rs:719-728 `PartialEq for Ident`. -/
def Tree.identEq : Tree → Tree → Out Bool
  | .identC a, .identC b => .ok (Compiler.identText a == Compiler.identText b)
  | .identF sa ra _, .identF sb rb _ => .ok (IdentData.eq ⟨sa, ra⟩ ⟨sb, rb⟩)
  | .identC _, .identF _ _ _ => .mismatch
  | .identF _ _ _, .identC _ => .mismatch
  | _, _ => .ill

/-- src/wrapper.rs:730-741 `PartialEq<T> for Ident`. -/
def Tree.identEqStr (t : Tree) (s : List Char) : Out Bool :=
  match t with
  | .identC a => .ok (Compiler.identText a == s)
  | .identF sym raw _ => Out.ofRes (IdentData.eqStr ⟨sym, raw⟩ s)
  | _ => .ill

/-- `to_string` of an identifier, src/wrapper.rs:743-750. -/
def Tree.identText : Tree → Option (List Char)
  | .identC a => some (Compiler.identText a)
  | .identF sym raw _ => some (displayIdent sym raw)
  | _ => none

/-- src/lib.rs:1069-1073 `Ord for Ident`. -/
def Tree.identCmp (a b : Tree) : Option Ordering := do
  some (cmpBytes (bytesOf (← a.identText)) (bytesOf (← b.identText)))

/-- src/lib.rs:1075-1079 `Hash for Ident`, with `Hash for str`. -/
def Tree.identHash (a : Tree) : Option (List UInt8) := do some (bytesOf (← a.identText) ++ [0xFF])

/-- src/wrapper.rs:767-789, 811-873, 894-900: the constructors of literals other than `byte_character` and
`c_string`, given what the fallback writes. -/
def literalNewW (inside : Bool) (repr : List Char) : Tree :=
  if inside then .literalC (Compiler.literalNew repr) else .literalF repr Span.callSite

/-- src/wrapper.rs:802-808 `Literal::from_str_unchecked`, with src/fallback.rs:1002-1004, 1261-1263. -/
def literalUnchecked (inside : Bool) (repr : List Char) : Out Tree :=
  if inside then
    match Compiler.parseLiteral repr with
    | .ok l => .ok (.literalC l)
    | .err _ => .panic
    | .panic => .panic
  else .ok (.literalF repr Span.callSite)

/-- src/wrapper.rs:875-892 `Literal::byte_character`. -/
def byteCharacterW (inside : Bool) (byte : UInt8) : Out Tree :=
  if inside then
    if Compiler.cfgByteCharacter then .ok (.literalC (Compiler.byteCharacter byte))
    else literalUnchecked true (litByteCharacter byte)
  else .ok (.literalF (litByteCharacter byte) Span.callSite)

/-- src/wrapper.rs:902-919 `Literal::c_string`, given the bytes before the terminating NUL. -/
def cStringW [UnicodeTables] (inside : Bool) (bytes : List UInt8) : Out Tree :=
  if inside then
    if Compiler.cfgCString then .ok (.literalC (Compiler.cString bytes))
    else do literalUnchecked true (← Out.ofRes (litCString bytes))
  else do .ok (.literalF (← Out.ofRes (litCString bytes)) Span.callSite)

/-- src/wrapper.rs:937-945 `Literal::subspan`. -/
def Tree.subspan (t : Tree) (a b : Bound) : Out (Option WSpan) :=
  match t with
  | .literalC l => .ok (if Compiler.cfgSpan then (Compiler.literalSubspan l a b).map .compiler else none)
  | .literalF _ s => .ok ((PM2.subspan s a b).map .fallback)
  | _ => .ill

/-- The value accessors of `Literal`. -/
inductive ValueKind where
  | str
  | cstr
  | byteStr

/-- A result that the caller can see. -/
def conversionOf {α : Type} (f : α → List Char ⊕ List UInt8) :
    Res ConversionError α → Res Unit (Except ConversionError (List Char ⊕ List UInt8))
  | .ok a => .ok (.ok (f a))
  | .err e => .ok (.error e)
  | .panic => .panic
  | .diverge => .diverge

/-- src/lib.rs:1312-1414 `Literal::str_value`, `cstr_value`, `byte_str_value`, given what the literal prints as. -/
def literalValue (repr : List Char) : ValueKind → Res Unit (Except ConversionError (List Char ⊕ List UInt8))
  | .str => conversionOf .inl (strValue repr)
  | .cstr => conversionOf .inr (cstrValue repr)
  | .byteStr => conversionOf .inr (byteStrValue repr)

/-- src/wrapper.rs:961-968 `Display for Literal`, with src/fallback.rs:1199-1203. -/
def Tree.literalText : Tree → Option (List Char)
  | .literalC l => some (Compiler.literalText l)
  | .literalF repr _ => some repr
  | _ => none

/-! ### `Debug`

`loc` is `cfg(span_locations)`. -/

/-- src/wrapper.rs:543-550 `Debug for Span`. -/
def WSpan.debug (loc alternate : Bool) : WSpan → List Char
  | .compiler s => Compiler.spanDebug alternate s
  | .fallback s => debugSpan loc s

/-- src/wrapper.rs:552-559 `debug_span_field_if_nontrivial`: the fields that are added. -/
def debugSpanFieldW (loc alternate : Bool) : WSpan → List (List Char × List Char)
  | .compiler s => [("span".toList, Compiler.spanDebug alternate s)]
  | .fallback s => debugSpanField loc s

section debug
variable [UnicodeTables]

mutual

/-- src/lib.rs:656-672 `Debug for TokenTree`, with src/wrapper.rs:657-664 `Debug for Group`, 970-977 `Debug
for Literal`, src/lib.rs:893-901 `Debug for Punct`, and what they call in src/fallback.rs:786-794 and
1205-1212. -/
def debugTreeW (loc alternate : Bool) : Tree → List Char
  | .groupC g => Compiler.groupDebug alternate g
  | .groupF d ts s =>
    debugStruct alternate "Group".toList
      (("delimiter".toList, debugDelimiter d) ::
        ("stream".toList, "TokenStream ".toList ++ debugList alternate (debugTreesW loc alternate ts)) ::
        debugSpanField loc s)
  | .identC i =>
    debugStruct alternate "Ident".toList
      (("sym".toList, Compiler.identText i) :: debugSpanFieldW loc alternate (.compiler (Compiler.identSpan i)))
  | .identF sym raw s =>
    debugStruct alternate "Ident".toList
      (("sym".toList, displayIdent sym raw) :: debugSpanFieldW loc alternate (.fallback s))
  | .punct ch sp s =>
    debugStruct alternate "Punct".toList
      (("char".toList, debugChar ch) :: ("spacing".toList, debugSpacing sp) :: debugSpanFieldW loc alternate s)
  | .literalC l => Compiler.literalDebug alternate l
  | .literalF repr s =>
    debugStruct alternate "Literal".toList (("lit".toList, repr) :: debugSpanField loc s)

/-- The entries of a stream of the fallback. -/
def debugTreesW (loc alternate : Bool) : List Tree → List (List Char)
  | [] => []
  | t :: ts => debugTreeW loc alternate t :: debugTreesW loc alternate ts

end

/-- src/fallback.rs:248-253 `Debug for TokenStream`, and src/lib.rs:1509-1514 `Debug for IntoIter`. -/
def debugStreamW (loc alternate : Bool) (ts : List Tree) : List Char :=
  "TokenStream ".toList ++ debugList alternate (debugTreesW loc alternate ts)

/-- src/wrapper.rs:259-266 `Debug for TokenStream`. -/
def WStream.debug [Rep σ] (loc alternate : Bool) : WStream σ → List Char
  | .compiler s => Compiler.streamDebug alternate (Rep.intoStream s)
  | .fallback ts => debugStreamW loc alternate ts

end debug

/-- src/wrapper.rs:752-759 `Debug for Ident`. -/
def Tree.identDebug (loc alternate : Bool) : Tree → Option (List Char)
  | .identC i => some (Compiler.identDebug alternate i)
  | .identF sym raw s => some (PM2.debugIdent loc alternate sym raw s)
  | _ => none

/-- src/wrapper.rs:289-300 `Debug for LexError`. -/
def LexError.debug (loc alternate : Bool) : LexError → List Char
  | .compiler e => Compiler.errorDebug alternate e
  | .fallback s => debugLexError loc alternate s
  | .compilerPanic => debugLexError loc alternate Span.callSite

/-- src/wrapper.rs:302-313 `Display for LexError`. -/
def LexError.text : LexError → List Char
  | .compiler e => Compiler.errorText e
  | .fallback _ => displayLexError
  | .compilerPanic => displayLexError

/-- What is left in an iterator of the compiler, as trees of the crate. -/
def ofCompilerTokens : List CTree → Out (List Tree)
  | [] => .ok []
  | t :: ts => do .ok ((← ofCompilerToken t) :: (← ofCompilerTokens ts))

/-- src/lib.rs:362-366, 376-380, 570-574, 683-712, 808-812, 826-836, 1440-1444, 1509-1514, src/extra.rs:147-151
and src/location.rs:7-15: `Debug` of the types of the crate. -/
def Value.debug [UnicodeTables] [Rep σ] (loc alternate : Bool) : Value σ → Out (List Char)
  | .stream s => .ok (s.debug loc alternate)
  | .tree t => .ok (debugTreeW loc alternate t)
  | .span s => .ok (s.debug loc alternate)
  | .iterC ts => do .ok (debugStreamW loc alternate (← ofCompilerTokens ts))
  | .iterF ts => .ok (debugStreamW loc alternate ts)
  | .error e => .ok (e.debug loc alternate)
  | .delim d => .ok (d.join.debug loc alternate)
  | .delimiter d => .ok (debugDelimiter d)
  | .spacing s => .ok (debugSpacing s)
  | .lineColumn lc => .ok (debugLineColumn alternate lc)
  | _ => .ill

end functions

/-! ## Programs -/

/-- A call; variables by their numbers. Results are put into a new variable, or (`extend`, `next`,
`set_span`) also change a variable. -/
inductive Op where
  /-- src/lib.rs:223-228, 238-240, 251-253 `new`, `default` -/
  | new
  /-- src/lib.rs:267-272 -/
  | fromStr (src : List Char)
  /-- src/wrapper.rs:141-145, src/lib.rs:281-283 -/
  | fromCompiler (ts : List CTree)
  /-- src/wrapper.rs:531-535 -/
  | spanFromCompiler (s : CompilerTypes.Span)
  /-- src/lib.rs:210, 389, 577, 678, 818, 967, 1101, 1491: derived `Clone` -/
  | clone (i : Nat)
  /-- src/lib.rs:243-245 -/
  | isEmpty (i : Nat)
  /-- src/lib.rs:356-358 -/
  | display (i : Nat)
  /-- src/lib.rs:289-291 -/
  | intoCompiler (i : Nat)
  /-- src/lib.rs:295-297, 617-638: also from a `Group`, `Ident`, `Punct` or `Literal` -/
  | fromTree (i : Nat)
  /-- src/lib.rs:340-342 -/
  | collectTrees (is : List Nat)
  /-- src/lib.rs:346-350 -/
  | collectStreams (is : List Nat)
  /-- src/lib.rs:301-303, 313-335: also of groups, identifiers, puncts or literals -/
  | extendTrees (i : Nat) (js : List Nat)
  /-- src/lib.rs:307-310 -/
  | extendStreams (i : Nat) (js : List Nat)
  /-- src/lib.rs:1520-1525 -/
  | intoIter (i : Nat)
  /-- src/lib.rs:1500-1502 -/
  | next (i : Nat)
  /-- src/lib.rs:396-401, 415-417 -/
  | callSite
  /-- src/lib.rs:422-424 -/
  | mixedSite
  /-- src/lib.rs:437-439 -/
  | resolvedAt (i j : Nat)
  /-- src/lib.rs:443-445 -/
  | locatedAt (i j : Nat)
  /-- src/lib.rs:458-467 `unwrap`, `unstable` -/
  | unwrap (i : Nat)
  /-- src/lib.rs:544-546 -/
  | join (i j : Nat)
  /-- src/lib.rs:553-555 -/
  | spanEq (i j : Nat)
  /-- src/lib.rs:715-717, 730-734 -/
  | groupNew (d : Delimiter) (i : Nat)
  /-- src/lib.rs:746-748 -/
  | groupStream (i : Nat)
  /-- src/lib.rs:592-599, 757-759, 875-877, 1035-1037, 1290-1292: of a tree, or of what is in it -/
  | span (i : Nat)
  /-- src/lib.rs:767-769 -/
  | spanOpen (i : Nat)
  /-- src/lib.rs:777-779 -/
  | spanClose (i : Nat)
  /-- src/lib.rs:606-613, 794-796, 880-882, 1041-1043, 1295-1297 -/
  | setSpan (i j : Nat)
  /-- src/lib.rs:974-979, 1020-1022 -/
  | identNew (s : List Char) (i : Nat)
  /-- src/lib.rs:1030-1032 -/
  | identNewRaw (s : List Char) (i : Nat)
  /-- src/lib.rs:1047-1049 -/
  | identEq (i j : Nat)
  /-- src/lib.rs:1056-1058 -/
  | identEqStr (i : Nat) (s : List Char)
  /-- src/lib.rs:846-858 -/
  | punctNew (ch : Char) (sp : Spacing)
  /-- src/lib.rs:1107-1273, 1280-1282: the constructors, given the text -/
  | literalNew (repr : List Char)
  /-- src/lib.rs:1429-1437 -/
  | literalFromStr (src : List Char)
  /-- src/lib.rs:1306-1308 -/
  | subspan (i : Nat) (a b : Bound)
  /-- src/lib.rs:369-371 -/
  | errorSpan (i : Nat)
  /-- src/wrapper.rs:979-987 -/
  | invalidate
  /-- src/lib.rs:431-433 -/
  | defSite
  /-- src/lib.rs:480-482 -/
  | byteRange (i : Nat)
  /-- src/lib.rs:495-497 -/
  | start (i : Nat)
  /-- src/lib.rs:510-512 -/
  | end_ (i : Nat)
  /-- src/lib.rs:521-523 -/
  | file (i : Nat)
  /-- src/lib.rs:533-535 -/
  | localFile (i : Nat)
  /-- src/lib.rs:564-566 -/
  | sourceText (i : Nat)
  /-- src/lib.rs:738-740 -/
  | delimiter (i : Nat)
  /-- src/lib.rs:784-786 -/
  | delimSpan (i : Nat)
  | delimJoin (i : Nat)
  | delimOpen (i : Nat)
  | delimClose (i : Nat)
  /-- `Display` of a tree, or of what is in it, src/lib.rs:645-652, 803-805, 888-890, 1084-1086, 1447-1449 -/
  | treeText (i : Nat)
  /-- src/lib.rs:861-863 -/
  | asChar (i : Nat)
  /-- src/lib.rs:870-872 -/
  | spacing (i : Nat)
  /-- src/lib.rs:1064-1072 -/
  | identCmp (i j : Nat)
  /-- src/lib.rs:1076-1078 -/
  | identHash (i : Nat)
  /-- src/lib.rs:1421-1423 -/
  | literalUnchecked (repr : List Char)
  /-- src/lib.rs:1504-1506 -/
  | sizeHint (i : Nat)
  /-- src/lib.rs:1275-1277 -/
  | byteCharacter (byte : UInt8)
  /-- src/lib.rs:1285-1287 -/
  | cString (bytes : List UInt8)
  /-- `Debug` of a value of any type of the crate; a tree is a `TokenTree`, `Group`, `Punct` or `Literal` -/
  | debug (alternate : Bool) (i : Nat)
  /-- `Debug` of an `Ident`, src/lib.rs:1090-1092 -/
  | debugIdent (alternate : Bool) (i : Nat)
  /-- `Display` of a `LexError`, src/lib.rs:381-383 -/
  | errorText (i : Nat)
  /-- src/lib.rs:1312-1414 -/
  | value (k : ValueKind) (i : Nat)

structure State (σ : Type) where
  sm : SourceMap
  vars : List (Value σ)

def State.init {σ : Type} : State σ := ⟨SourceMap.init, []⟩

section programs
variable {σ : Type}

def State.stream (s : State σ) (i : Nat) : Out (WStream σ) :=
  match s.vars[i]? with
  | some (.stream x) => .ok x
  | _ => .ill

def State.tree (s : State σ) (i : Nat) : Out Tree :=
  match s.vars[i]? with
  | some (.tree x) => .ok x
  | _ => .ill

def State.span (s : State σ) (i : Nat) : Out WSpan :=
  match s.vars[i]? with
  | some (.span x) => .ok x
  | _ => .ill

def State.delim (s : State σ) (i : Nat) : Out WDelim :=
  match s.vars[i]? with
  | some (.delim x) => .ok x
  | _ => .ill

def State.trees (s : State σ) : List Nat → Out (List Tree)
  | [] => .ok []
  | i :: is => do .ok ((← s.tree i) :: (← s.trees is))

def State.streams (s : State σ) : List Nat → Out (List (WStream σ))
  | [] => .ok []
  | i :: is => do .ok ((← s.stream i) :: (← s.streams is))

/-- A new variable. -/
def State.push (s : State σ) (v : Value σ) : State σ := { s with vars := s.vars ++ [v] }

/-- Another value of a variable. -/
def State.set (s : State σ) (i : Nat) (v : Value σ) : State σ := { s with vars := s.vars.set i v }

/-- `None` or a text. -/
def Value.ofText : Option (List Char) → Value σ
  | .some t => .text t
  | Option.none => Value.none

/-- `None` or a span. -/
def Value.ofSpan : Option WSpan → Value σ
  | .some s => .span s
  | Option.none => Value.none

variable [UnicodeTables] [Rep σ]

/-- One call. `inside` is what `inside_proc_macro()` answers. -/
def step (inside : Bool) (s : State σ) : Op → Out (State σ)
  | .new => .ok (s.push (.stream (WStream.new inside)))
  | .fromStr src =>
    let r := WStream.fromStr (σ := σ) inside s.sm src
    do match ← r.result with
      | .inl e => .ok ({ s with sm := r.sm }.push (.error e))
      | .inr x => .ok ({ s with sm := r.sm }.push (.stream x))
  | .fromCompiler ts => .ok (s.push (.stream (.compiler (Rep.new ts))))
  | .spanFromCompiler sp => .ok (s.push (.span (.compiler sp)))
  | .clone i => do .ok (s.push (← Out.typed s.vars[i]?))
  | .isEmpty i => do .ok (s.push (.bool (← s.stream i).isEmpty))
  | .display i => do .ok (s.push (.text (← s.stream i).display))
  | .intoCompiler i => do .ok (s.push (.streamC (← (← s.stream i).intoCompiler)))
  | .fromTree i => do .ok (s.push (.stream (← WStream.fromTree inside (← s.tree i))))
  | .collectTrees is => do .ok (s.push (.stream (← WStream.collectTrees inside (← s.trees is))))
  | .collectStreams is => do .ok (s.push (.stream (← WStream.collectStreams inside (← s.streams is))))
  | .extendTrees i js => do .ok (s.set i (.stream (← (← s.stream i).extendTrees (← s.trees js))))
  | .extendStreams i js => do .ok (s.set i (.stream (← (← s.stream i).extendStreams (← s.streams js))))
  | .intoIter i => do .ok (s.push (← s.stream i).intoIter)
  | .next i =>
    match s.vars[i]? with
    | some (.iterC []) => .ok (s.push .none)
    | some (.iterC (t :: ts)) => do .ok ((s.set i (.iterC ts)).push (.tree (← ofCompilerToken t)))
    | some (.iterF []) => .ok (s.push .none)
    | some (.iterF (t :: ts)) => .ok ((s.set i (.iterF ts)).push (.tree t))
    | _ => .ill
  | .callSite => .ok (s.push (.span (WSpan.callSite inside)))
  | .mixedSite => .ok (s.push (.span (WSpan.mixedSite inside)))
  | .resolvedAt i j => do .ok (s.push (.span (← (← s.span i).resolvedAt (← s.span j))))
  | .locatedAt i j => do .ok (s.push (.span (← (← s.span i).locatedAt (← s.span j))))
  | .unwrap i => do .ok (s.push (.spanC (← (← s.span i).unwrap)))
  | .join i j => do .ok (s.push (.ofSpan (← WSpan.join s.sm (← s.span i) (← s.span j))))
  | .spanEq i j => do .ok (s.push (.bool (WSpan.eq (← s.span i) (← s.span j))))
  | .groupNew d i => do .ok (s.push (.tree (groupNewW d (← s.stream i))))
  | .groupStream i => do .ok (s.push (.stream (← Out.typed (← s.tree i).stream)))
  | .span i => do .ok (s.push (.span (← s.tree i).span))
  | .spanOpen i => do .ok (s.push (.span (← Out.typed (← s.tree i).spanOpen)))
  | .spanClose i => do .ok (s.push (.span (← Out.typed (← s.tree i).spanClose)))
  | .setSpan i j => do .ok (s.set i (.tree (← (← s.tree i).setSpan (← s.span j))))
  | .identNew t i => do .ok (s.push (.tree (← identNewW t (← s.span i))))
  | .identNewRaw t i => do .ok (s.push (.tree (← identNewRawW t (← s.span i))))
  | .identEq i j => do .ok (s.push (.bool (← (← s.tree i).identEq (← s.tree j))))
  | .identEqStr i t => do .ok (s.push (.bool (← (← s.tree i).identEqStr t)))
  | .punctNew ch sp => do .ok (s.push (.tree (← punctNew inside ch sp)))
  | .literalNew r => .ok (s.push (.tree (literalNewW inside r)))
  | .literalFromStr src =>
    let r := literalFromStr inside s.sm src
    do match ← r.result with
      | .inl e => .ok ({ s with sm := r.sm }.push (.error e))
      | .inr x => .ok ({ s with sm := r.sm }.push (.tree x))
  | .subspan i a b => do .ok (s.push (.ofSpan (← (← s.tree i).subspan a b)))
  | .errorSpan i =>
    match s.vars[i]? with
    | some (.error e) => .ok (s.push (.span (e.span inside)))
    | _ => .ill
  | .invalidate => if inside then .panic else .ok ({ s with sm := s.sm.invalidate }.push .none)
  | .defSite => .ok (s.push (.span (WSpan.defSite inside)))
  | .byteRange i => do
    let r ← (← s.span i).byteRange s.sm
    .ok ({ s with sm := r.1 }.push (.range r.2.1 r.2.2))
  | .start i => do .ok (s.push (.lineColumn (← (← s.span i).start s.sm)))
  | .end_ i => do .ok (s.push (.lineColumn (← (← s.span i).end_ s.sm)))
  | .file i => do .ok (s.push (.text (← (← s.span i).file s.sm)))
  | .localFile i => do .ok (s.push (.ofText (← s.span i).localFile))
  | .sourceText i => do
    let r ← (← s.span i).sourceText s.sm
    .ok ({ s with sm := r.1 }.push (.ofText r.2))
  | .delimiter i => do .ok (s.push (.delimiter (← Out.typed (← s.tree i).delimiter)))
  | .delimSpan i => do .ok (s.push (.delim (← Out.typed (← s.tree i).delimSpan)))
  | .delimJoin i => do .ok (s.push (.span (← s.delim i).join))
  | .delimOpen i => do .ok (s.push (.span (← s.delim i).open_))
  | .delimClose i => do .ok (s.push (.span (← s.delim i).close))
  | .treeText i => do .ok (s.push (.text (displayTreeW (← s.tree i))))
  | .asChar i => do .ok (s.push (.text [← Out.typed (← s.tree i).asChar]))
  | .spacing i => do .ok (s.push (.spacing (← Out.typed (← s.tree i).spacing)))
  | .identCmp i j => do .ok (s.push (.ordering (← Out.typed ((← s.tree i).identCmp (← s.tree j)))))
  | .identHash i => do .ok (s.push (.bytes (← Out.typed (← s.tree i).identHash)))
  | .literalUnchecked r => do .ok (s.push (.tree (← Wrap.literalUnchecked inside r)))
  | .sizeHint i =>
    match s.vars[i]? with
    | some (.iterC ts) => .ok (s.push (.hint (Compiler.sizeHint ts).1 (Compiler.sizeHint ts).2))
    | some (.iterF ts) => .ok (s.push (.hint ts.length (some ts.length)))
    | _ => .ill
  | .byteCharacter b => do .ok (s.push (.tree (← byteCharacterW inside b)))
  | .cString bs => do .ok (s.push (.tree (← cStringW inside bs)))
  | .debug alternate i => do .ok (s.push (.text (← (← Out.typed s.vars[i]?).debug true alternate)))
  | .debugIdent alternate i => do .ok (s.push (.text (← Out.typed ((← s.tree i).identDebug true alternate))))
  | .errorText i =>
    match s.vars[i]? with
    | some (.error e) => .ok (s.push (.text e.text))
    | _ => .ill
  | .value k i => do .ok (s.push (.conversion (← Out.ofRes (literalValue (← Out.typed (← s.tree i).literalText) k))))

/-- A program; each call with what `inside_proc_macro()` answers. -/
def run (s : State σ) : List (Bool × Op) → Out (State σ)
  | [] => .ok s
  | (inside, op) :: ops => do run (← step inside s op) ops

end programs

end PM2.Wrap
