import Verif.Spec.Wrapper
import Verif.Spec.Stream
/-!
# Specification: the same programs without the wrapper

Outside a macro, the calls of a program are calls of the fallback; inside, calls of the compiler's API.
Here, streams are lists of trees of one kind, and a `DelimSpan` is the group that it was made from.
-/

namespace PM2.Spec.Direct
open Wrap

/-! ## The fallback -/

section fallback
variable [CompilerTypes]

/-- Values that are neither trees nor spans of this crate. -/
inductive Plain where
  | bool (b : Bool)
  | text (t : List Char)
  | streamC (ts : List CTree)
  | spanC (s : CompilerTypes.Span)
  | delimiter (d : Delimiter)
  | spacing (s : Spacing)
  | ordering (o : Ordering)
  | range (lo hi : Nat)
  | lineColumn (lc : LineColumn)
  | hint (lower : Nat) (upper : Option Nat)
  | bytes (bs : List UInt8)
  | conversion (r : Except ConversionError (List Char ⊕ List UInt8))
  | none

inductive FValue where
  | stream (ts : List TokenTree)
  | tree (t : TokenTree)
  | span (s : Span)
  | iter (ts : List TokenTree)
  | error (s : Span)
  | delim (d : Delimiter) (ts : List TokenTree) (s : Span)
  | plain (v : Plain)

/-- The value of a literal, or why it has none. -/
def valueOfText (k : ValueKind) (repr : List Char) : Out (Except ConversionError (List Char ⊕ List UInt8)) :=
  let result {α : Type} (f : α → List Char ⊕ List UInt8) (r : Res ConversionError α) :
      Out (Except ConversionError (List Char ⊕ List UInt8)) :=
    match r with
    | .ok a => .ok (.ok (f a))
    | .err e => .ok (.error e)
    | .panic => .panic
    | .diverge => .diverge
  match k with
  | .str => result .inl (strValue repr)
  | .cstr => result .inr (cstrValue repr)
  | .byteStr => result .inr (byteStrValue repr)

structure FState where
  sm : SourceMap
  vars : List FValue

namespace FState

def push (s : FState) (v : FValue) : FState := { s with vars := s.vars ++ [v] }
def set (s : FState) (i : Nat) (v : FValue) : FState := { s with vars := s.vars.set i v }

/-- A variable of the right type. -/
def read {α : Type} (s : FState) (f : FValue → Option α) (i : Nat) : Out α :=
  match s.vars[i]? with
  | none => .ill
  | some v => Out.typed (f v)

/-- Several variables of the right type. -/
def reads {α : Type} (s : FState) (f : FValue → Option α) : List Nat → Out (List α)
  | [] => .ok []
  | i :: is => do .ok ((← s.read f i) :: (← s.reads f is))

end FState

def FValue.stream? : FValue → Option (List TokenTree)
  | .stream ts => some ts
  | _ => none
def FValue.tree? : FValue → Option TokenTree
  | .tree t => some t
  | _ => none
def FValue.span? : FValue → Option Span
  | .span s => some s
  | _ => none
def FValue.iter? : FValue → Option (List TokenTree)
  | .iter ts => some ts
  | _ => none
def FValue.error? : FValue → Option Span
  | .error s => some s
  | _ => none
def FValue.group? : FValue → Option (Delimiter × List TokenTree × Span)
  | .tree (.group d ts s) => some (d, ts, s)
  | _ => none
def FValue.ident? : FValue → Option IdentData
  | .tree (.ident sym raw _) => some ⟨sym, raw⟩
  | _ => none
def FValue.punct? : FValue → Option (Char × Spacing)
  | .tree (.punct ch sp _) => some (ch, sp)
  | _ => none
def FValue.repr? : FValue → Option (List Char)
  | .tree (.literal r _) => some r
  | _ => none
def FValue.literal? : FValue → Option Span
  | .tree (.literal _ s) => some s
  | _ => none
def FValue.delim? : FValue → Option (Delimiter × List TokenTree × Span)
  | .delim d ts s => some (d, ts, s)
  | _ => none

/-- `None` or a span. -/
def FValue.ofSpan : Option Span → FValue
  | some s => .span s
  | none => .plain .none

/-- `None` or a text. -/
def FValue.ofText : Option (List Char) → FValue
  | some t => .plain (.text t)
  | none => .plain .none

end fallback

section fallback
variable [Compiler] [UnicodeTables]

/-- What `Debug` shows of a value of the fallback. -/
def FValue.debug (alternate : Bool) : FValue → Option (List Char)
  | .stream ts => some (debugStream true alternate ts)
  | .tree t => some (debugTree true alternate t)
  | .span s => some (debugSpan true s)
  | .iter ts => some (debugStream true alternate ts)
  | .error s => some (debugLexError true alternate s)
  | .delim _ _ s => some (debugSpan true s)
  | .plain (.delimiter d) => some (debugDelimiter d)
  | .plain (.spacing s) => some (debugSpacing s)
  | .plain (.lineColumn lc) => some (debugLineColumn alternate lc)
  | .plain _ => none

/-- An identifier with its span. -/
def FValue.identSpan? : FValue → Option (List Char × Bool × Span)
  | .tree (.ident sym raw s) => some (sym, raw, s)
  | _ => none

/-- One call of the fallback. -/
def fstep (s : FState) : Op → Out FState
  | .new => .ok (s.push (.stream []))
  | .fromStr src =>
    match TokenStream.fromStr s.sm src with
    | (sm, .ok ts) => .ok ({ s with sm := sm }.push (.stream ts))
    | (sm, .err e) => .ok ({ s with sm := sm }.push (.error e))
    | (_, .panic) => .panic
    | (_, .diverge) => .diverge
  | .fromCompiler _ => .ill
  | .spanFromCompiler _ => .ill
  | .clone i => do .ok (s.push (← s.read some i))
  | .isEmpty i => do .ok (s.push (.plain (.bool (← s.read FValue.stream? i).isEmpty)))
  | .display i => do .ok (s.push (.plain (.text (display (← s.read FValue.stream? i)))))
  | .intoCompiler i => do
    match Compiler.parseStream (display (← s.read FValue.stream? i)) with
    | .ok ts => .ok (s.push (.plain (.streamC ts)))
    | _ => .panic
  | .fromTree i => do .ok (s.push (.stream (splitNeg (← s.read FValue.tree? i))))
  | .collectTrees is => do .ok (s.push (.stream ((← s.reads FValue.tree? is).flatMap splitNeg)))
  | .collectStreams is => do .ok (s.push (.stream (← s.reads FValue.stream? is).flatten))
  | .extendTrees i js => do
    let ts ← s.read FValue.stream? i
    .ok (s.set i (.stream (ts ++ (← s.reads FValue.tree? js).flatMap splitNeg)))
  | .extendStreams i js => do
    let ts ← s.read FValue.stream? i
    .ok (s.set i (.stream (ts ++ (← s.reads FValue.stream? js).flatten)))
  | .intoIter i => do .ok (s.push (.iter (← s.read FValue.stream? i)))
  | .next i => do
    match ← s.read FValue.iter? i with
    | [] => .ok (s.push (.plain .none))
    | t :: ts => .ok ((s.set i (.iter ts)).push (.tree t))
  | .callSite => .ok (s.push (.span Span.callSite))
  | .mixedSite => .ok (s.push (.span Span.callSite))
  | .resolvedAt i j => do
    let a ← s.read FValue.span? i
    .ok (s.push (.span (a.resolvedAt (← s.read FValue.span? j))))
  | .locatedAt i j => do
    let a ← s.read FValue.span? i
    .ok (s.push (.span (a.locatedAt (← s.read FValue.span? j))))
  | .unwrap i => do
    let _ ← s.read FValue.span? i
    .panic
  | .join i j => do
    let a ← s.read FValue.span? i
    let b ← s.read FValue.span? j
    .ok (s.push (.ofSpan (← Out.ofRes (a.join s.sm b))))
  | .spanEq i j => do
    let a ← s.read FValue.span? i
    .ok (s.push (.plain (.bool (a == (← s.read FValue.span? j)))))
  | .groupNew d i => do .ok (s.push (.tree (groupNew d (← s.read FValue.stream? i))))
  | .groupStream i => do .ok (s.push (.stream (← s.read FValue.group? i).2.1))
  | .span i => do .ok (s.push (.span (← s.read FValue.tree? i).span))
  | .spanOpen i => do .ok (s.push (.span (← s.read FValue.group? i).2.2.firstByte))
  | .spanClose i => do .ok (s.push (.span (← s.read FValue.group? i).2.2.lastByte))
  | .setSpan i j => do
    let t ← s.read FValue.tree? i
    .ok (s.set i (.tree (t.setSpan (← s.read FValue.span? j))))
  | .identNew t i => do .ok (s.push (.tree (← Out.ofRes (Ident.new t (← s.read FValue.span? i)))))
  | .identNewRaw t i => do .ok (s.push (.tree (← Out.ofRes (Ident.newRaw t (← s.read FValue.span? i)))))
  | .identEq i j => do
    let a ← s.read FValue.ident? i
    .ok (s.push (.plain (.bool (a.eq (← s.read FValue.ident? j)))))
  | .identEqStr i t => do
    let a ← s.read FValue.ident? i
    .ok (s.push (.plain (.bool (← Out.ofRes (a.eqStr t)))))
  | .punctNew ch sp => do .ok (s.push (.tree (← Out.ofRes (punctNew ch sp))))
  | .literalNew r => .ok (s.push (.tree (literalNew r)))
  | .literalFromStr src =>
    match Literal.fromStr s.sm src with
    | (sm, .ok (r, sp)) => .ok ({ s with sm := sm }.push (.tree (.literal r sp)))
    | (sm, .err e) => .ok ({ s with sm := sm }.push (.error e))
    | (_, .panic) => .panic
    | (_, .diverge) => .diverge
  | .subspan i a b => do .ok (s.push (.ofSpan (PM2.subspan (← s.read FValue.literal? i) a b)))
  | .errorSpan i => do .ok (s.push (.span (← s.read FValue.error? i)))
  | .invalidate => .ok ({ s with sm := s.sm.invalidate }.push (.plain .none))
  | .defSite => .ok (s.push (.span Span.callSite))
  | .byteRange i => do
    let r ← Out.ofRes ((← s.read FValue.span? i).byteRange s.sm)
    .ok ({ s with sm := r.1 }.push (.plain (.range r.2.1 r.2.2)))
  | .start i => do .ok (s.push (.plain (.lineColumn (← Out.ofRes ((← s.read FValue.span? i).start s.sm)))))
  | .end_ i => do .ok (s.push (.plain (.lineColumn (← Out.ofRes ((← s.read FValue.span? i).end_ s.sm)))))
  | .file i => do .ok (s.push (.plain (.text (← Out.ofRes ((← s.read FValue.span? i).file s.sm)))))
  | .localFile i => do
    let _ ← s.read FValue.span? i
    .ok (s.push (.plain .none))
  | .sourceText i => do
    let r ← Out.ofRes ((← s.read FValue.span? i).sourceText s.sm)
    .ok ({ s with sm := r.1 }.push (.ofText r.2))
  | .delimiter i => do .ok (s.push (.plain (.delimiter (← s.read FValue.group? i).1)))
  | .delimSpan i => do
    let g ← s.read FValue.group? i
    .ok (s.push (.delim g.1 g.2.1 g.2.2))
  | .delimJoin i => do .ok (s.push (.span (← s.read FValue.delim? i).2.2))
  | .delimOpen i => do .ok (s.push (.span (← s.read FValue.delim? i).2.2.firstByte))
  | .delimClose i => do .ok (s.push (.span (← s.read FValue.delim? i).2.2.lastByte))
  | .treeText i => do .ok (s.push (.plain (.text (displayTree (← s.read FValue.tree? i)))))
  | .asChar i => do .ok (s.push (.plain (.text [(← s.read FValue.punct? i).1])))
  | .spacing i => do .ok (s.push (.plain (.spacing (← s.read FValue.punct? i).2)))
  | .identCmp i j => do
    let a ← s.read FValue.ident? i
    .ok (s.push (.plain (.ordering (a.cmp (← s.read FValue.ident? j)))))
  | .identHash i => do .ok (s.push (.plain (.bytes (← s.read FValue.ident? i).hashInput)))
  | .literalUnchecked r => .ok (s.push (.tree (literalNew r)))
  | .sizeHint i => do
    let ts ← s.read FValue.iter? i
    .ok (s.push (.plain (.hint ts.length (some ts.length))))
  | .byteCharacter b => .ok (s.push (.tree (literalNew (litByteCharacter b))))
  | .cString bs => do .ok (s.push (.tree (literalNew (← Out.ofRes (litCString bs)))))
  | .debug alternate i => do .ok (s.push (.plain (.text (← s.read (FValue.debug alternate) i))))
  | .debugIdent alternate i => do
    let a ← s.read FValue.identSpan? i
    .ok (s.push (.plain (.text (debugIdent true alternate a.1 a.2.1 a.2.2))))
  | .errorText i => do
    let _ ← s.read FValue.error? i
    .ok (s.push (.plain (.text displayLexError)))
  | .value k i => do .ok (s.push (.plain (.conversion (← valueOfText k (← s.read FValue.repr? i)))))

/-- A program that calls the fallback. -/
def frun (s : FState) : List Op → Out FState
  | [] => .ok s
  | op :: ops => do frun (← fstep s op) ops

end fallback

/-! ## The compiler -/

section compiler
variable [CompilerTypes]

inductive CValue where
  | stream (ts : List CTree)
  | tree (t : CTree)
  | span (s : CompilerTypes.Span)
  | iter (ts : List CTree)
  /-- a `proc_macro::LexError` -/
  | error (e : CompilerTypes.Error)
  /-- the compiler's parser panicked, or was not called -/
  | noParse
  | delim (g : CompilerTypes.Group)
  | plain (v : Plain)

/-- The thread's source map is there because the fallback's parser is called first. -/
structure CState where
  sm : SourceMap
  vars : List CValue

namespace CState

def push (s : CState) (v : CValue) : CState := { s with vars := s.vars ++ [v] }
def set (s : CState) (i : Nat) (v : CValue) : CState := { s with vars := s.vars.set i v }

/-- A variable of the right type. -/
def read {α : Type} (s : CState) (f : CValue → Option α) (i : Nat) : Out α :=
  match s.vars[i]? with
  | none => .ill
  | some v => Out.typed (f v)

/-- Several variables of the right type. -/
def reads {α : Type} (s : CState) (f : CValue → Option α) : List Nat → Out (List α)
  | [] => .ok []
  | i :: is => do .ok ((← s.read f i) :: (← s.reads f is))

end CState

def CValue.stream? : CValue → Option (List CTree)
  | .stream ts => some ts
  | _ => none
def CValue.tree? : CValue → Option CTree
  | .tree t => some t
  | _ => none
def CValue.span? : CValue → Option CompilerTypes.Span
  | .span s => some s
  | _ => none
def CValue.iter? : CValue → Option (List CTree)
  | .iter ts => some ts
  | _ => none
def CValue.group? : CValue → Option CompilerTypes.Group
  | .tree (.group g) => some g
  | _ => none
def CValue.ident? : CValue → Option CompilerTypes.Ident
  | .tree (.ident i) => some i
  | _ => none
def CValue.punct? : CValue → Option (Char × CSpacing)
  | .tree (.punct ch sp _) => some (ch, sp)
  | _ => none
def CValue.literal? : CValue → Option CompilerTypes.Literal
  | .tree (.literal l) => some l
  | _ => none
def CValue.error? : CValue → Option Unit
  | .error _ => some ()
  | .noParse => some ()
  | _ => none
def CValue.delim? : CValue → Option CompilerTypes.Group
  | .delim g => some g
  | _ => none

/-- `None` or a span. -/
def CValue.ofSpan : Option CompilerTypes.Span → CValue
  | some s => .span s
  | none => .plain .none

/-- `None` or a text. -/
def CValue.ofText : Option (List Char) → CValue
  | some t => .plain (.text t)
  | none => .plain .none

end compiler

/-- The delimiter of the same name. -/
def delimiterC : Delimiter → CDelimiter
  | .parenthesis => .parenthesis
  | .brace => .brace
  | .bracket => .bracket
  | .none => .none

/-- The delimiter of the same name. -/
def delimiterF : CDelimiter → Delimiter
  | .parenthesis => .parenthesis
  | .brace => .brace
  | .bracket => .bracket
  | .none => .none

/-- The spacing of the same name. -/
def spacingC : Spacing → CSpacing
  | .joint => .joint
  | .alone => .alone

/-- The spacing of the same name. -/
def spacingF : CSpacing → Spacing
  | .joint => .joint
  | .alone => .alone

section compiler
variable [Compiler]

def ctreeSpan : CTree → CompilerTypes.Span
  | .group g => Compiler.groupSpan g
  | .punct _ _ s => s
  | .ident i => Compiler.identSpan i
  | .literal l => Compiler.literalSpan l

def ctreeSetSpan : CTree → CompilerTypes.Span → CTree
  | .group g, s => .group (Compiler.groupSetSpan g s)
  | .punct ch sp _, s => .punct ch sp s
  | .ident i, s => .ident (Compiler.identSetSpan i s)
  | .literal l, s => .literal (Compiler.literalSetSpan l s)

def ctreeText : CTree → List Char
  | .group g => Compiler.groupText g
  | .punct ch _ _ => [ch]
  | .ident i => Compiler.identText i
  | .literal l => Compiler.literalText l

/-- The punctuation is one that `Punct::new` takes. -/
def supported : CTree → Bool
  | .punct ch _ _ => isPunctCtorChar ch
  | _ => true

variable [UnicodeTables]

/-- What `Debug` shows of a tree of the compiler in a `TokenTree` of this crate. Identifiers and punctuation
are shown in this crate's way, with their spans. -/
def ctreeDebug (alternate : Bool) : CTree → List Char
  | .group g => Compiler.groupDebug alternate g
  | .punct ch sp s =>
    debugStruct alternate "Punct".toList
      [("char".toList, debugChar ch), ("spacing".toList, debugSpacing (spacingF sp)),
        ("span".toList, Compiler.spanDebug alternate s)]
  | .ident i =>
    debugStruct alternate "Ident".toList
      [("sym".toList, Compiler.identText i), ("span".toList, Compiler.spanDebug alternate (Compiler.identSpan i))]
  | .literal l => Compiler.literalDebug alternate l

/-- What `Debug` shows of a value of the compiler. -/
def CValue.debug (alternate : Bool) : CValue → Out (List Char)
  | .stream ts => .ok (Compiler.streamDebug alternate ts)
  | .tree t => .ok (ctreeDebug alternate t)
  | .span s => .ok (Compiler.spanDebug alternate s)
  | .iter ts =>
    if ts.all supported then .ok ("TokenStream ".toList ++ debugList alternate (ts.map (ctreeDebug alternate)))
    else .panic
  | .error e => .ok (Compiler.errorDebug alternate e)
  | .noParse => .ok (debugLexError true alternate Span.callSite)
  | .delim g => .ok (Compiler.spanDebug alternate (Compiler.groupSpan g))
  | .plain (.delimiter d) => .ok (debugDelimiter d)
  | .plain (.spacing s) => .ok (debugSpacing s)
  | .plain (.lineColumn lc) => .ok (debugLineColumn alternate lc)
  | .plain _ => .ill

/-- The message of an error. -/
def CValue.errorText? : CValue → Option (List Char)
  | .error e => some (Compiler.errorText e)
  | .noParse => some displayLexError
  | _ => none

/-- One call of the compiler's API. A text is parsed by the fallback first, and by the compiler only if
the fallback accepts it. What an older compiler does not have is answered in a fixed way, or, for the
constructors of literals, by parsing. -/
def cstep (s : CState) : Op → Out CState
  | .new => .ok (s.push (.stream []))
  | .fromStr src =>
    match TokenStream.fromStr s.sm src with
    | (sm, .ok _) =>
      match Compiler.parseStream src with
      | .ok ts => .ok ({ s with sm := sm }.push (.stream ts))
      | .err e => .ok ({ s with sm := sm }.push (.error e))
      | .panic => .ok ({ s with sm := sm }.push .noParse)
    | (sm, .err _) => .ok ({ s with sm := sm }.push .noParse)
    | (_, .panic) => .panic
    | (_, .diverge) => .diverge
  | .fromCompiler ts => .ok (s.push (.stream ts))
  | .spanFromCompiler sp => .ok (s.push (.span sp))
  | .clone i => do .ok (s.push (← s.read some i))
  | .isEmpty i => do .ok (s.push (.plain (.bool (← s.read CValue.stream? i).isEmpty)))
  | .display i => do .ok (s.push (.plain (.text (Compiler.streamText (← s.read CValue.stream? i)))))
  | .intoCompiler i => do .ok (s.push (.plain (.streamC (← s.read CValue.stream? i))))
  | .fromTree i => do .ok (s.push (.stream (Compiler.enter (← s.read CValue.tree? i))))
  | .collectTrees is => do .ok (s.push (.stream ((← s.reads CValue.tree? is).flatMap Compiler.enter)))
  | .collectStreams is => do .ok (s.push (.stream (← s.reads CValue.stream? is).flatten))
  | .extendTrees i js => do
    let ts ← s.read CValue.stream? i
    .ok (s.set i (.stream (ts ++ (← s.reads CValue.tree? js).flatMap Compiler.enter)))
  | .extendStreams i js => do
    let ts ← s.read CValue.stream? i
    .ok (s.set i (.stream (ts ++ (← s.reads CValue.stream? js).flatten)))
  | .intoIter i => do .ok (s.push (.iter (← s.read CValue.stream? i)))
  | .next i => do
    match ← s.read CValue.iter? i with
    | [] => .ok (s.push (.plain .none))
    | t :: ts => if supported t then .ok ((s.set i (.iter ts)).push (.tree t)) else .panic
  | .callSite => .ok (s.push (.span Compiler.callSite))
  | .mixedSite => .ok (s.push (.span Compiler.mixedSite))
  | .resolvedAt i j => do
    let a ← s.read CValue.span? i
    .ok (s.push (.span (Compiler.resolvedAt a (← s.read CValue.span? j))))
  | .locatedAt i j => do
    let a ← s.read CValue.span? i
    .ok (s.push (.span (Compiler.locatedAt a (← s.read CValue.span? j))))
  | .unwrap i => do .ok (s.push (.plain (.spanC (← s.read CValue.span? i))))
  | .join i j => do
    let a ← s.read CValue.span? i
    let b ← s.read CValue.span? j
    .ok (s.push (.ofSpan (if Compiler.cfgSpan then Compiler.join a b else none)))
  | .spanEq i j => do
    let a ← s.read CValue.span? i
    .ok (s.push (.plain (.bool (Compiler.spanEq a (← s.read CValue.span? j)))))
  | .groupNew d i => do
    .ok (s.push (.tree (.group (Compiler.groupNew (delimiterC d) (← s.read CValue.stream? i)))))
  | .groupStream i => do .ok (s.push (.stream (Compiler.groupStream (← s.read CValue.group? i))))
  | .span i => do .ok (s.push (.span (ctreeSpan (← s.read CValue.tree? i))))
  | .spanOpen i => do .ok (s.push (.span (Compiler.groupSpanOpen (← s.read CValue.group? i))))
  | .spanClose i => do .ok (s.push (.span (Compiler.groupSpanClose (← s.read CValue.group? i))))
  | .setSpan i j => do
    let t ← s.read CValue.tree? i
    .ok (s.set i (.tree (ctreeSetSpan t (← s.read CValue.span? j))))
  | .identNew t i => do
    .ok (s.push (.tree (.ident (← Out.ofOption (Compiler.identNew t (← s.read CValue.span? i))))))
  | .identNewRaw t i => do
    .ok (s.push (.tree (.ident (← Out.ofOption (Compiler.identNewRaw t (← s.read CValue.span? i))))))
  | .identEq i j => do
    let a ← s.read CValue.ident? i
    let b ← s.read CValue.ident? j
    .ok (s.push (.plain (.bool (decide (Compiler.identText a = Compiler.identText b)))))
  | .identEqStr i t => do
    let a ← s.read CValue.ident? i
    .ok (s.push (.plain (.bool (decide (Compiler.identText a = t)))))
  | .punctNew ch sp =>
    if isPunctCtorChar ch then .ok (s.push (.tree (.punct ch (spacingC sp) Compiler.callSite))) else .panic
  | .literalNew r => .ok (s.push (.tree (.literal (Compiler.literalNew r))))
  | .literalFromStr src =>
    match Literal.fromStr s.sm src with
    | (sm, .ok _) =>
      match Compiler.parseLiteral src with
      | .ok l => .ok ({ s with sm := sm }.push (.tree (.literal l)))
      | .err e => .ok ({ s with sm := sm }.push (.error e))
      | .panic => .ok ({ s with sm := sm }.push .noParse)
    | (sm, .err _) => .ok ({ s with sm := sm }.push .noParse)
    | (_, .panic) => .panic
    | (_, .diverge) => .diverge
  | .subspan i a b => do
    let l ← s.read CValue.literal? i
    .ok (s.push (.ofSpan (if Compiler.cfgSpan then Compiler.literalSubspan l a b else none)))
  | .errorSpan i => do
    let _ ← s.read CValue.error? i
    .ok (s.push (.span Compiler.callSite))
  | .invalidate => .panic
  | .defSite => .ok (s.push (.span Compiler.defSite))
  | .byteRange i => do
    let a ← s.read CValue.span? i
    if Compiler.cfgSpan then .ok (s.push (.plain (.range (Compiler.byteRange a).1 (Compiler.byteRange a).2)))
    else .ok (s.push (.plain (.range 0 0)))
  | .start i => do
    let a ← s.read CValue.span? i
    if Compiler.cfgSpanLocation then
      .ok (s.push (.plain (.lineColumn ⟨Compiler.line a, Compiler.column a - 1⟩)))
    else .ok (s.push (.plain (.lineColumn ⟨0, 0⟩)))
  | .end_ i => do
    let a ← s.read CValue.span? i
    let b := Compiler.spanEnd a
    if Compiler.cfgSpanLocation then
      .ok (s.push (.plain (.lineColumn ⟨Compiler.line b, Compiler.column b - 1⟩)))
    else .ok (s.push (.plain (.lineColumn ⟨0, 0⟩)))
  | .file i => do
    let a ← s.read CValue.span? i
    if Compiler.cfgSpanFile then .ok (s.push (.plain (.text (Compiler.file a))))
    else .ok (s.push (.plain (.text "<token stream>".toList)))
  | .localFile i => do
    let a ← s.read CValue.span? i
    if Compiler.cfgSpanFile then .ok (s.push (.ofText (Compiler.localFile a)))
    else .ok (s.push (.plain .none))
  | .sourceText i => do
    let a ← s.read CValue.span? i
    if Compiler.cfgSourceText then .ok (s.push (.ofText (Compiler.sourceText a)))
    else .ok (s.push (.plain .none))
  | .delimiter i => do
    .ok (s.push (.plain (.delimiter (delimiterF (Compiler.groupDelimiter (← s.read CValue.group? i))))))
  | .delimSpan i => do .ok (s.push (.delim (← s.read CValue.group? i)))
  | .delimJoin i => do .ok (s.push (.span (Compiler.groupSpan (← s.read CValue.delim? i))))
  | .delimOpen i => do .ok (s.push (.span (Compiler.groupSpanOpen (← s.read CValue.delim? i))))
  | .delimClose i => do .ok (s.push (.span (Compiler.groupSpanClose (← s.read CValue.delim? i))))
  | .treeText i => do .ok (s.push (.plain (.text (ctreeText (← s.read CValue.tree? i)))))
  | .asChar i => do .ok (s.push (.plain (.text [(← s.read CValue.punct? i).1])))
  | .spacing i => do .ok (s.push (.plain (.spacing (spacingF (← s.read CValue.punct? i).2))))
  | .identCmp i j => do
    let a ← s.read CValue.ident? i
    let b ← s.read CValue.ident? j
    .ok (s.push (.plain (.ordering
      (cmpBytes (bytesOf (Compiler.identText a)) (bytesOf (Compiler.identText b))))))
  | .identHash i => do
    .ok (s.push (.plain (.bytes (bytesOf (Compiler.identText (← s.read CValue.ident? i)) ++ [0xFF]))))
  | .literalUnchecked r =>
    match Compiler.parseLiteral r with
    | .ok l => .ok (s.push (.tree (.literal l)))
    | _ => .panic
  | .sizeHint i => do
    let h := Compiler.sizeHint (← s.read CValue.iter? i)
    .ok (s.push (.plain (.hint h.1 h.2)))
  | .byteCharacter b =>
    if Compiler.cfgByteCharacter then .ok (s.push (.tree (.literal (Compiler.byteCharacter b))))
    else match Compiler.parseLiteral (litByteCharacter b) with
      | .ok l => .ok (s.push (.tree (.literal l)))
      | _ => .panic
  | .cString bs =>
    if Compiler.cfgCString then .ok (s.push (.tree (.literal (Compiler.cString bs))))
    else do match Compiler.parseLiteral (← Out.ofRes (litCString bs)) with
      | .ok l => .ok (s.push (.tree (.literal l)))
      | _ => .panic
  | .debug alternate i => do .ok (s.push (.plain (.text (← (← s.read some i).debug alternate))))
  | .debugIdent alternate i => do
    .ok (s.push (.plain (.text (Compiler.identDebug alternate (← s.read CValue.ident? i)))))
  | .errorText i => do .ok (s.push (.plain (.text (← s.read CValue.errorText? i))))
  | .value k i => do
    .ok (s.push (.plain (.conversion (← valueOfText k (Compiler.literalText (← s.read CValue.literal? i))))))

/-- A program that calls the compiler's API. -/
def crun (s : CState) : List Op → Out CState
  | [] => .ok s
  | op :: ops => do crun (← cstep s op) ops

end compiler

/-! ## The values of the wrapper -/

/-- The call makes a value and has no stream or span to take the side from, so it asks whether it is inside
a macro. (The errors of the compiler have no span.) -/
def Creates [Compiler] : Op → Prop
  | .new | .fromStr _ | .callSite | .mixedSite | .defSite | .punctNew _ _ | .literalNew _ | .literalFromStr _
  | .literalUnchecked _ | .byteCharacter _ | .cString _ | .errorSpan _ | .invalidate => True
  | .collectStreams is => is = []
  | .fromTree _ | .collectTrees _ => True
  | _ => False

section embed
variable [Compiler] {σ : Type}

def Plain.toValue : Plain → Value σ
  | .bool b => .bool b
  | .text t => .text t
  | .streamC ts => .streamC ts
  | .spanC s => .spanC s
  | .delimiter d => .delimiter d
  | .spacing s => .spacing s
  | .ordering o => .ordering o
  | .range lo hi => .range lo hi
  | .lineColumn lc => .lineColumn lc
  | .hint lower upper => .hint lower upper
  | .bytes bs => .bytes bs
  | .conversion r => .conversion r
  | .none => .none

mutual

/-- A tree of the fallback. -/
def treeF : TokenTree → Tree
  | .group d ts s => .groupF d (treesF ts) s
  | .ident sym raw s => .identF sym raw s
  | .punct ch sp s => .punct ch sp (.fallback s)
  | .literal r s => .literalF r s

def treesF : List TokenTree → List Tree
  | [] => []
  | t :: ts => treeF t :: treesF ts

end

/-- A tree of the compiler. -/
def treeC : CTree → Tree
  | .group g => .groupC g
  | .punct ch sp s => .punct ch (spacingF sp) (.compiler s)
  | .ident i => .identC i
  | .literal l => .literalC l

def FValue.toValue : FValue → Value σ
  | .stream ts => .stream (.fallback (treesF ts))
  | .tree t => .tree (treeF t)
  | .span s => .span (.fallback s)
  | .iter ts => .iterF (treesF ts)
  | .error s => .error (.fallback s)
  | .delim _ _ s => .delim (.fallback s)
  | .plain v => v.toValue

def FState.toState (s : FState) : State σ := ⟨s.sm, s.vars.map FValue.toValue⟩

def CValue.toValue : CValue → Value Eager
  | .stream ts => .stream (.compiler ⟨ts⟩)
  | .tree t => .tree (treeC t)
  | .span s => .span (.compiler s)
  | .iter ts => .iterC ts
  | .error e => .error (.compiler e)
  | .noParse => .error .compilerPanic
  | .delim g =>
    .delim (.compiler (Compiler.groupSpan g) (Compiler.groupSpanOpen g) (Compiler.groupSpanClose g))
  | .plain v => v.toValue

def CState.toState (s : CState) : State Eager := ⟨s.sm, s.vars.map CValue.toValue⟩

end embed

end PM2.Spec.Direct
