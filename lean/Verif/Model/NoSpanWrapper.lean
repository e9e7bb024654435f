import Verif.Model.Wrapper
import Verif.Model.NoSpan
/-!
# The wrapper without `span_locations`

Programs as in `Verif/Model/Wrapper.lean`, in the default configuration of the crate. A `fallback::Span` has no
fields (src/fallback.rs:519-525); it is `Span.callSite` here. There is no source map, and `State.sm` is never
looked at. Calls that only exist with `cfg(span_locations)` or `cfg(procmacro2_semver_exempt)` are no calls;
build.rs:36-47 sets both or the first.
-/

namespace PM2.Wrap.NoSpan
variable [Compiler] {σ : Type}

section
variable [UnicodeTables] [Rep σ]

/-- src/wrapper.rs:98-108 `TokenStream::from_str_checked`, with src/fallback.rs:83-94, 214-217, 1244-1259 and
1266-1271. -/
def fromStr (inside : Bool) (src : List Char) : Out (LexError ⊕ WStream σ) :=
  let r := PM2.NoSpan.fromStr src
  if inside then do
    match ← (fromStr2 r Compiler.parseStream src).1 with
    | .inl e => .ok (.inl e)
    | .inr ts => .ok (.inr (.compiler (Rep.new ts)))
  else
    match r with
    | .ok ts => .ok (.inr (.fallback (Tree.ofFallbacks ts)))
    | .err s => .ok (.inl (.fallback s))
    | .panic => .panic
    | .diverge => .diverge

/-- src/wrapper.rs:792-800 `Literal::from_str_checked`, with src/fallback.rs:972-1000, 1274-1279. -/
def literalFromStr (inside : Bool) (src : List Char) : Out (LexError ⊕ Tree) :=
  let r := PM2.NoSpan.literalFromStr src
  if inside then do
    match ← (fromStr2 r Compiler.parseLiteral src).1 with
    | .inl e => .ok (.inl e)
    | .inr l => .ok (.inr (.literalC l))
  else
    match r with
    | .ok (repr, s) => .ok (.inr (.literalF repr s))
    | .err s => .ok (.inl (.fallback s))
    | .panic => .panic
    | .diverge => .diverge

end

/-- src/wrapper.rs:494-502 `Span::join`, with src/fallback.rs:616-619. -/
def join : WSpan → WSpan → Option WSpan
  | .compiler a, .compiler b => if Compiler.cfgSpan then (Compiler.join a b).map .compiler else none
  | .fallback _, .fallback _ => some (.fallback Span.callSite)
  | _, _ => none

/-- src/wrapper.rs:513-521 `Span::source_text`, with src/fallback.rs:643-646. -/
def sourceText : WSpan → Option (List Char)
  | .compiler s => if Compiler.cfgSourceText then Compiler.sourceText s else none
  | .fallback _ => none

/-- src/wrapper.rs:611-616 `Group::span_open`, with src/fallback.rs:663-666, 746-748. -/
def spanOpen : Tree → Option WSpan
  | .groupC g => some (.compiler (Compiler.groupSpanOpen g))
  | .groupF _ _ s => some (.fallback s)
  | _ => none

/-- src/wrapper.rs:618-623 `Group::span_close`, with src/fallback.rs:676-679, 750-752. -/
def spanClose : Tree → Option WSpan
  | .groupC g => some (.compiler (Compiler.groupSpanClose g))
  | .groupF _ _ s => some (.fallback s)
  | _ => none

/-- src/extra.rs:129-135 `DelimSpan::open`. -/
def delimOpen : WDelim → WSpan
  | .compiler _ open_ _ => .compiler open_
  | .fallback s => .fallback s

/-- src/extra.rs:138-144 `DelimSpan::close`. -/
def delimClose : WDelim → WSpan
  | .compiler _ _ close => .compiler close
  | .fallback s => .fallback s

/-- src/wrapper.rs:937-945 `Literal::subspan`, with src/fallback.rs:1158-1162. -/
def subspan (t : Tree) (a b : Bound) : Out (Option WSpan) :=
  match t with
  | .literalC l => .ok (if Compiler.cfgSpan then (Compiler.literalSubspan l a b).map .compiler else none)
  | .literalF _ _ => .ok none
  | _ => .ill

variable [UnicodeTables] [Rep σ]

/-- One call. -/
def step (inside : Bool) (s : State σ) : Op → Out (State σ)
  | .fromStr src => do
    match ← fromStr (σ := σ) inside src with
    | .inl e => .ok (s.push (.error e))
    | .inr x => .ok (s.push (.stream x))
  | .literalFromStr src => do
    match ← literalFromStr inside src with
    | .inl e => .ok (s.push (.error e))
    | .inr x => .ok (s.push (.tree x))
  | .join i j => do .ok (s.push (.ofSpan (join (← s.span i) (← s.span j))))
  | .sourceText i => do .ok (s.push (.ofText (sourceText (← s.span i))))
  | .spanOpen i => do .ok (s.push (.span (← Out.typed (spanOpen (← s.tree i)))))
  | .spanClose i => do .ok (s.push (.span (← Out.typed (spanClose (← s.tree i)))))
  | .delimOpen i => do .ok (s.push (.span (delimOpen (← s.delim i))))
  | .delimClose i => do .ok (s.push (.span (delimClose (← s.delim i))))
  | .subspan i a b => do .ok (s.push (.ofSpan (← subspan (← s.tree i) a b)))
  | .debug alternate i => do .ok (s.push (.text (← (← Out.typed s.vars[i]?).debug false alternate)))
  | .debugIdent alternate i => do .ok (s.push (.text (← Out.typed ((← s.tree i).identDebug false alternate))))
  -- with `cfg(span_locations)`: src/lib.rs:480-535, src/extra.rs:71-75
  | .byteRange _ | .start _ | .end_ _ | .file _ | .localFile _ | .invalidate => .ill
  -- with `cfg(procmacro2_semver_exempt)`: src/lib.rs:431-433, 553-555, 1311-1414
  | .defSite | .spanEq _ _ | .value _ _ => .ill
  -- these are the same in every configuration
  | op => Wrap.step inside s op

/-- A program; each call with what `inside_proc_macro()` answers. -/
def run (s : State σ) : List (Bool × Op) → Out (State σ)
  | [] => .ok s
  | (inside, op) :: ops => do run (← step inside s op) ops

end PM2.Wrap.NoSpan
