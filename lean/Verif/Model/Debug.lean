import Verif.Model.Display
import Verif.Model.SourceMap
import Verif.Model.Fmt
/-!
# `Debug` and the options of `Display` (src/fallback.rs, src/lib.rs)

`loc` is `cfg(span_locations)`. The `Debug` impls hand everything to `write_str`, `write!` or the builders of
the standard library, and the fields are written by `write_str` (derived `Debug` of enums without fields),
`write!`, or `Debug for char`; so of the options of the formatter only `#` matters.
-/

namespace PM2

/-- src/fallback.rs:695-703 `Debug for Span`. -/
def debugSpan (loc : Bool) (s : Span) : List Char :=
  if loc then "bytes(".toList ++ natDec s.lo ++ "..".toList ++ natDec s.hi ++ [')'] else "Span".toList

/-- src/fallback.rs:705-716 `debug_span_field_if_nontrivial`: the fields that are added. -/
def debugSpanField (loc : Bool) (s : Span) : List (List Char × List Char) :=
  if loc && s.isCallSite then []
  else if loc then [("span".toList, debugSpan loc s)] else []

/-- src/lib.rs:683-712: derived `Debug` of `Delimiter`. -/
def debugDelimiter : Delimiter → List Char
  | .parenthesis => "Parenthesis".toList
  | .brace => "Brace".toList
  | .bracket => "Bracket".toList
  | .none => "None".toList

/-- src/lib.rs:826-836: derived `Debug` of `Spacing`. -/
def debugSpacing : Spacing → List Char
  | .alone => "Alone".toList
  | .joint => "Joint".toList

/-- src/location.rs:7-15: derived `Debug` of `LineColumn`, without options for numbers. -/
def debugLineColumn (alternate : Bool) (lc : LineColumn) : List Char :=
  debugStruct alternate "LineColumn".toList
    [("line".toList, natDec lc.line), ("column".toList, natDec lc.column)]

/-- src/fallback.rs:920-940 `Debug for Ident`. -/
def debugIdent (loc alternate : Bool) (sym : List Char) (raw : Bool) (s : Span) : List Char :=
  if loc then
    debugStruct alternate "Ident".toList (("sym".toList, displayIdent sym raw) :: debugSpanField loc s)
  else debugTuple alternate "Ident".toList [displayIdent sym raw]

section
variable [UnicodeTables]

mutual

/-- src/lib.rs:656-672 `Debug for TokenTree`, with src/fallback.rs:786-794 `Debug for Group`, src/lib.rs:893-901
`Debug for Punct` and src/fallback.rs:1205-1212 `Debug for Literal`. -/
def debugTree (loc alternate : Bool) : TokenTree → List Char
  | .group d ts s =>
    debugStruct alternate "Group".toList
      (("delimiter".toList, debugDelimiter d) ::
        ("stream".toList, "TokenStream ".toList ++ debugList alternate (debugTrees loc alternate ts)) ::
        debugSpanField loc s)
  | .ident sym raw s =>
    debugStruct alternate "Ident".toList (("sym".toList, displayIdent sym raw) :: debugSpanField loc s)
  | .punct ch sp s =>
    debugStruct alternate "Punct".toList
      (("char".toList, debugChar ch) :: ("spacing".toList, debugSpacing sp) :: debugSpanField loc s)
  | .literal repr s =>
    debugStruct alternate "Literal".toList (("lit".toList, repr) :: debugSpanField loc s)

/-- The entries of a stream. -/
def debugTrees (loc alternate : Bool) : List TokenTree → List (List Char)
  | [] => []
  | t :: ts => debugTree loc alternate t :: debugTrees loc alternate ts

end

/-- src/fallback.rs:248-253 `Debug for TokenStream`; also src/lib.rs:1509-1514 `Debug for IntoIter`, of what
the iterator has left. -/
def debugStream (loc alternate : Bool) (ts : TokenStream) : List Char :=
  "TokenStream ".toList ++ debugList alternate (debugTrees loc alternate ts)

end

/-- src/fallback.rs:59-62: derived `Debug` of `LexError`, which is represented by its span
(src/fallback.rs:64-74 `LexError::span`, `call_site`). -/
def debugLexError (loc alternate : Bool) (s : Span) : List Char :=
  debugStruct alternate "LexError".toList [("span".toList, debugSpan loc s)]

/-- src/fallback.rs:219-223 `Display for LexError`. -/
def displayLexError : List Char := "cannot parse string into token stream".toList

/-! ## Options of `Display` -/

mutual

/-- src/lib.rs:644-653 `Display for TokenTree`, with the formatter handed on: src/fallback.rs:759-784,
910-917, 1199-1203, src/lib.rs:887-891. -/
def displayTreeFmt (o : FmtOpts) : TokenTree → List Char
  | .group d ts _ =>
    displayOpen d ++ displayLoopFmt o ts true false ++
      (if d == .brace && !ts.isEmpty then [' '] else []) ++ displayClose d
  | .ident sym raw _ => displayIdent sym raw
  | .punct ch _ _ => o.pad [ch]
  | .literal repr _ => o.pad repr

/-- src/fallback.rs:225-246: the loop of `Display for TokenStream`; `write!(f, "{}", tt)` is a new formatter
without options. -/
def displayLoopFmt (o : FmtOpts) : List TokenTree → (first joint : Bool) → List Char
  | [], _, _ => []
  | tt :: ts, first, joint =>
    (if !first && !joint then [' '] else []) ++ displayTreeFmt {} tt ++
      displayLoopFmt o ts false (jointAfter tt)

end

/-- src/fallback.rs:225-246 `Display for TokenStream`. -/
def displayFmt (o : FmtOpts) (ts : TokenStream) : List Char := displayLoopFmt o ts true false

end PM2
