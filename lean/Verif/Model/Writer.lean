import Verif.Model.Debug
/-!
# Printing to a writer that can fail (src/fallback.rs:219-253, 695-716, 759-794, 910-940, 1199-1212, src/lib.rs:644-672,
887-901)

`Verif.Model.Display` and `Verif.Model.Debug` give the text that is printed. Here the same implementations are programs over
a `fmt::Write`, which may fail at any piece: each `?` of the code ends the printing at the first error. A piece is what is
handed to `write_str` of the writer at once.

`fmt::write`, `Formatter::pad`, `PadAdapter` and the builders of `Debug` are modelled from the standard library; which pieces
it makes of a number or a character is its own affair (here: a number is one piece, the characters of an escaped `char` are
one each).
-/

namespace PM2

/-- A `fmt::Write` with state `σ`: `write_str` gives the next state, and `false` for `Err(fmt::Error)`. -/
abbrev Writer (σ : Type) := σ → List Char → σ × Bool

/-- What an implementation of `Display` or `Debug` does to whatever writer it is given. -/
structure Printer where
  run : (σ : Type) → Writer σ → σ → σ × Bool

namespace Printer

/-- `Ok(())`. -/
def done : Printer := ⟨fun _ _ s => (s, true)⟩

/-- `f.write_str(t)`. -/
def str (t : List Char) : Printer := ⟨fun _ w s => w s t⟩

/-- `a?; b`. -/
def seq (a b : Printer) : Printer := ⟨fun σ w s =>
  match a.run σ w s with
  | (s, true) => b.run σ w s
  | (s, false) => (s, false)⟩

@[inherit_doc] infixr:60 " ?; " => seq

/-- `n` times the same. -/
def times : Nat → Printer → Printer
  | 0, _ => done
  | n + 1, p => p ?; times n p

end Printer

open Printer

/-- std `str::split_inclusive('\n')`. -/
def splitInclusive : List Char → List (List Char)
  | [] => []
  | c :: cs =>
    if c == '\n' then [c] :: splitInclusive cs
    else match splitInclusive cs with
      | [] => [[c]]
      | l :: ls => (c :: l) :: ls

/-- std `PadAdapter::write_str`: the loop over the lines. -/
def padLines {σ : Type} (w : Writer σ) : σ × Bool → List (List Char) → (σ × Bool) × Bool
  | s, [] => (s, true)
  | (s, onNewline), line :: lines =>
    match (if onNewline then w s [' ', ' ', ' ', ' '] else (s, true)) with
    | (s, false) => ((s, onNewline), false)
    | (s, true) =>
      let onNewline := line.getLast? == some '\n'
      match w s line with
      | (s, false) => ((s, onNewline), false)
      | (s, true) => padLines w (s, onNewline) lines

/-- std `PadAdapter`: a writer with the flag `on_newline`. -/
def padWriter {σ : Type} (w : Writer σ) : Writer (σ × Bool) := fun s t => padLines w s (splitInclusive t)

/-- Print through a new `PadAdapter`. -/
def Printer.indent (p : Printer) : Printer := ⟨fun σ w s =>
  let r := p.run (σ × Bool) (padWriter w) (s, true)
  (r.1.1, r.2)⟩

/-- std `Formatter::pad` with `Formatter::padding` and `PostPadding::write`. -/
def padTo (o : FmtOpts) (t : List Char) : Printer :=
  if o.width.isNone && o.precision.isNone then str t
  else
    let t := o.cut t
    match o.width with
    | none => str t
    | some width =>
      if t.length < width then
        let padding := width - t.length
        let pre := match o.align with
          | none => 0
          | some .left => 0
          | some .right => padding
          | some .center => padding / 2
        times pre (str [o.fill]) ?; str t ?; times (padding - pre) (str [o.fill])
      else str t

/-! ## `Display` -/

/-- src/fallback.rs:910-917 `Display for Ident`. -/
def displayIdentTo (sym : List Char) (raw : Bool) : Printer :=
  (if raw then str ['r', '#'] else done) ?; str sym

mutual

/-- src/lib.rs:644-653 `Display for TokenTree`: src/fallback.rs:759-784 `Display for Group`, 910-917 `Display for Ident`,
1199-1203 `Display for Literal`, src/lib.rs:887-891 `Display for Punct`. -/
def displayTreeTo (o : FmtOpts) : TokenTree → Printer
  | .group d ts _ =>
    str (displayOpen d) ?;
    displayLoopTo o ts true false ?;
    (if d == .brace && !ts.isEmpty then str [' '] else done) ?;
    str (displayClose d)
  | .ident sym raw _ => displayIdentTo sym raw
  | .punct ch _ _ => padTo o [ch]
  | .literal repr _ => padTo o repr

/-- src/fallback.rs:225-246: the loop of `Display for TokenStream`. -/
def displayLoopTo (o : FmtOpts) : List TokenTree → (first joint : Bool) → Printer
  | [], _, _ => done
  | tt :: ts, first, joint =>
    (if !first && !joint then str [' '] else done) ?;
    displayTreeTo {} tt ?;
    displayLoopTo o ts false (jointAfter tt)

end

/-- src/fallback.rs:225-246 `Display for TokenStream`. -/
def displayTo (o : FmtOpts) (ts : TokenStream) : Printer := displayLoopTo o ts true false

/-- src/fallback.rs:219-223 `Display for LexError`. -/
def displayLexErrorTo : Printer := str displayLexError

/-! ## `Debug` -/

/-- std `DebugStruct::field`, for the fields in turn; the flag is `has_fields`. -/
def structFields (alternate : Bool) : Bool → List (List Char × Printer) → Printer
  | _, [] => done
  | hasFields, (name, value) :: fields =>
    (if alternate then
      (if hasFields then done else str [' ', '{', '\n']) ?;
      indent (str name ?; str [':', ' '] ?; value ?; str [',', '\n'])
    else
      str (if hasFields then [',', ' '] else [' ', '{', ' ']) ?; str name ?; str [':', ' '] ?; value) ?;
    structFields alternate true fields

/-- std `Formatter::debug_struct`, the fields, and `DebugStruct::finish`. -/
def debugStructTo (alternate : Bool) (name : List Char) (fields : List (List Char × Printer)) : Printer :=
  str name ?; structFields alternate false fields ?;
  (if fields.isEmpty then done else if alternate then str ['}'] else str [' ', '}'])

/-- std `DebugTuple::field`, for the fields in turn. -/
def tupleFields (alternate : Bool) : Bool → List Printer → Printer
  | _, [] => done
  | hasFields, value :: fields =>
    (if alternate then
      (if hasFields then done else str ['(', '\n']) ?; indent (value ?; str [',', '\n'])
    else
      str (if hasFields then [',', ' '] else ['(']) ?; value) ?;
    tupleFields alternate true fields

/-- std `Formatter::debug_tuple` with a name, the fields, and `DebugTuple::finish`. -/
def debugTupleTo (alternate : Bool) (name : List Char) (fields : List Printer) : Printer :=
  str name ?; tupleFields alternate false fields ?; (if fields.isEmpty then done else str [')'])

/-- std `DebugList::entries`. -/
def listEntries (alternate : Bool) : Bool → List Printer → Printer
  | _, [] => done
  | hasFields, value :: fields =>
    (if alternate then
      (if hasFields then done else str ['\n']) ?; indent (value ?; str [',', '\n'])
    else
      (if hasFields then str [',', ' '] else done) ?; value) ?;
    listEntries alternate true fields

/-- std `Formatter::debug_list`, the entries, and `DebugList::finish`. -/
def debugListTo (alternate : Bool) (entries : List Printer) : Printer :=
  str ['['] ?; listEntries alternate false entries ?; str [']']

/-- src/fallback.rs:695-703 `Debug for Span`. -/
def debugSpanTo (loc : Bool) (s : Span) : Printer :=
  if loc then str "bytes(".toList ?; str (natDec s.lo) ?; str "..".toList ?; str (natDec s.hi) ?; str [')']
  else str "Span".toList

/-- src/fallback.rs:705-716 `debug_span_field_if_nontrivial`. -/
def debugSpanFieldTo (loc : Bool) (s : Span) : List (List Char × Printer) :=
  if loc && s.isCallSite then []
  else if loc then [("span".toList, debugSpanTo loc s)] else []

/-- src/fallback.rs:920-940 `Debug for Ident`. -/
def debugIdentTo (loc alternate : Bool) (sym : List Char) (raw : Bool) (s : Span) : Printer :=
  if loc then
    debugStructTo alternate "Ident".toList (("sym".toList, displayIdentTo sym raw) :: debugSpanFieldTo loc s)
  else debugTupleTo alternate "Ident".toList [displayIdentTo sym raw]

/-- src/location.rs:7-15: derived `Debug` of `LineColumn`, without options for numbers. -/
def debugLineColumnTo (alternate : Bool) (lc : LineColumn) : Printer :=
  debugStructTo alternate "LineColumn".toList
    [("line".toList, str (natDec lc.line)), ("column".toList, str (natDec lc.column))]

/-- src/fallback.rs:59-62: derived `Debug` of `LexError`. -/
def debugLexErrorTo (loc alternate : Bool) (s : Span) : Printer :=
  debugStructTo alternate "LexError".toList [("span".toList, debugSpanTo loc s)]

section
variable [UnicodeTables]

/-- Characters one by one. -/
def charsTo : List Char → Printer
  | [] => done
  | c :: cs => str [c] ?; charsTo cs

/-- std `Debug for char`. -/
def debugCharTo (c : Char) : Printer :=
  str ['\''] ?; charsTo (if c = '"' then [c] else escapeDebug c) ?; str ['\'']

mutual

/-- src/lib.rs:656-672 `Debug for TokenTree`, with src/fallback.rs:786-794 `Debug for Group`, src/lib.rs:893-901
`Debug for Punct` and src/fallback.rs:1205-1212 `Debug for Literal`. -/
def debugTreeTo (loc alternate : Bool) : TokenTree → Printer
  | .group d ts s =>
    debugStructTo alternate "Group".toList
      (("delimiter".toList, str (debugDelimiter d)) ::
        ("stream".toList, str "TokenStream ".toList ?; debugListTo alternate (debugTreesTo loc alternate ts)) ::
        debugSpanFieldTo loc s)
  | .ident sym raw s =>
    debugStructTo alternate "Ident".toList (("sym".toList, displayIdentTo sym raw) :: debugSpanFieldTo loc s)
  | .punct ch sp s =>
    debugStructTo alternate "Punct".toList
      (("char".toList, debugCharTo ch) :: ("spacing".toList, str (debugSpacing sp)) :: debugSpanFieldTo loc s)
  | .literal repr s =>
    debugStructTo alternate "Literal".toList (("lit".toList, str repr) :: debugSpanFieldTo loc s)

/-- The entries of a stream. -/
def debugTreesTo (loc alternate : Bool) : List TokenTree → List Printer
  | [] => []
  | t :: ts => debugTreeTo loc alternate t :: debugTreesTo loc alternate ts

end

/-- src/fallback.rs:248-253 `Debug for TokenStream`. -/
def debugStreamTo (loc alternate : Bool) (ts : TokenStream) : Printer :=
  str "TokenStream ".toList ?; debugListTo alternate (debugTreesTo loc alternate ts)

end

end PM2
