import Verif.Model.SourceMap
import Verif.Model.LitCtor
/-!
# With `cfg(fuzzing)` (src/fallback.rs:197-201, 559-663, fuzz/fuzz_targets/parse_token_stream.rs)

Tools for fuzzing set this `cfg`. With `span_locations` it removes the source map: every text is lexed at the same
position, spans answer nothing, and `invalidate_current_thread_spans` (src/fallback.rs:339-343) does nothing. Without `span_locations` it changes nothing.
-/

namespace PM2.Fuzzing
section
variable [UnicodeTables]

/-- src/fallback.rs:199-200: `get_cursor`. -/
def getCursor (src : List Char) : Cursor Nat := ⟨src, 1⟩

/-- src/fallback.rs:83-94 `TokenStream::from_str_checked`. -/
def fromStr (src : List Char) : Res Span (List TokenTree) := fromStrAt src (getCursor src).off

/-- src/fallback.rs:972-1000 `Literal::from_str_checked`. -/
def literalFromStr (src : List Char) : Res Span (List Char × Span) := literalFromStrAt src (getCursor src).off

end

/-- fuzz/fuzz_targets/parse_token_stream.rs:61-67 `do_fuzz`, run outside of a macro, with the parser that it tests. -/
def doFuzz (parse : List Char → Res Span (List TokenTree)) (bytes : List UInt8) : Res Unit Unit :=
  if bytes.length ≤ 199 then
    match fromUtf8 bytes.length bytes with
    | (string, _, none) =>
      match parse string with
      | .ok _ => .ok ()
      | .err _ => .ok ()
      | .panic => .panic
      | .diverge => .diverge
    | (_, _, some _) => .ok ()
  else .ok ()

/-- src/fallback.rs:560-561 `Span::byte_range`. -/
def byteRange (_ : Span) : Nat × Nat := (0, 0)

/-- src/fallback.rs:575-576 `Span::start`. -/
def start (_ : Span) : LineColumn := ⟨0, 0⟩

/-- src/fallback.rs:588-589 `Span::end`. -/
def end_ (_ : Span) : LineColumn := ⟨0, 0⟩

/-- src/fallback.rs:601-602 `Span::file`. -/
def file (_ : Span) : List Char := "<unspecified>".toList

/-- src/fallback.rs:623-627 `Span::join`. -/
def join (_ _ : Span) : Option Span := none

/-- src/fallback.rs:650-651 `Span::source_text`. -/
def sourceText (_ : Span) : Option (List Char) := none

end PM2.Fuzzing
