import Verif.Model.Parse
/-!
# Without `span_locations`

The default configuration of the crate outside of tests: no positions are kept, there is no source map
and a `fallback::Span` has no fields. The lexer is the one of `Verif/Model/Parse.lean` at positions of
type `Unit`.
-/

namespace PM2.NoSpan
variable [UnicodeTables]

/-- src/fallback.rs:83-94 `TokenStream::from_str_checked`, with the cursor of src/fallback.rs:214-217
`get_cursor`. -/
def fromStr (src : List Char) : Res Span (List TokenTree) := fromStrAt src ()

/-- src/fallback.rs:972-1000 `Literal::from_str_checked`, with the same cursor. -/
def literalFromStr (src : List Char) : Res Span (List Char × Span) := literalFromStrAt src ()

end PM2.NoSpan
