import json,sys
P=[]
def p(title,statement,quantifier,why,anchors):
    P.append(dict(id="C%02d"%(len(P)+1),title=title,statement=statement,quantifier=quantifier,why_tests_cant=why,anchors=anchors))

p("Parsing is total",
  "TokenStream::from_str never panics and always terminates: for every string it returns either Ok or Err(LexError), as long as the thread's 32-bit source-location space is not exhausted.",
  "every Unicode string, every prior history of the thread's source map that leaves room for the text",
  "The lexer slices UTF-8 text at byte offsets, indexes byte arrays, decrements counters and calls panicking constructors; a single bad offset on one unlucky string panics. Fuzzing samples inputs, it cannot exclude all of them.",
  ["src/parse.rs: token_stream, Cursor::advance, block_comment, byte, cooked_string, raw_string","src/fallback.rs: TokenStream::from_str_checked, get_cursor"])
p("Literal parsing is total",
  "Literal::from_str never panics and always terminates, for every string.",
  "every Unicode string",
  "Same slicing hazards as token streams, on an unbounded input space.",
  ["src/fallback.rs: Literal::from_str_checked","src/parse.rs: literal"])
p("Printing then parsing is lossless",
  "For every token stream whose tokens are individually valid (identifiers accepted by Ident::new/new_raw, non-negative literals accepted by Literal::from_str, no None-delimited group) and whose Joint puncts are followed by something they can join with, parsing to_string() succeeds and gives back the same stream modulo spans.",
  "every well-formed token stream of any length and nesting depth",
  "The set of token streams is infinite and each adjacent pair of tokens interacts through lexer lookahead.",
  ["src/fallback.rs: impl Display for TokenStream, impl Display for Group","src/parse.rs: token_stream, leaf_token","src/lib.rs: impl Display for TokenStream (doc comment)"])
p("Parse-print-parse is a fixed point",
  "If TokenStream::from_str(s) returns Ok(t) then from_str(t.to_string()) returns Ok(t') with t' equal to t modulo spans.",
  "every string accepted by the parser",
  "Every accepted source text is an input; unit tests check a handful of snippets.",
  ["src/parse.rs: token_stream","src/fallback.rs: impl Display for TokenStream"])
p("Whitespace and plain comments are insignificant between tokens",
  "Writing the tokens of a well-formed stream with any whitespace and non-doc comments (line, block, nested) between them, instead of single spaces, parses to the same stream modulo spans.",
  "every well-formed stream and every choice of separators",
  "Separators are unbounded strings, including arbitrarily nested block comments.",
  ["src/parse.rs: skip_whitespace, block_comment, take_until_newline_or_eof, is_whitespace"])
p("The parse covers the source text exactly",
  "If parsing succeeds, the source text is, in order, the texts of the tokens (and group delimiters and doc comments) separated only by whitespace and non-doc comments: nothing is dropped, duplicated or reordered.",
  "every accepted string",
  "A dropped or reordered token can appear only for particular contexts; the quantifier is over all texts.",
  ["src/parse.rs: token_stream, skip_whitespace, leaf_token"])
p("Delimiters are balanced",
  "A successful parse pairs every opening delimiter of the source with a closing delimiter of the same kind, properly nested, and no parsed group is None-delimited; an unclosed, unopened or mismatched delimiter makes the parse fail.",
  "every string",
  "Nesting depth is unbounded.",
  ["src/parse.rs: token_stream (stack)"])
p("Nested block comments end at the matching terminator",
  "A block comment extends to the terminator that balances its opener, counting nested comments, and an unterminated block comment makes the parse fail rather than being skipped.",
  "every string starting with a block comment opener, any nesting depth",
  "Nesting depth and comment content are unbounded.",
  ["src/parse.rs: block_comment, skip_whitespace"])
p("Doc comments become doc attributes",
  "An outer doc comment parses to exactly the tokens # [doc = \"text\"] and an inner one to # ! [doc = \"text\"], where the literal's str_value is exactly the comment's text, and every token carries the span of the comment.",
  "every doc comment text without a bare carriage return, in both line and block form",
  "The comment text is arbitrary Unicode and is re-escaped into a string literal.",
  ["src/parse.rs: doc_comment, doc_comment_contents","src/fallback.rs: Literal::string"])
p("A doc comment with a bare carriage return is rejected",
  "A doc comment whose text contains a carriage return that is not followed by a line feed is never turned into a doc attribute; parsing such a source fails.",
  "every doc comment text containing a bare CR",
  "Position of the CR inside an arbitrary text is unbounded.",
  ["src/parse.rs: doc_comment"])
p("Punct spacing reflects adjacency",
  "A parsed punct other than ' is Joint exactly when the character right after it in the source is a punctuation character that does not start a comment; otherwise it is Alone.",
  "every accepted string and every punct in it",
  "Depends on arbitrary following text.",
  ["src/parse.rs: punct, punct_char"])
p("Lifetime quotes are always Joint and attached to a name",
  "A parsed ' punct is always Joint and is immediately followed in the source, and in the stream, by the token whose text starts with an identifier.",
  "every accepted string",
  "Depends on arbitrary following text; char literals and lifetimes share a prefix.",
  ["src/parse.rs: punct, character"])
p("Identifiers are maximal",
  "A parsed identifier's text is one XID_Start-or-underscore character followed by XID_Continue characters (after r# if raw), the next source character is not XID_Continue, and raw identifiers are never _, self, Self, super or crate.",
  "every accepted string and identifier in it",
  "Identifier length and Unicode content are unbounded.",
  ["src/parse.rs: ident, ident_any, ident_not_raw"])
p("Accepted string literals are well-formed",
  "No accepted cooked or raw string, byte string or C string literal contains a carriage return that is not followed by a line feed; accepted byte (raw) string literals contain only ASCII between the quotes; accepted C (raw) string literals contain no NUL character.",
  "every accepted literal text",
  "Literal contents are unbounded.",
  ["src/parse.rs: cooked_string, raw_string, cooked_byte_string, raw_byte_string, cooked_c_string, raw_c_string"])
p("Raw strings end at the first matching terminator",
  "A raw string literal with n hashes extends to the first quote followed by n hashes; the content contains no earlier such terminator; more than 255 hashes is rejected.",
  "every raw string literal, every content and hash count",
  "Content and hash count are unbounded.",
  ["src/parse.rs: delimiter_of_raw_string, raw_string, raw_byte_string, raw_c_string"])
p("Parsing does not depend on earlier parses",
  "The tokens (kinds, text, spacing, delimiters) produced for a text are the same whatever was parsed before on the thread; only span positions differ, and they differ by a constant shift.",
  "every string and every two source-map histories",
  "Histories are unbounded.",
  ["src/fallback.rs: get_cursor, SourceMap::add_file","src/parse.rs: Cursor::advance"])
p("LexError spans are usable",
  "When TokenStream::from_str fails, LexError::span() is a position inside the text just parsed (never a foreign file and never the call site), and calling start() or end() on it does not panic.",
  "every rejected string and source-map history",
  "Every rejected text is an input.",
  ["src/parse.rs: lex_error, token_stream","src/fallback.rs: SourceMap::find"])
p("Literal::string round-trips every string",
  "For every string s, Literal::string(s) prints to text that lexes as exactly that one literal, and its str_value is Ok(s).",
  "every Unicode string",
  "All scalar values in all positions, including NUL before digits, quotes, control and grapheme-extending characters.",
  ["src/fallback.rs: Literal::string, escape_utf8","src/lib.rs: Literal::str_value","src/rustc_literal_escaper.rs: unescape_str"])
p("Literal::byte_string round-trips every byte sequence",
  "For every byte sequence b, Literal::byte_string(b) prints to text that lexes as exactly that one literal, and its byte_str_value is Ok(b).",
  "every byte sequence of any length",
  "Unbounded sequences; the encoding of a NUL depends on the next byte.",
  ["src/fallback.rs: Literal::byte_string","src/lib.rs: Literal::byte_str_value"])
p("Literal::c_string round-trips every C string",
  "For every NUL-free byte sequence b, valid UTF-8 or not, Literal::c_string(b) prints to text that lexes as exactly that one literal, and its cstr_value is Ok(b followed by NUL).",
  "every NUL-free byte sequence",
  "Includes every way a byte sequence can fail to be UTF-8, at every position.",
  ["src/fallback.rs: Literal::c_string","src/lib.rs: Literal::cstr_value"])
p("Literal::character round-trips every char",
  "For every char c, Literal::character(c) prints to text that lexes as exactly that one literal, and unescaping its contents gives c.",
  "every Unicode scalar value",
  "1.1 million values and all Unicode table versions (printability is a table lookup).",
  ["src/fallback.rs: Literal::character","src/rustc_literal_escaper.rs: unescape_char"])
p("Literal::byte_character round-trips every byte",
  "For every byte b, Literal::byte_character(b) prints to text that lexes as exactly that one literal, and unescaping its contents gives b.",
  "every u8",
  "Also quantifies over every context the literal is printed in.",
  ["src/fallback.rs: Literal::byte_character"])
p("Integer literals print their value",
  "For every integer n, the suffixed/unsuffixed integer constructors print the decimal representation of n followed by the type suffix; for n >= 0 the text lexes as exactly one literal token, and for n < 0 Literal::from_str accepts it verbatim while a token stream splits it into - and the absolute value.",
  "every integer of every supported width (proved for all integers)",
  "128-bit domains cannot be enumerated.",
  ["src/fallback.rs: suffixed_numbers!, unsuffixed_numbers!, push_token_from_proc_macro, Literal::from_str_checked"])
p("Float literals are one token and unsuffixed ones contain a dot",
  "For every finite non-negative float, the unsuffixed constructor's text contains a '.', and both suffixed and unsuffixed texts lex as exactly one literal.",
  "every finite float, assuming std prints it as digits with optional fraction",
  "2^64 values.",
  ["src/fallback.rs: f32_unsuffixed, f64_unsuffixed, suffixed_numbers!"])
p("Literal::from_str is verbatim",
  "Literal::from_str(s) accepts s exactly when s is one whole literal token, optionally preceded by - directly before a digit; the result prints back as s, character for character; surrounding whitespace or comments are rejected.",
  "every string",
  "Every string is an input.",
  ["src/fallback.rs: Literal::from_str_checked"])
p("Accepted string literals have a value",
  "Every accepted, unsuffixed string (resp. byte string, C string) literal containing no carriage return has an Ok str_value (resp. byte_str_value, cstr_value): the lexer and the unescaper agree on what is valid.",
  "every accepted literal text",
  "Two independent implementations of the escape grammar must agree on an infinite language.",
  ["src/parse.rs: cooked_string, cooked_byte_string, cooked_c_string, backslash_u, backslash_x_char, trailing_backslash","src/rustc_literal_escaper.rs: Unescape","src/lib.rs: str_value, cstr_value, byte_str_value"])
p("Literal value accessors are mutually exclusive",
  "For every literal, at most one of str_value, byte_str_value and cstr_value returns something other than InvalidLiteralKind, and none of the three panics on any literal text.",
  "every literal text",
  "The accessors slice the text at fixed offsets; the text is arbitrary.",
  ["src/lib.rs: str_value, cstr_value, byte_str_value, get_raw"])
p("String literal values follow the language's escape rules",
  "When str_value succeeds on a cooked literal, the value is the concatenation of the meanings of its pieces: ordinary characters stand for themselves, \\n \\r \\t \\\\ \\0 \\' \\\" for the corresponding control/quote character, \\xHH for the ASCII character, \\u{...} for the scalar value, and backslash-newline plus following whitespace for nothing.",
  "every literal text",
  "Unbounded contents.",
  ["src/rustc_literal_escaper.rs: Unescape::unescape, unescape_1, hex_escape, unicode_escape, skip_ascii_whitespace","src/lib.rs: str_value"])
p("Ident::new accepts exactly the identifiers",
  "Ident::new(s, span) succeeds exactly when s is non-empty, starts with XID_Start or underscore, and continues with XID_Continue; otherwise it panics.",
  "every string",
  "Every string is an input.",
  ["src/fallback.rs: Ident::new_checked, validate_ident"])
p("Ident::new_raw accepts exactly the identifiers that can be raw",
  "Ident::new_raw(s, span) succeeds exactly when Ident::new would and s is none of _, super, self, Self, crate.",
  "every string",
  "Every string is an input.",
  ["src/fallback.rs: Ident::new_raw_checked, validate_ident_raw"])
p("Ident equality, ordering, hashing and printing agree",
  "For identifiers made by the API: a == b iff they print the same; a == s (a string) iff a prints as s; cmp is a total order consistent with ==; equal identifiers feed equal data to the hasher.",
  "every pair/triple of identifiers, raw or not, and every string",
  "Quantifies over all pairs and triples; raw and non-raw identifiers are compared through different code.",
  ["src/fallback.rs: impl PartialEq for Ident, impl PartialEq<T> for Ident, impl Display for Ident","src/lib.rs: impl Ord for Ident, impl Hash for Ident"])
p("Constructed identifiers lex back to themselves",
  "If Ident::new(s) or Ident::new_raw(s) succeeds, parsing the printed identifier yields exactly that one identifier; conversely if parsing a string yields exactly one non-raw identifier that prints as that string, Ident::new accepts it.",
  "every string",
  "Every string is an input; r, b, c prefixes interact with string literal prefixes.",
  ["src/fallback.rs: validate_ident","src/parse.rs: ident, leaf_token"])
p("Punct::new accepts exactly the characters the lexer does",
  "Punct::new(c) succeeds exactly for the 22 Rust punctuation characters, and this is exactly the set of characters the lexer can turn into a punct.",
  "every char",
  "Two separately written tables; one mismatch makes the parser panic.",
  ["src/lib.rs: Punct::new","src/parse.rs: punct_char"])
p("Clones of token streams are independent",
  "Under any interleaving of clone, extend, iterate, group construction and drop on any number of handles, each handle observes exactly the tokens a value-semantics (copying) implementation would give; in particular mutating one handle never changes another.",
  "every operation history over any number of handles",
  "Copy-on-write depends on reference counts, hence on the whole history.",
  ["src/rcvec.rs: make_mut, get_mut, make_owned","src/fallback.rs: TokenStream::take_inner, impl Extend, impl FromIterator"])
p("Collecting and extending concatenate in order",
  "Collecting or extending from tokens or from streams yields the concatenation of the inputs in order (with negative literals split), new() is the identity, and is_empty agrees with having no tokens.",
  "every list of tokens and streams",
  "Lists are unbounded.",
  ["src/fallback.rs: impl FromIterator, impl Extend, impl From<TokenTree>"])
p("A token stream never holds a negative literal",
  "No token stream obtainable from the API (parsing, collecting, extending, grouping) contains a literal token whose text starts with -; pushing such a literal yields a - Alone punct and the positive literal, both with the literal's span.",
  "every sequence of API operations",
  "Invariant over all operation histories.",
  ["src/fallback.rs: push_token_from_proc_macro","src/parse.rs: literal"])
p("Dropping a stream frees exactly what it solely owns",
  "Dropping a token stream terminates without recursing through nested groups, releases every nested stream that has no other owner exactly once, and leaves every stream still reachable from another handle intact.",
  "every sharing structure and nesting depth",
  "Sharing graphs and depths are unbounded.",
  ["src/fallback.rs: impl Drop for TokenStream","src/rcvec.rs: get_mut, take"])
p("Iteration yields the tokens in order with exact size hints",
  "Iterating a stream yields exactly its tokens in order, shallowly, and size_hint is exact at every point of the iteration.",
  "every stream and every iteration prefix",
  "Streams are unbounded.",
  ["src/rcvec.rs: RcVecIntoIter","src/lib.rs: token_stream::IntoIter"])
p("Printing is compositional",
  "Printing the concatenation of two streams is the concatenation of their printings, with one space between unless either is empty or the first ends with a Joint punct; a group prints as its delimiters around its contents, with inner spaces exactly for braces.",
  "every two streams",
  "Streams are unbounded.",
  ["src/fallback.rs: impl Display for TokenStream, impl Display for Group"])
p("Files in the source map never overlap",
  "After any history of parses and invalidations on a thread, distinct parsed texts occupy disjoint, separated position ranges, none containing position 0, and every position of a parsed text resolves to that text.",
  "every history of parses and invalidations within the 32-bit space",
  "Histories are unbounded.",
  ["src/fallback.rs: SourceMap::add_file, next_start_pos, find, invalidate_current_thread_spans"])
p("Line and column are correct",
  "Span::start()/end() of a position in a parsed text report line = 1 + number of line feeds before it and column = number of characters since the last line feed.",
  "every text, every position in it",
  "Texts are unbounded; the implementation uses binary search over precomputed offsets.",
  ["src/fallback.rs: FileInfo::offset_line_column, lines_offsets"])
p("byte_range is exact whatever was queried before",
  "Span::byte_range() of a span in a parsed text is the UTF-8 byte range of those characters in that text, regardless of any earlier byte_range/source_text queries.",
  "every text, span and history of earlier queries",
  "A lazily filled cache with forward and backward scanning makes the result depend on the query history.",
  ["src/fallback.rs: FileInfo::byte, byte_range"])
p("source_text of a token is its text",
  "For every identifier, punct and literal obtained by parsing (not from a doc comment), span().source_text() is Some of exactly to_string(); for a group it is the source slice from its opening to its closing delimiter.",
  "every accepted string, every token, every history",
  "All texts, all tokens.",
  ["src/parse.rs: token_stream","src/fallback.rs: Span::source_text, FileInfo::source_text"])
p("Spans are nested and ordered",
  "In a parsed stream sibling tokens have ordered, non-overlapping spans (tokens of one doc comment share one span), the contents of a group lie strictly between its delimiters, and all spans lie in the parsed text.",
  "every accepted string",
  "All texts, any nesting depth.",
  ["src/parse.rs: token_stream"])
p("span_open and span_close are the delimiters",
  "For every parsed group not from a doc comment, span_open().source_text() is the opening delimiter and span_close().source_text() the closing one; delim_span agrees with them.",
  "every accepted string and group",
  "All texts.",
  ["src/fallback.rs: Group::span_open, span_close, Span::first_byte, last_byte","src/extra.rs: DelimSpan"])
p("Span::join",
  "join of two spans from the same text is the smallest span covering both; joining spans of different texts gives None; join never panics on spans of the current source map.",
  "every two valid spans",
  "All histories and spans.",
  ["src/fallback.rs: Span::join, SourceMap::find"])
p("Literal::subspan",
  "subspan(range) never panics for any range of usize bounds; it is Some exactly when the range is non-reversed and fits, and the result covers the characters at those offsets within the literal's span.",
  "every span and every range with any bound kinds",
  "Range bounds range over all usize values including overflow edges.",
  ["src/fallback.rs: Literal::subspan"])
p("Call-site spans are inert",
  "For Span::call_site(): source_text is None, byte_range is 0..0, start and end are line 1 column 0, file is <unspecified>, in every history; no token of a parsed text ever has this span.",
  "every history",
  "Histories are unbounded.",
  ["src/fallback.rs: Span::call_site, is_call_site, SourceMap::filepath"])
p("Span::file identifies the parse",
  "Span::file() is '<parsed string i>' where i counts parses since the last invalidation, so spans of different texts in the map never report the same file and spans of the same text always do.",
  "every history",
  "Histories are unbounded.",
  ["src/fallback.rs: SourceMap::filepath, find"])
p("Invalidation resets and only resets",
  "After invalidate_current_thread_spans the source map behaves as a fresh one: later parses get the same spans and answers as on a new thread.",
  "every history before and after",
  "Histories are unbounded.",
  ["src/fallback.rs: invalidate_current_thread_spans","src/extra.rs: invalidate_current_thread_spans"])
p("set_span changes only that token's span",
  "set_span on a token changes span() to the new span and nothing else: printing, kind, text, spacing and the spans of a group's contents are unchanged.",
  "every token and span",
  "Tokens are unbounded trees.",
  ["src/lib.rs: TokenTree::set_span","src/fallback.rs: Group::set_span, Ident::set_span, Literal::set_span"])
p("LineColumn is ordered by position",
  "LineColumn's order is the lexicographic total order on (line, column), consistent with equality, and for positions in one text earlier positions have smaller LineColumn, so start() <= end().",
  "every pair of line/columns and every two positions of every text",
  "All texts and positions.",
  ["src/location.rs: impl Ord for LineColumn","src/fallback.rs: offset_line_column"])
p("Span methods never panic on live spans",
  "Every span reachable from parsing and the span operations (join, subspan, span_open/close, resolved_at, located_at) since the last invalidation can be queried with start, end, byte_range, source_text, file and join without panicking.",
  "every history of parses and span operations since the last invalidation",
  "The lookups assert on and index into the source map; safety depends on the whole history.",
  ["src/fallback.rs: SourceMap::find, FileInfo::offset_line_column, byte, source_text"])
p("Sequential force/unforce is respected",
  "In a single-threaded history, after fallback::force() the crate uses the fallback until unforce(); otherwise it uses the compiler API iff proc_macro::is_available() said so at detection; detection terminates.",
  "every sequence of force, unforce and queries",
  "Histories are unbounded.",
  ["src/detection.rs: inside_proc_macro, force_fallback, unforce_fallback, initialize","src/fallback.rs: force, unforce"])
p("Concurrent detection is consistent",
  "With any number of threads racing on first use (and no force/unforce), every query returns whether the compiler API is available, detection runs once, and no query loops forever.",
  "every interleaving of any number of threads",
  "Schedules are unbounded.",
  ["src/detection.rs: inside_proc_macro, initialize, WORKS, INIT"])
p("Deferred appends are unobservable",
  "In compiler mode, buffering appended tokens (DeferredTokenStream) is unobservable: any sequence of extend/collect/clone/convert gives the same tokens as appending immediately.",
  "every operation sequence",
  "Histories are unbounded.",
  ["src/wrapper.rs: DeferredTokenStream, evaluate_now, impl Extend, impl FromIterator"])
p("No compiler/fallback mismatch in a homogeneous history",
  "If all values are created while the detection mode does not change, no operation hits the 'compiler/fallback mismatch' panic, and no value of the other mode appears. A call on values of two modes panics with the mismatch, except that a fallback stream takes compiler tokens, a Punct takes any span, and spans of two modes have no join and are unequal.",
  "every operation sequence in one mode; every pair of values of different modes",
  "Histories are unbounded.",
  ["src/wrapper.rs: mismatch, unwrap_nightly, unwrap_stable, set_span, FromIterator, Extend"])
p("Compiler-mode parsing is pre-validated",
  "In compiler mode from_str returns Err for every text the fallback lexer rejects, without handing it to the compiler, and a panic inside the compiler's parser becomes an Err.",
  "every text and every compiler behaviour",
  "Quantifies over every text and every compiler.",
  ["src/fallback.rs: FromStr2::from_str_checked","src/wrapper.rs: TokenStream::from_str_checked, Literal::from_str_checked"])
p("Escape error ranges partition the literal",
  "The source ranges reported while unescaping are in bounds, in increasing order and non-overlapping for units, fall on character boundaries, and together with skipped line continuations cover the literal's contents.",
  "every literal content, all literal kinds",
  "Contents are unbounded; the ranges are computed by subtracting byte lengths.",
  ["src/rustc_literal_escaper.rs: Unescape::unescape, CheckRaw::check_raw, check_for_errors"])
p("Byte order mark is stripped once",
  "from_str ignores one leading U+FEFF: parsing BOM+s gives the same tokens as parsing s (for s not itself starting with a BOM), with spans shifted by one.",
  "every string",
  "Every string is an input.",
  ["src/fallback.rs: TokenStream::from_str_checked"])
p("Parsing a concatenation",
  "If text a parses on its own and b does not begin with a byte order mark, then parsing a, a line feed and b gives the tokens of a followed by the tokens of b with spans moved by the length of a plus one; it fails iff b fails.",
  "every text a that parses and every text b without a leading byte order mark",
  "Both texts are unbounded; an open comment, string or delimiter state could leak across the seam.",
  ["src/parse.rs: token_stream, skip_whitespace, leaf_token"])
p("Character and byte literals denote what the reference says",
  "unescape_char/unescape_byte succeed on exactly the contents that denote one character/byte, with that value; every content the lexer accepts between single quotes unescapes, except an unescaped quote, line feed, carriage return or tab.",
  "every content",
  "Contents are unbounded (hex digits, underscores), and two independent implementations (lexer, unescaper) must agree.",
  ["src/rustc_literal_escaper.rs: unescape_char, unescape_byte, Unescape::unescape_single","src/parse.rs: character, byte, backslash_x_char, backslash_u"])
p("Literal::from_str accepts exactly the literal grammar",
  "Literal::from_str accepts a text iff it is a string, byte string, C string, byte, character, integer or float literal with an optional suffix by an independent grammar, or a number after a minus sign.",
  "every string",
  "Every string is an input; float, integer and suffix rules overlap (1e, 1.foo, 0b12, 1e_+5).",
  ["src/fallback.rs: Literal::from_str_checked","src/parse.rs: literal, float, float_digits, int, digits, word_break"])
p("The parser implements the lexical grammar",
  "TokenStream::from_str returns ts iff an independent declarative grammar of the lexical syntax derives ts (tokens, nesting, spacing, spans) from the text; it rejects the text iff the grammar derives nothing.",
  "every string",
  "A complete specification of the parser: both directions quantify over all texts and all streams.",
  ["src/parse.rs: token_stream, leaf_token, doc_comment, skip_whitespace, punct, ident, literal"])
p("The lexical grammar is unambiguous",
  "A text denotes at most one token stream by the grammar, and the literal at the beginning of a text is determined by the text.",
  "every text and every pair of derivations",
  "Ambiguity is a statement about pairs of derivations of arbitrary size.",
  ["src/parse.rs: token_stream, leaf_token, literal"])
p("Outside a macro the wrapper is the fallback",
  "Every program of public API calls without values of the compiler behaves as if each call were made to the fallback directly: same values, same source map, same panics. Calls on existing values do so in either mode.",
  "every initial state and every finite sequence of calls, each with its own mode",
  "Every method of the wrapper is a match that could take the wrong arm or pass the wrong argument; programs of any length combine them.",
  ["src/wrapper.rs: all impls","src/lib.rs: DelimSpan, Punct","src/extra.rs: DelimSpan"])
p("Inside a macro the wrapper is the compiler's API",
  "Every program of public API calls without values of the fallback behaves as if each call were made to proc_macro directly, except that texts are validated by the fallback first and Punct takes only the characters of Punct::new.",
  "every compiler, every initial state and every finite sequence of calls",
  "The compiler is arbitrary, and a test outside a macro cannot call it; appends are deferred, so state differs from what is observed.",
  ["src/wrapper.rs: all impls, DeferredTokenStream","src/lib.rs: DelimSpan, Punct","src/extra.rs: DelimSpan"])
p("Handing a fallback stream to the compiler keeps its tokens",
  "From<TokenStream> for proc_macro::TokenStream on a fallback stream parses its printed form; if the compiler accepts what the fallback accepts with like tokens, the conversion of a well-formed stream does not panic and gives like tokens.",
  "every well-formed stream, every compiler that agrees with the fallback's parser",
  "Streams are unbounded, and spacing decides whether printed tokens fuse.",
  ["src/wrapper.rs: From<TokenStream> for proc_macro::TokenStream","src/fallback.rs: Display for TokenStream"])
p("Parsing without span_locations",
  "With the cfg span_locations off, TokenStream::from_str is total on texts of any length, returns exactly the stream of the lexical grammar, and agrees with the span_locations build on acceptance and on every token.",
  "every string (no length bound) and every history of earlier parses",
  "The two builds are different programs; no test run contains both, and the length bound of the other build is 4 GiB.",
  ["src/parse.rs: Cursor::advance, token_stream, doc_comment, lex_error under cfg(not(span_locations))","src/fallback.rs: get_cursor"])
p("Literal::from_str without span_locations",
  "With the cfg span_locations off, Literal::from_str accepts exactly the literal grammar, on texts of any length, and keeps the text verbatim.",
  "every string",
  "Every string of any length is an input.",
  ["src/fallback.rs: Literal::from_str_checked, get_cursor under cfg(not(span_locations))"])
p("Round trip without span_locations",
  "With the cfg span_locations off, printing then parsing returns a stream iff it is well-formed; parse-print-parse is a fixed point; any spacing with whitespace and plain comments gives the stream back.",
  "every stream of any size, every text, every spacing",
  "Streams are unbounded, and here there is no bound on the length of the text.",
  ["src/parse.rs: token_stream","src/fallback.rs: Display for TokenStream"])
p("Unescaping reports exactly the faults of the text",
  "On every text, unescape_str, unescape_byte_str, unescape_c_str, check_raw_*, unescape_char, unescape_byte and check_for_errors report exactly what an independent specification of errors says: each piece, the kind of each error and how far it extends, and each line continuation warning, with byte ranges.",
  "every string and every mode",
  "Errors interact: an error decides where reading goes on, so every later report depends on every earlier one, for texts of any length.",
  ["src/rustc_literal_escaper.rs: all"])
p("Errors of the literal value accessors",
  "str_value, byte_str_value and cstr_value fail with FailedToUnescape(e) exactly on a cooked literal of their kind where e is the last error (not warning) in its text, and with InvalidLiteralKind exactly on texts that are neither a cooked nor a raw literal of their kind.",
  "every representation",
  "Both halves of each equivalence quantify over all texts.",
  ["src/lib.rs: Literal::str_value, cstr_value, byte_str_value, get_raw"])
p("check_for_errors agrees with the lexer",
  "For contents without carriage return, Literal::from_str accepts the literal spelled by Mode::prefix_noraw and Mode::in_double_quotes exactly if check_for_errors reports no error in that mode, except that a raw literal without hashes ends at a quote and that the lexer allows a quote, line feed or tab as itself between single quotes.",
  "every mode and every string without carriage return",
  "Two independent implementations of the same grammar are compared on all texts.",
  ["src/rustc_literal_escaper.rs: check_for_errors, Mode","src/parse.rs: literal_nocapture"])
p("Detection before is_available decides the same way",
  "With the cfg no_is_available (rustc before 1.57), where initialize tries a call under a swapped panic hook, the guarantees of sequential and racing detection still hold: ordered queries answer the last decision, detection runs at most once without force/unforce, and all queries agree.",
  "every execution of any number of threads, with any values that relaxed loads may return, while other threads set, take and run panic hooks",
  "Unboundedly many interleavings and threads.",
  ["src/detection.rs: initialize (no_is_available), inside_proc_macro, force_fallback, unforce_fallback"])
p("The panic hook survives detection",
  "With no_is_available: while unforce is not called, detections never overlap; if detections do not overlap and the program does not change the hook meanwhile, its hook is registered whenever no detection has taken it, detection prints nothing and does not panic. If detections overlap and none observes a race, the do-nothing hook is not left registered.",
  "every execution of any number of threads, for any addresses of the hooks",
  "Races between threads on a global; no test enumerates the interleavings.",
  ["src/detection.rs: initialize (no_is_available), INIT"])
p("Detection before is_available terminates",
  "With no_is_available every call of inside_proc_macro, force_fallback and unforce_fallback ends after at most twelve steps of its thread, or waits in call_once for a thread that can take a step; also when the Once is poisoned by the race panic.",
  "every execution of any number of threads",
  "Liveness over all interleavings.",
  ["src/detection.rs: inside_proc_macro, initialize (no_is_available)"])
p("The Debug text determines the stream",
  "With span_locations, two streams of valid tokens have the same {:?} text only if they are equal, spans included; the same for {:#?}, for single tokens and for LexError.",
  "all pairs of streams whose tokens at every depth are valid identifiers, puncts, literals or groups",
  "Injectivity is a statement about all pairs; nested separators, quotes in literals and multi-line literals under indentation are where two values could collide.",
  ["src/fallback.rs: Debug for TokenStream, Group, Literal, Span, LexError, debug_span_field_if_nontrivial","src/lib.rs: Debug for TokenTree, Punct"])
p("Debug without span_locations ignores exactly the spans",
  "With the cfg span_locations off, the Debug text of a stream is the one that the stream without spans has with the cfg on; two streams of valid tokens have the same text iff they are equal modulo spans. An identifier by itself prints Ident(x).",
  "all streams, all pairs of streams of valid tokens, both forms",
  "Same as for C78.",
  ["src/fallback.rs: Debug for Ident, debug_span_field_if_nontrivial"])
p("Layout of the Debug forms",
  "{:?} of a stream is one line with the fields of every token in order and commas between them. {:#?} of a stream is laid out line by line: four spaces for each level of nesting (also after a line feed inside a literal), one line for each field, each with a comma, and the span is left out exactly for the call site span. Spans, errors and positions have the forms of derived impls.",
  "every stream, at any depth, with and without span locations",
  "Nesting is unbounded and every level indents what is inside it once more.",
  ["src/fallback.rs: Debug for TokenStream, Group, Literal","src/lib.rs: Debug for TokenTree, Punct"])
p("Display ignores the options of the formatter inside streams",
  "Streams, groups and identifiers print the same under every width, precision, fill and alignment; puncts and literals by themselves are cut to the precision and padded to the width as the standard library pads strings.",
  "every stream and token, all formatter options",
  "All combinations of options and streams.",
  ["src/fallback.rs: Display for TokenStream, Group, Ident, Literal","src/lib.rs: Display for TokenTree, Punct"])
p("Literals that an older compiler cannot make",
  "Under a compiler without Literal::byte_character or Literal::c_string, Literal::byte_character and Literal::c_string inside a macro do not panic and give a compiler literal whose text denotes the byte, or the string with its terminating NUL, provided that the compiler's Literal::from_str accepts every single literal that the fallback lexes and keeps its text.",
  "all bytes; all C strings without interior NUL (whose literal fits in the position space); all compilers meeting the proviso; all states",
  "The fallback text is unwrapped without an error path, so one string that it writes badly would panic inside users' macros; older compilers are not in the test matrix of most users.",
  ["src/wrapper.rs: Literal::byte_character, Literal::c_string, Literal::from_str_unchecked","src/fallback.rs: FromStr2 for proc_macro::Literal"])
p("Conversions without the wrapper",
  "Without wrap_proc_macro, a compiler stream becomes a fallback stream iff its text lexes, and the conversion panics otherwise; a well-formed fallback stream is handed to the compiler without a panic, and comes back with the same tokens modulo spans, provided that compiler and fallback agree on what texts mean.",
  "all streams, all parse histories with room, all compilers meeting the proviso",
  "Both conversions unwrap the result of a parser; all streams must survive.",
  ["src/fallback.rs: TokenStream::from_str_unchecked, From<proc_macro::TokenStream> for TokenStream, From<TokenStream> for proc_macro::TokenStream"])
p("Parsing under cfg(fuzzing)",
  "With cfg(fuzzing) and span_locations a text gives the tokens, spans or error of a thread on which nothing was parsed before, hence those of any other thread moved by the texts parsed there; spans answer as the call site does, except for the line. The fuzz target panics exactly for inputs that are UTF-8 of at most 199 bytes and make the parser panic, and there are none.",
  "all texts with room in the position space, all parse histories, all byte inputs of the fuzz target, all parsers in its place",
  "The fuzzer tests a configuration that nobody ships; only a proof over all texts says that what it finds, and does not find, carries over.",
  ["src/fallback.rs: get_cursor, Span::byte_range, Span::start, Span::end, Span::file, Span::join, Span::source_text (cfg(fuzzing))","fuzz/fuzz_targets/parse_token_stream.rs: do_fuzz"])
p("The version of the compiler in the build script",
  "The minor version that rustc_minor_version reads is the number that `rustc --version` states after `rustc 1.`, and unknown output counts as the newest compiler. Every cfg is declared to a compiler that is not known to be older than 1.80, and none to an older one.",
  "all outputs of `rustc --version`, all environments",
  "The output of compilers and forks that do not exist yet cannot be tested.",
  ["build.rs: rustc_minor_version, main"])
p("The cfgs that the build script sets",
  "If the build script ends, each cfg is set exactly under its condition on features, compiler version, RUSTC_STAGE, RUSTC_BOOTSTRAP and probes, and at most once, with the name that the sources of the crate test for; on compilers that check names all tested names are declared. The combinations are ones that the crate compiles with: the compile_error about procmacro2_semver_exempt is reached exactly if the flag is given to the crate but not to the script.",
  "all features, environments, versions and results of probes",
  "A build sees one combination; CI sees a few.",
  ["build.rs: main","src/lib.rs: compile_error"])
p("The build script is run again when it must be",
  "If the script does not ask to be run again when RUSTC_BOOTSTRAP changes, no value of it gives other cfgs, for compilers on which the value 1 allows everything and which ignore it for stable code. The script asks for exactly the probe files that it compiles, and what happens to the others does not change what it prints.",
  "all environments, all pairs of values of RUSTC_BOOTSTRAP, all behaviours of compilers meeting the proviso",
  "Non-interference is about pairs of runs.",
  ["build.rs: main, compile_probe_unstable, compile_probe_stable, do_compile_probe"])
p("Commands and failures of the build script",
  "A probe is compiled by exactly one command, made of the non-empty wrappers in order, the compiler, the fixed arguments, the target and the encoded flags, with RUSTC_BOOTSTRAP removed unless it is considered; there is always a program to run. The script fails exactly if RUSTC is unset, or for a probe that it compiles OUT_DIR is unset or the directory cannot be made or removed (but for the errors that are tolerated).",
  "all environments and file system errors",
  "Errors of file systems are hard to provoke; flags and wrappers are arbitrary.",
  ["build.rs: do_compile_probe, cargo_env_var"])
p("Parsing with overflow checks off",
  "In a build without overflow checks (the default of release builds) and with span_locations, parsing never panics: the result is the stream that the lexical grammar derives from the text standing after the last file of the source map, or an error at the same place as on a fresh thread, with both ends of every span reduced to 32 bits. While the position space has room the results and the source map are those of a build with overflow checks.",
  "all texts of any length, all source maps with at least one file; all histories with room",
  "Wrapping around needs more than four billion characters on one thread; tests are run with overflow checks.",
  ["src/parse.rs: Cursor::advance","src/fallback.rs: SourceMap::next_start_pos, SourceMap::add_file, get_cursor, TokenStream::from_str_checked, Literal::from_str_checked"])
p("Span queries with overflow checks off",
  "For every source map and span, whatever their positions, Span::byte_range, Span::source_text, Span::start and Span::end give the same answer, fill the caches alike and panic alike in builds with and without overflow checks: no subtraction of theirs can underflow. After positions have wrapped around a query about a token just parsed can panic, and the text of an older token can change.",
  "all source maps and spans (lines and columns: fewer than 2^64 lines in a file); two cases by construction",
  "Wrapping around needs more than four billion characters on one thread; tests are run with overflow checks.",
  ["src/fallback.rs: Span::byte_range, Span::source_text, Span::start, Span::end, FileInfo::byte, FileInfo::offset_line_column, SourceMap::find","src/extra.rs: invalidate_current_thread_spans"])
p("Float literals read back as the same float",
  "For every bit pattern of an f32 or f64 the float constructors panic exactly on infinities and NaNs. For every finite float the text is a minus sign if the sign bit is set (negative zero included), then a decimal number that reads as one literal and that rounding to nearest, ties to even, maps to that float and to no other.",
  "all 2^32 and 2^64 bit patterns; all choices of digits that round to the float (std's shortest ones are one of them)",
  "2^64 values; the places of the point and of the zeros depend on the magnitude.",
  ["src/lib.rs: Literal::f64_unsuffixed, Literal::f64_suffixed, Literal::f32_unsuffixed, Literal::f32_suffixed","src/fallback.rs: f32_unsuffixed, f64_unsuffixed, suffixed_numbers!"])
p("Tokens and spans stay on their thread and may cross an unwinding boundary",
  "TokenStream, LexError, Span, TokenTree, Group, Punct, Ident, Literal, IntoIter and DelimSpan are neither Send nor Sync in any configuration and whatever the compiler's types are; Delimiter, Spacing and LineColumn have all auto traits; and all of them are UnwindSafe and RefUnwindSafe, also before std made Rc so, if the compiler's types are.",
  "both configurations, all assignments of traits to the compiler's types, old and new std",
  "Tests check one configuration of one compiler; in a build without the wrapper nothing but the marker keeps a span from another thread, whose source map it does not belong to.",
  ["src/marker.rs: ProcMacroAutoTraits","src/rcvec.rs: impl RefUnwindSafe for RcVec","src/lib.rs: TokenStream, LexError, Span, Group, Punct, Ident, Literal, IntoIter","src/extra.rs: DelimSpan"])
p("Turning span locations off changes no other result",
  "A program whose calls do not ask for positions (no line, column, byte range, file or source text, no join, subspan or span equality of spans of the fallback, no Debug of what has a span) has the same outcome with and without span_locations, call by call, for every value and every interleaving of compiler's and fallback's values, up to the spans themselves; and without span_locations no result at all depends on a position.",
  "all programs of any length, all states, both modes, all behaviours of the compiler; all texts as long as positions last",
  "The two configurations are compiled separately; a test suite runs in one of them.",
  ["src/fallback.rs: TokenStream, Literal, Group, Span","src/wrapper.rs: TokenStream, Span, Group, Literal","src/parse.rs: Cursor::advance"])
p("Programs only have spans of texts that the thread still holds",
  "A program of calls of the crate that never invalidates spans while it has some, and gives no span to another thread, has at every moment only spans of the fallback that are the call site or lie inside one of the texts parsed on the thread since the last invalidation, whatever trees, groups, streams, iterators and errors they are stored in.",
  "all programs of any length, both modes in any interleaving, all behaviours of the compiler",
  "Spans flow through every constructor, setter and container of the crate; tests look at few paths.",
  ["src/fallback.rs: Span, TokenStream, Group, Ident, Literal","src/wrapper.rs: Span, TokenStream, Group, Ident, Literal, LexError","src/extra.rs: DelimSpan, invalidate_current_thread_spans","src/lib.rs: Punct, TokenTree"])
p("The calls that panic",
  "For a program that has only live spans, a call panics exactly if: the positions are used up (parsers); the text is no identifier; the character is no punctuation (constructor, or a tree from the compiler's iterator); a span of the fallback is unwrapped; the compiler rejects what is printed or written for it; spans are invalidated inside of a macro; or values of both modes are mixed. Every other call returns, and every call ends.",
  "all programs of any length, both modes in any interleaving, all behaviours of the compiler, all texts",
  "Absence of panics over all values and histories is a universal claim.",
  ["src/lib.rs: Punct::new, Span::unwrap, Ident::new, Ident::new_raw, TokenStream, Literal, IntoIter","src/wrapper.rs: TokenStream, Span, Literal, Ident, Group, invalidate_current_thread_spans","src/fallback.rs: validate_ident, validate_ident_raw, Span, SourceMap"])
p("The spelling of literals made from values",
  "Literal::string, character, byte_character, byte_string and c_string write exactly one spelling: the escape of one letter for NUL (except before an octal digit), tab, line feed, carriage return and backslash; a backslash before the literal's own quote; characters that can be printed as themselves; other characters as \\u{…} in lower case without leading zeros; other bytes as \\x and two upper case digits. A C string spells a character wherever one is encoded in UTF-8, and the bytes that belong to none in hexadecimal.",
  "all texts, characters, bytes and byte sequences (without NUL for C strings), for any tables of printable characters",
  "The texts are unbounded, and broken UTF-8 comes in unboundedly many shapes.",
  ["src/fallback.rs: Literal::string, Literal::character, Literal::byte_character, Literal::byte_string, Literal::c_string, escape_utf8"])
p("The threads of a process use one implementation",
  "In a process of any number of threads, each running a program of calls of the crate and all sharing the detection: if nobody calls force or unforce, each thread behaves as if it ran alone with the implementation that the single detection found, no call hits the mismatch panic and all values are of this implementation. After an ordered history that decides for an implementation (say, by force), all threads that learn of it go on with it. In ordered histories with force and unforce, each call runs with what was decided last. Calls that do not ask inside_proc_macro() do not depend on it, and a call that waits for the answer is never stuck.",
  "all numbers of threads, all programs, all interleavings, all values that relaxed loads may return, all behaviours of the compiler",
  "Races between threads are not reproducible, and the programs are unbounded.",
  ["src/detection.rs: inside_proc_macro, force_fallback, unforce_fallback, initialize","src/wrapper.rs: TokenStream, Span, Literal, LexError, invalidate_current_thread_spans","src/lib.rs: Punct::new","src/fallback.rs: force, unforce"])
p("Parsing takes linear time",
  "Parsing a text of n bytes as a stream takes at most 215 n + 132 steps, and as a literal at most 32 n + 67, whether it is accepted or rejected, where every call, every iteration of a loop and every character that is copied, compared or counted is a step. The lexer tries one kind of token after the other and looks ahead (for comments without an end, exponents, suffixes, lifetimes), but no text makes it look at the same characters again and again.",
  "all texts, with and without span_locations, with and without overflow checks",
  "Quadratic behaviour appears on special texts only, which tests do not contain, and a test measures times of finitely many texts.",
  ["src/parse.rs: token_stream, leaf_token, skip_whitespace, block_comment, literal, float_digits, digits, ident_any, punct, doc_comment, Cursor::advance","src/fallback.rs: TokenStream::from_str_checked, Literal::from_str_checked"])
p("A parsed stream has linear size",
  "The stream that a text of n bytes is parsed to has at most 2 n trees at all depths, identifiers and literals of at most 6 n bytes in total, and groups nested at most n / 2 deep (all three bounds but the second are attained).",
  "all accepted texts, with and without span_locations, with and without overflow checks",
  "Doc comments become several tokens and a literal that is longer than the comment; the bound is over all texts.",
  ["src/parse.rs: token_stream, doc_comment, doc_comment_contents, literal, ident_any","src/fallback.rs: escape_utf8, Literal::string"])
p("The span of a lex error",
  "TokenStream::from_str fails exactly if the text is not a sequence of tokens of the grammar with all delimiters closed. The span of the error is then the empty one at the place up to which the text can be read as tokens and opened groups, where neither whitespace, comment, doc comment, token nor delimiter begins, or a delimiter that closes another than the innermost open one; if the text can be read to its end, it is that of the innermost delimiter that is open. There is exactly one such place.",
  "all texts and histories, with and without overflow checks",
  "The place depends on the whole text before it and on every lexer that is tried at it.",
  ["src/parse.rs: token_stream, lex_error", "src/fallback.rs: LexError"])
p("What is printed has linear size",
  "The text of a stream has at most as many bytes as its identifiers and literals together and five more for each tree at all depths. The text printed for a parsed stream has at most six times the bytes of the text parsed (a constant that is approached), so that, with the fixed point of C04, printing and parsing again and again does not let the text grow.",
  "all streams; all accepted texts, with and without span_locations",
  "Texts are unbounded, and nesting and escapes add to the length.",
  ["src/fallback.rs: Display for TokenStream, Group, Ident", "src/parse.rs: doc_comment"])
p("Parsing the source text of a token gives the token",
  "For every token of an accepted text, at any depth, and in every later state of the thread that still holds the text: source_text of an identifier, literal or group, parsed again, gives exactly that token, moved to the new place, whatever stood around it. That of a punct is its character and gives the punct with spacing Alone, except that a quote is rejected. That of a token of a doc comment is the comment and gives the whole attribute again, except that a line doc comment before a carriage return and a line feed is rejected.",
  "all accepted texts, all tokens at all depths, all histories of the thread in between",
  "Whether a text is read the same way depends on what follows it, and the texts, depths and histories are unbounded.",
  ["src/fallback.rs: Span::source_text, FileInfo::source_text, FileInfo::byte_range", "src/parse.rs: token_stream, leaf_token, doc_comment, take_until_newline_or_eof, punct, ident_any, literal"])
p("What the operations on token streams cost",
  "Counted step by step, an operation on streams, builders, iterators and trees takes a constant time and two steps for each token that it handles one by one; only cloning an iterator, extending by another vector, and changing or iterating over a stream that is shared handle tokens one by one, and those are the top-level tokens only. So cloning a stream takes constant time, and so does pushing to a stream that nobody shares. Dropping takes time linear in the number of tokens that leave the memory, and linear in the number of trees of the value that is dropped, whatever it shares. A whole program takes time linear in its length and the number of tokens handled one by one, with all drops included.",
  "all programs over streams, builders, iterators and trees; all values at all depths",
  "Sharing, nesting and sizes are unbounded; a test that measures time sees single cases.",
  ["src/rcvec.rs: RcVec::make_mut, RcVec::make_owned, RcVecBuilder, RcVecMut::push, RcVecMut::extend, RcVecMut::take, RcVecIntoIter", "src/fallback.rs: Drop for TokenStream, TokenStream::take_inner, push_token_from_proc_macro, Extend for TokenStream"])
p("What the source map costs",
  "Counted step by step, parsing a text of n bytes, with its registration in the source map, takes at most 217 n + 135 steps, whatever was parsed before. Line and column of an end of a span are found in time logarithmic in the number of texts and of lines; the file of a span and the join of two in time logarithmic in the number of texts (and the length of the name). A sequence of questions for byte ranges and source texts of spans of one text takes in total at most twice the way one travels from span to span, and a logarithmic time for each; so asking in the order of the text takes at most twice the length of the text and a logarithmic time for each, and asking again takes logarithmic time and the copying of the answer.",
  "all histories of a thread, all texts, spans and sequences of questions",
  "What a question costs depends on all questions before it, by way of the cache.",
  ["src/fallback.rs: get_cursor, SourceMap::add_file, SourceMap::find, FileInfo::offset_line_column, FileInfo::byte, FileInfo::byte_range, FileInfo::source_text, Span::start, Span::end, Span::file, Span::join, Span::source_text, TokenStream::from_str_checked, Literal::from_str_checked, lines_offsets"])
p("Printing to a writer that fails",
  "Display and Debug of streams, trees, identifiers, spans and errors hand their text to any fmt::Write in pieces that do not depend on it, and whose concatenation is the text that to_string gives. At the first error printing stops: the writer is not called again and the error is returned. So a writer that appends holds the whole text after Ok, and a part from its beginning after Err; printing into a bounded buffer succeeds exactly if the text fits. Display of a stream calls the writer at most four times for each tree.",
  "all streams, trees and writers, all points of failure, all options, with and without span_locations, plain and alternate form",
  "Writers fail at arbitrary points, the alternate form goes through an adapter for each level, and depth is unbounded.",
  ["src/fallback.rs: Display for TokenStream, Group, Ident, Literal, LexError, Debug for TokenStream, Group, Ident, Literal, Span, debug_span_field_if_nontrivial", "src/lib.rs: Display for TokenTree, Punct, Debug for TokenTree, Punct", "src/location.rs: LineColumn"])
p("The threads of a process before rustc 1.57",
  "In a process built by a compiler without proc_macro::is_available, of any number of threads that run programs of calls of the crate and share the detection, which takes the panic hook away for a while: each thread behaves as in a process with is_available (C97), or has ended in a panic of the detection. If nobody calls unforce or exchanges the panic hook during a detection there is no such panic at all. Each thread then runs with the one implementation found, without mismatch, and calls of histories ordered by happens-before run with what was decided last. Under the same conditions a call that panics while no detection has taken the hook is reported to the hook of the program. A call that waits for the detection is never stuck.",
  "all numbers of threads, all programs, all interleavings, all values that relaxed loads may return, all hooks that the program registers, all behaviours of the compiler",
  "Races between threads and panic hooks are not reproducible, and the programs are unbounded.",
  ["src/detection.rs: inside_proc_macro, force_fallback, unforce_fallback, initialize", "src/wrapper.rs: TokenStream, Span, Literal, LexError, invalidate_current_thread_spans", "src/lib.rs: Punct::new", "src/fallback.rs: force, unforce"])
p("The value of a literal is found in linear time and is shorter",
  "Counted step by step, str_value, byte_str_value and cstr_value of a literal of n bytes take at most 4 n + 12 steps, and check_for_errors of a text of n characters takes at most 3 n + 2 in every mode. What they return is shorter than the literal: by two bytes at least for strings and C strings (whose value ends with a NUL), by three for byte strings.",
  "all literals and all other texts, all modes",
  "Texts and escapes are unbounded.",
  ["src/lib.rs: Literal::str_value, Literal::cstr_value, Literal::byte_str_value, get_raw", "src/rustc_literal_escaper.rs: Unescape::unescape, Unescape::unescape_1, Unescape::unescape_single, CheckRaw::check_raw, unicode_escape, skip_ascii_whitespace, check_for_errors"])
p("The parser on the heap",
  "With streams as reference-counted vectors, parsing allocates one cell for the stream and one for each of its groups and no more, each with one owner, and leaves the caller's variables and all other cells as they were; the new stream is the one that the grammar gives. When the text does not parse, all that was built up to the error is freed, at any depth of open delimiters: the heap is as it was. Dropping the parsed stream also restores the heap. In a program that parses, and makes, clones, extends, iterates and drops streams, sharing is not observable, memory that was freed is not touched, and what is allocated is what the variables own.",
  "all programs of one thread over streams, builders, iterators, trees and parses; all texts",
  "Leaks on an error path are invisible to functional tests, and programs and nesting are unbounded.",
  ["src/parse.rs: token_stream, doc_comment", "src/fallback.rs: TokenStream::from_str_checked, TokenStreamBuilder, push_token_from_parser, Group::new, Drop for TokenStream", "src/rcvec.rs: RcVecBuilder, RcVec"])
p("Printing from the heap",
  "With streams as reference-counted vectors, Display and Debug of a stream, a tree or an iterator print what they print of its value, piece by piece, to every writer. Afterwards every cell is what it was, with the same count, although Debug clones the stream, iterates the clone and drops each tree, and also when the writer fails in the middle: nothing is freed too early, nothing is left behind, no cell is copied. Printing recurses exactly as deep as the groups are nested.",
  "all states of all programs of one thread; all variables; all writers, including those that fail; both forms, with and without span_locations",
  "Counts that are off by one after printing show only later, as a leak or as memory unsafety; programs, nesting and writers are unbounded.",
  ["src/fallback.rs: Display for TokenStream, Debug for TokenStream, Display for Group, Debug for Group, TokenStream::take_inner, IntoIterator for TokenStream", "src/lib.rs: Debug for IntoIter, Debug for TokenTree", "src/rcvec.rs: RcVec::make_owned, RcVec::clone, RcVecIntoIter"])
p("The API on the heap",
  "Every program of the public API outside macros (parsing, building, cloning, extending, collecting, iterating, grouping, printing, spans, identifiers, literals and their values), run with streams as reference-counted vectors, gives the results, panics and source map that it gives with streams as plain lists, whether a call is given a clone of a stream or tree or the value itself, and whenever variables are dropped. Giving a value is like giving a clone and dropping the value. At any time the allocated cells are those that the variables own; when the variables are dropped nothing is left. So the model of the wrapper on plain lists (C66) and the heap agree.",
  "all programs of one thread over all calls of the API, with clones or moves for each call and drops at any point",
  "Programs, sharing and nesting are unbounded; a wrong reference count shows only in some later call, or never in a functional test.",
  ["src/wrapper.rs: TokenStream, TokenTreeIter, Group, Ident, Literal, Span, LexError", "src/fallback.rs: TokenStream, FromIterator, Extend, IntoIterator, Group, push_token_from_proc_macro, Drop for TokenStream", "src/rcvec.rs: RcVec, RcVecBuilder, RcVecMut, RcVecIntoIter", "src/extra.rs: DelimSpan"])
p("The conditional definitions fit together",
  "Whenever the build script ends, the crate compiled with the cfgs that it printed, and with any setting of the cfgs that it never prints, has consistent conditional definitions: no name is defined twice, every conditional name that is used is defined where it is used, of two alternatives exactly one is compiled, and no conditional import is unused. The crate turns on no feature of the compiler that it refuses and calls no method of proc_macro that it lacks, provided that the probes are compiled truthfully, that RUSTC_BOOTSTRAP takes no feature away, and that what the exempt API uses beyond the probed methods comes with them. The second of these conditions is needed. With procmacro2_nightly_testing, compilation fails exactly if the compiler's API is wanted and its unstable part cannot be used.",
  "all hosts (environment, features, compiler versions, results of commands), all settings of the other cfgs, all compilers",
  "There are thousands of combinations of features, cfgs, compiler versions and environments; tests compile a few of them.",
  ["build.rs: main", "src/probe.rs", "src/probe/proc_macro_span.rs", "src/probe/proc_macro_span_location.rs", "src/probe/proc_macro_span_file.rs", "src/wrapper.rs: imports, Span, Literal", "src/fallback.rs: imports, Span, SourceMap, FromStr2", "src/lib.rs: compile_error!, modules, imports, Span, Literal", "src/extra.rs: invalidate_current_thread_spans, DelimSpan", "src/detection.rs: initialize"])
p("Iterators of the user, and panics that are caught",
  "Extending and collecting call iterators that are code of the user; they can call the crate again, on other streams, and can panic in any call of next, or in size_hint when the vector has to grow. Whatever they do, and whatever panics are caught, at any depth: extending has the result of first running the iterator to its end or to its panic and then appending all tokens that it returned, each split as otherwise; a stream that a panic interrupted has the tokens that were returned up to then, in particular those that it had; other streams are not changed, although they share memory with it; a collection that panics leaves nothing. What is allocated is what the variables own, so a panic that is caught leaks nothing. The same holds for the panic of the parser for want of positions. The crate does not panic in the middle of a change.",
  "all programs of one thread outside macros, with and without the wrapper: calls on streams, trees, builders and iterators, parses, extending and collecting from nested iterators, invalidation of spans, panics and their catching at any point; texts of fewer than 2^32 characters",
  "Tests with panicking iterators are rare; the programs and the points where they panic are unbounded, and a leak or a freed cell does not show in the result.",
  ["src/fallback.rs: Extend for TokenStream, FromIterator<TokenTree>, push_token_from_proc_macro, Drop for TokenStream", "src/rcvec.rs: RcVec::make_mut, RcVecMut::extend, RcVecMut::push, RcVecIntoIter", "src/wrapper.rs: FromIterator<TokenStream>, Extend"])
p("Iterators of the user and caught panics, in both modes",
  "The same for the public wrapper, where each stream is the compiler's or the fallback's and the compiler's streams defer their trees. Whatever iterators do and whatever panics are caught, at any depth, inside and outside of a macro: an extend that a panic interrupts is an extend with what the iterator had returned (for the compiler's own Extend<TokenStream>: what the compiler leaves, after the deferred trees were added, and with the deferred trees of the returned streams); a tree of the other mode panics, and the stream has got all the trees before it; so with a size_hint that panics between two tokens; no variable but the targets of calls changes; in one mode there is no mismatch, also after panics; deferring cannot be observed; and afterwards a call panics exactly if its documented condition holds.",
  "all programs of one thread: calls in either mode, extending and collecting from nested iterators, panics and their catching at any point; all compilers, and anything that the compiler leaves in a stream when its extend is interrupted",
  "A test outside of a macro sees only one mode, and the state after a caught panic is hardly tested in either.",
  ["src/wrapper.rs: Extend, FromIterator, DeferredTokenStream::evaluate_now, DeferredTokenStream::into_token_stream, TokenStream::unwrap_nightly, TokenStream::unwrap_stable, into_compiler_token, mismatch", "src/fallback.rs: Extend for TokenStream, FromIterator<TokenTree>"])
p("Programs whose streams can be printed and parsed again",
  "If a program (parsing any texts, building, cloning, extending, iterating, grouping, setting spans, dropping, on the heap) makes its tokens with the constructors, puts no group without delimiters into a stream, and puts after a joint punct only what that can be joint to, then each of its streams that does not end with a joint punct is printed as a text that parses, on the same thread, to the same tokens. The condition on joint puncts is needed: after anything else the stream does not survive, whatever follows. Streams that survive printing and parsing can be put one after the other. Every identifier and every literal that a constructor or Literal::from_str gives can be used, also a negative number.",
  "all programs of one thread with positions for their texts; all values of the constructors",
  "The order of calls is unbounded, and so are the neighbours a token can get; tests print a few streams that were built by hand.",
  ["src/fallback.rs: Display for TokenStream, TokenStream, push_token_from_proc_macro, Extend, FromIterator, Literal, Group::new", "src/parse.rs: token_stream", "src/rcvec.rs: RcVec, RcVecBuilder, RcVecMut, RcVecIntoIter", "src/lib.rs: Punct::new"])
p("Printing loses nothing but the spacing of puncts that join with nothing",
  "A stream of valid tokens, whose joint puncts may be followed by anything (but a joint slash by no punct that makes it a comment, and a quote by something that makes it a lifetime or a prefixed string), is printed as a text that parses to the same tokens; the spacing is the same except that a joint punct is alone if neither a punct nor a literal that begins with a quote follows it. So, of these streams, exactly the well-formed ones come back unchanged modulo spans. The same holds for the streams that programs build on the heap by any operations.",
  "all streams of valid tokens, all parse histories with room for the text, all programs of one thread with positions for their texts",
  "Punct::new takes any spacing, and streams with careless spacing are unbounded in length and depth; tests round-trip only what was parsed.",
  ["src/fallback.rs: Display for TokenStream", "src/parse.rs: token_stream, punct, punct_char", "src/lib.rs: Punct::new"])
with open("/verif/properties.jsonl","w") as f:
    for x in P: f.write(json.dumps(x,ensure_ascii=False)+"\n")
print(len(P))
for x in P: print(x["id"],x["title"])
