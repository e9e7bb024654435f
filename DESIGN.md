# Formal model of proc-macro2 in Lean 4 — design

The model is a function-by-function transcription of the fallback implementation
(`src/parse.rs`, `src/fallback.rs`, `src/rcvec.rs`, `src/location.rs`,
`src/rustc_literal_escaper.rs`, `src/num.rs`, the value accessors and constructors of
`src/lib.rs`), plus state-machine models of `src/detection.rs` and the mode-dispatch logic of
`src/wrapper.rs`.

## Conventions

* Text is `List Char`. Lean's `Char` is a Unicode scalar value, exactly Rust's `char`, and a
  `List Char` is in bijection with a valid UTF-8 `&str`. Byte offsets are real: `strLen` is the
  UTF-8 length, `splitAt s n` is `str::split_at` and *fails (panic)* when `n` is out of bounds or
  not on a character boundary; byte loops iterate over the actual UTF-8 encoding.
* Every fallible function returns `Res ε α = ok | err ε | panic | diverge`. `panic` models every
  slice/index/assert/unwrap/overflow panic (debug-mode overflow checks), `diverge` is what a fuelled
  loop returns when its fuel runs out. Totality theorems prove that neither is reached.
* `u32` positions are natural numbers with *checked* addition (overflow = panic). Theorems about
  positions assume the 32-bit space is not exhausted (the crate documents wrap-around otherwise,
  `src/extra.rs:13-24`). `Model/Release.lean` is parsing with wrapping addition instead, without that
  assumption.
* `usize` arithmetic on lengths is unbounded `Nat` (a Rust string is at most `isize::MAX` bytes);
  every subtraction is guarded or proved not to underflow.
* Configurations modelled: `span_locations` on and, for the lexer, off (`Model/NoSpan.lean`); `fuzzing` off,
  and on for parsing and spans (`Model/Fuzzing.lean`),
  `procmacro2_semver_exempt` on for the value accessors. With `span_locations` off, spans are units and the
  span properties are void; the lexer is the same text at positions of type `Unit` (class `Pos`), and
  C69–C71 say what it does without a bound on the length. `Model/NoSpanWrapper.lean` has the functions of
  the wrapper and of `DelimSpan` that differ without `span_locations`, for C93.

## Parameters (external code)

`unicode_ident::is_xid_start/is_xid_continue` and the two std tables behind `char::escape_debug`
(grapheme-extend, printable) are parameters: class `UnicodeTables`. Class `LawfulUnicode` states the
facts used about the XID tables (ASCII behaviour, start ⊆ continue, no XID_Continue char is
whitespace or U+FEFF); nothing is assumed of the std tables. An instance satisfying the laws is
exhibited. `char::is_whitespace`, `to_digit`, `from_u32`, UTF-8 encoding/validation, the decimal
printing of integers, and slice binary search are modelled concretely from their documented
behaviour. `f32/f64` `Display` is a parameter of shape "digits with optional fraction" in C24; in C91 its
layout is modelled from its source (`core::num::flt2dec`) and only the choice of the digits is a parameter
(class `ShortestDigits`), with the law that the number they denote rounds to the float (`LawfulShortest`, of
which an instance is exhibited).

Further parameters: the compiler's API (`Compiler` in `Model/Wrapper.lean`: arbitrary types and
functions, a parser that may succeed, fail or panic, and what trees a tree becomes when it enters a
stream), and the answers of `proc_macro::is_available()` (`Model/Detection.lean`: one answer per call) or, before 1.57, whether
the call of `Span::call_site` panics. The panic hook is one global with atomic `take_hook` and `set_hook`;
whether boxes of the do-nothing hook have equal addresses is left open (they have: the closure has size 0).

## Layers

1. `Verif/Model/*` — the transcription. Each definition cites file and lines. `Verif/Tests/*` tests it.
2. `Verif/Spec/*` — small independent specifications (grammar of trivia and escapes, well-formed
   streams, tilings, line/column, abstract value semantics).
3. `Verif/Proof/*` — a character-level shadow of the lexer proved equal to the byte-level model,
   and all lemmas.
4. `Verif/Props/*` — the property theorems, with non-vacuity examples.

## Trusted base

* Lean's kernel. No axioms are added, and there is no `sorry`, `native_decide` or `bv_decide`. Every
  theorem of MANIFEST.json depends on a subset of `propext`, `Classical.choice`, `Quot.sound`
  (`python3 tools/axioms.py` prints the axioms of each; 9 depend on `propext` only, 25 on `propext` and
  `Quot.sound`, the others on the three).
* The transcription: that each definition in `Verif/Model` does what the cited lines of Rust do. It is
  not checked by any tool. `tools/citations.py` compares the cited lines with the names of the
  functions, `tools/coverage.py` lists the functions of the crate that no definition cites.
  `Verif/Tests/Suite.lean` evaluates the assertions of the crate's own test suite on the model; these are tests.
* The specification: that the definitions in `Verif/Spec`, and those named in the statements, say what
  is meant. Where `Verif/Spec` uses functions of the model, theorems say what they are: the
  whitespace characters (`C64_whitespace`), the characters of identifiers (`C64_word`), the text that
  `Literal::string` writes (C96).
* The semantics of the standard library where it is modelled from its documentation: `str` slicing,
  `char` methods, `Vec`, `Rc`, binary search, integer `Display`, `Formatter::pad`, the
  builders of `Debug` and `PadAdapter` (`Model/Fmt.lean`, `Model/Writer.lean`), UTF-8 validation, `Once`, relaxed
  atomics, `catch_unwind`, `flt2dec`; and Rust's rules for auto traits (`Spec/AutoTraits.lean`).

### Which code is modelled

| file | modelled | not modelled |
|---|---|---|
| `src/parse.rs` | everything (`Model/Parse.lean`), with and without `span_locations`; again with a count of the steps (`Model/Timed.lean`) | times of allocation |
| `src/fallback.rs` | parsing entry points, source map, spans, identifiers, literals, `Display` with its options, `Debug` (`Model/Debug.lean`), both also as programs over a writer that can fail (`Model/Writer.lean`), streams and `Drop` (on the heap), `FromStr2`, conversions without the wrapper (`Model/Unwrapped.lean`), `cfg(fuzzing)` (`Model/Fuzzing.lean`, with `do_fuzz` of the fuzz target), parsing and span queries without overflow checks (`Model/Release.lean`); the source map with a count of the steps (`Model/TimedMap.lean`) | |
| `src/rcvec.rs` | everything as operations on a heap with reference counts (`Model/Heap.lean`), again with a count of the steps (`Model/TimedHeap.lean`); the lexer with its streams on this heap (`Model/HeapParse.lean`), `Display` and `Debug` (`Model/HeapPrint.lean`), and all calls of the API outside macros (`Model/HeapApi.lean`); `extend` and `collect` with iterators of the user that call the crate and panic (`Model/Unwind.lean`) | capacities, allocation failure, overflow of counts |
| `src/rustc_literal_escaper.rs` | everything (`Model/Unescape.lean`); again with a count of the steps (`Model/TimedValue.lean`) | times of allocation |
| `src/location.rs`, `src/num.rs` | everything | |
| `src/detection.rs` | everything: with `is_available` (`Model/Detection.lean`) and without (`Model/PanicHook.lean`), with relaxed atomics and any number of threads; `Model/Process.lean` and `Model/OldProcess.lean` put programs of the wrapper on the threads | |
| `src/wrapper.rs` | everything (`Model/Wrapper.lean`), with and without `span_locations` (`Model/NoSpanWrapper.lean`); what `build.rs` probes for is a parameter of the compiler, so older compilers are included; its `extend` and `collect` with iterators of the user that call the crate and panic (`Model/Script.lean`) | what the compiler's own `Extend<TokenStream>` leaves when its iterator panics is a parameter. `C113_panics` is for programs that invalidate spans only when nobody has any (as C94) |
| `src/lib.rs` | value accessors, `Punct`, `TokenTree`, constructors of literals (floats from their bits in `Model/Float.lean`); `Debug`; methods that only forward are calls of `Model/Wrapper.lean` | |
| `src/marker.rs` | the marker and, for the auto traits, the fields of all types (`Model/Marker.lean`) | |
| `src/extra.rs` | `invalidate_current_thread_spans`, `DelimSpan` | |
| `build.rs` | all (`Model/Build.lean`), over a `Host` that gives environment, file system errors and results of commands; `compile_error!` of `src/lib.rs:121-127`; every `cfg` of the crate, as a table of conditional definitions and of what they refer to (`Model/Crate.lean`) | stderr; texts that are not Unicode; paths other than Unix |
| `src/probe.rs`, `src/probe/*` | which features they turn on and which methods they call (`Model/Crate.lean`); for `build.rs`, as files that compile or do not | types |

## Findings

What the proofs turned up; each is a theorem or a concrete case in `Verif/Props`, unless marked.

1. A carriage return followed by a line feed inside a cooked string is accepted by the lexer, but
   `str_value` returns an error for it (C26).
2. Character literals: the lexer accepts three quotes in a row, and raw line feeds, carriage returns and
   tabs between quotes; `unescape_char` rejects them (C62).
3. `Literal::subspan` counts characters, the documentation says bytes (C47).
4. `force()` during another thread's first-time detection can be overwritten by that detection (C54_race).
5. A doc comment line that ends with CR LF: the CR is stripped from the value but is inside the span.
   Consequently `source_text` of its tokens ends with the CR, and that text is rejected when it is parsed (C102_doc).
6. A byte order mark is skipped at the start of a text only, so parsing a concatenation differs if the
   second text begins with one (C61).
7. A stream of the fallback takes tokens of the compiler, and `Punct::set_span` takes any span; all other
   ways of mixing the two modes panic (C57_mixed).
8. Not reachable, by the proofs of totality: `&s[3..s.len() - 2]` on an empty block comment (src/parse.rs),
   since whitespace skipping takes it first; `unwrap`s and slices of the value accessors (C27).
9. Before rustc 1.57, overlapping calls of `unforce` can lose the program's panic hook without any of them
   observing a race (C76_lost); the do-nothing hook is never left behind unobserved (C76_not_silent).
10. Excluded by hypothesis: more than 2³² characters of text in one thread (`C01_exhausted`: a panic with
   overflow checks; without them positions wrap, C89).
11. After positions have wrapped around, `Span::start` on a token that was just parsed can panic at the
   `unreachable!` of `SourceMap::find` (C90_wrapped_panic); the documentation of
   `invalidate_current_thread_spans` only says that spans can return wrong data.
12. `build.rs` probes a nightly compiler without `RUSTC_BOOTSTRAP` and says that its value does not matter then. If the
   compiler takes features away for a value (as recent ones do for `-1`; not modelled), the crate does not compile
   (C111_withdrawn). With `procmacro2_semver_exempt`, `Span::def_site` and `Span::eq` are used without being probed.

## Wrong programs

`seeded/LOG.jsonl` lists edits of the model that put a realistic bug in it. For the entries with a file in
`seeded/refute`, the statement of the claim was shown to imply `False` in the edited model: `tools/refute.py`
copies the project without its proofs, checks that the refutation fails, makes the edit, and checks that it
succeeds and uses no other theorem about the model (`python3 tools/refute.py seeded/refute` runs them all).
This tests the statement itself, not only that some proof breaks. `tools/mutate.py` makes edits of the model
mechanically (operators, constants, branches), and `tools/survive.py` builds each and lists the edits after which every
proof still goes through.

## Properties: what is modelled and how it is proved

| id | property | plan |
|---|---|---|
| C01 | Parsing is total | Model parse.rs at byte level with panics; refine to a char-level lexer; show panic/diverge unreachable. |
| C02 | Literal parsing is total | Same refinement, applied to Literal::from_str_checked. |
| C03 | Printing then parsing is lossless | Induction over well-formed trees: the lexer machine run on a layout of the stream reaches the end with the stream appended. |
| C04 | Parse-print-parse is a fixed point | Show parsed streams are well-formed (from the big-step relation), then C03. |
| C05 | Whitespace and plain comments are insignificant between tokens | C03 is proved for arbitrary layouts (any trivia as separators); printing is one layout. |
| C06 | The parse covers the source text exactly | Big-step relation `Lex` equivalent to the stack machine; tiling by induction on it. |
| C07 | Delimiters are balanced | From the big-step relation and an independent balanced-bracket spec. |
| C08 | Nested block comments end at the matching terminator | Independent depth-scan spec; equality by induction on the text. |
| C09 | Doc comments become doc attributes | Direct computation of the machine step plus C18 for the value. |
| C10 | A doc comment with a bare carriage return is rejected | Case analysis of doc_comment and leaf_token on a comment start. |
| C11 | Punct spacing reflects adjacency | Characterisation of `punct`, lifted through the big-step relation. |
| C12 | Lifetime quotes are always Joint and attached to a name | Same. |
| C13 | Identifiers are maximal | Characterisation of `ident`, lifted through the big-step relation. |
| C14 | Accepted string literals are well-formed | Grammar of literal bodies, proved for each literal lexer. |
| C15 | Raw strings end at the first matching terminator | First-occurrence specification of the raw terminator. |
| C16 | Parsing does not depend on earlier parses | Shift-invariance of the machine in the offset. |
| C17 | LexError spans are usable | Machine invariant: error offsets lie in the file. |
| C18 | Literal::string round-trips every string | escape_utf8 vs lexer units and vs unescape, induction on the string. |
| C19 | Literal::byte_string round-trips every byte sequence | Same for bytes. |
| C20 | Literal::c_string round-trips every C string | Concrete model of UTF-8 validation (valid_up_to/error_len), induction on bytes. |
| C21 | Literal::character round-trips every char | Case analysis, hex-digit round trip. |
| C22 | Literal::byte_character round-trips every byte | Finite table over UInt8 lifted by a lemma plus context lemma. |
| C23 | Integer literals print their value | Decimal printing model, induction on digits. |
| C24 | Float literals are one token and unsuffixed ones contain a dot | Float Display as parameter with a shape hypothesis. |
| C25 | Literal::from_str is verbatim | From the literal lexer characterisation. |
| C26 | Accepted string literals have a value | Unit-by-unit agreement of lexer and unescaper; CRLF counterexample proved as negation. |
| C27 | Literal value accessors are mutually exclusive | Prefix case analysis; slices modelled with panics. |
| C28 | String literal values follow the language's escape rules | Inductive denotation relation as spec; induction. |
| C29 | Ident::new accepts exactly the identifiers | Direct. |
| C30 | Ident::new_raw accepts exactly the identifiers that can be raw | Direct. |
| C31 | Ident equality, ordering, hashing and printing agree | Total order on byte strings; injectivity of printing on valid identifiers. |
| C32 | Constructed identifiers lex back to themselves | leaf_token on identifiers. |
| C33 | Punct::new accepts exactly the characters the lexer does | Finite table. |
| C34 | Clones of token streams are independent | Heap model with reference counts refined to value semantics, induction over op sequences. |
| C35 | Collecting and extending concatenate in order | List homomorphism lemmas, and through the C34 refinement. |
| C36 | A token stream never holds a negative literal | Invariant over API constructions. |
| C37 | Dropping a stream frees exactly what it solely owns | Heap model of the worklist drop loop, refined to recursive reference-count release. |
| C38 | Iteration yields the tokens in order with exact size hints | Iterator state machine. |
| C39 | Printing is compositional | Induction on lists. |
| C40 | Files in the source map never overlap | Invariant over source-map histories. |
| C41 | Line and column are correct | Counting spec; binary search correctness. |
| C42 | byte_range is exact whatever was queried before | Cache invariant over query histories. |
| C43 | source_text of a token is its text | Tiling + source map. |
| C44 | Spans are nested and ordered | Tiling. |
| C45 | span_open and span_close are the delimiters | Tiling. |
| C46 | Span::join | Source-map invariant. |
| C47 | Literal::subspan | Arithmetic over all Nat bounds with checked u32 conversions. |
| C48 | Call-site spans are inert | Source-map invariant. |
| C49 | Span::file identifies the parse | Source-map invariant. |
| C50 | Invalidation resets and only resets | State equality after truncate. |
| C51 | set_span changes only that token's span | Case analysis over token trees. |
| C52 | LineColumn is ordered by position | Order laws; monotonicity of the counting spec. |
| C53 | Span methods never panic on live spans | Reachability invariant over span-producing operations. |
| C54 | Sequential force/unforce is respected | Sequential state machine. |
| C55 | Concurrent detection is consistent | Interleaving transition system with Once. |
| C56 | Deferred appends are unobservable | Refinement to list append over op sequences. |
| C57 | No compiler/fallback mismatch in a homogeneous history | Tag-homogeneity invariant; panic on mixed pairs. |
| C58 | Compiler-mode parsing is pre-validated | Compiler parser as parameter with panic outcome. |
| C59 | Escape error ranges partition the literal | Induction over the unescaper with byte positions. |
| C60 | Byte order mark is stripped once | Machine on BOM-prefixed input. |
| C61 | Parsing a concatenation | Machine run on a then on the rest; shift invariance. |
| C62 | Character and byte literals denote what the reference says | Independent denotation of character and byte literals; case analysis. |
| C63 | Literal::from_str accepts exactly the literal grammar | Declarative grammar of numbers and literals; each lexer function shown equivalent to its grammar rule. |
| C64 | The parser implements the lexical grammar | Declarative grammar of token streams; big-step relation equivalent to it by induction both ways. |
| C65 | The lexical grammar is unambiguous | From C64's equivalence with the deterministic machine. |
| C66 | Outside a macro the wrapper is the fallback | Simulation of the wrapper by direct calls, one call at a time. |
| C67 | Inside a macro the wrapper is the compiler's API | The same for eager streams; then C56. |
| C68 | Handing a fallback stream to the compiler keeps its tokens | Display of an embedded stream; C03. |
| C69 | Parsing without span_locations | The refinement is generic in the type of positions; at `Unit` the machine runs like the pure one with spans erased. |
| C70 | Literal::from_str without span_locations | Same, for Literal::from_str. |
| C71 | Round trip without span_locations | C03–C05 on the pure machine, which has no bound. |
| C72 | Unescaping reports exactly the faults of the text | Independent inductive specification of faults and reports; the unescaper and the specification are both deterministic and simulate each other. |
| C73 | Errors of the literal value accessors | C72 and the fold over the calls. |
| C74 | check_for_errors agrees with the lexer | C59, C63: inversion of the literal grammar at the text of a mode. |
| C75 | Detection before is_available decides the same way | Simulation of the system with the hook by the one of C54 and C55. |
| C76 | The panic hook survives detection | Invariant on who has taken the hook; for overlapping detections, a count of the do-nothing hooks in circulation, over all threads. |
| C77 | Detection before is_available terminates | Rank of program counters; the invariants of C55 through the simulation. |
| C78 | The Debug text determines the stream | Mutual induction with the text that follows; indentation is injective; a literal ends where the lexer says. |
| C79 | Debug without span_locations ignores exactly the spans | The text of the stream without spans; C78. |
| C80 | Layout of the Debug forms | Independent layout with the depth as parameter; the indenting adapter, applied k times, is a margin of 4k. Independent one-line form. |
| C81 | Display ignores the options of the formatter inside streams | Induction; padding by cases. |
| C82 | Literals that an older compiler cannot make | C20, C22 and the call of the wrapper. |
| C83 | Conversions without the wrapper | C01, C03, C04 across the two printers and parsers. |
| C84 | Parsing under cfg(fuzzing) | C16, C01 and C02 at the empty history; UTF-8 decoding inverts encoding. |
| C85 | The version of the compiler in the build script | Splitting inverts joining; induction on digits. |
| C86 | The cfgs that the build script sets | Normal form of the script: a list of conditional lines; independent meaning of each cfg and name as the sources spell it. |
| C87 | The build script is run again when it must be | Non-interference: normal forms of two runs compared. |
| C88 | Commands and failures of the build script | Independent relation between environment and command, shown to be a function. |
| C89 | Parsing with overflow checks off | The generic lexer at wrapping positions simulates the pure machine with its spans reduced; nothing wraps below 2^32. |
| C90 | Span queries with overflow checks off | A file that is found starts at or before both ends of the span, so no subtraction underflows; two concrete wrap-arounds with an opaque padding length. |
| C91 | Float literals read back as the same float | std's layout of digits written out, its choice of digits a parameter that rounds to the float; values as integers in units of the smallest float, monotone in the bits. |
| C92 | Tokens and spans stay on their thread and may cross an unwinding boundary | Auto traits as a greatest fixed point over the field types; refuted by unfolding, proved by a self-justifying set. |
| C93 | Turning span locations off changes no other result | A second step function for programs without `span_locations`; simulation by erasing all spans, one call at a time. |
| C94 | Programs only have spans of texts that the thread still holds | Every call is a step of C53's sessions; case analysis over calls and induction over trees. |
| C95 | The calls that panic | C01, C02, C27, C29–C33, C53 for the functions; case analysis over calls; induction over programs with C94. |
| C96 | The spelling of literals made from values | The spelling as an inductive relation, shown to be a function; where the decoder of UTF-8 fails no character is encoded, and what it skips are continuation bytes. |
| C97 | The threads of a process use one implementation | A product of the system of C55 with a program for each thread; executions project to executions of C55 and to runs of C57. |
| C98 | Parsing takes linear time | The lexer in a monad that counts steps, erased to the model; every function has a bound in what it consumes, with a potential (the identifier characters ahead) that pays for what numbers and lifetimes look at again. |
| C99 | A parsed stream has linear size | Induction on the big-step relation, with a bound for the escapes of a doc comment. |
| C100 | The span of a lex error | The relation for failing runs over the grammar of C64: an invariant of the machine (what is read, with the open delimiters), and that derivations can be followed by the machine from any state. |
| C101 | What is printed has linear size | Induction over trees; induction on the big-step relation with the bound for escapes of C99. |
| C102 | Parsing the source text of a token gives the token | Induction on the grammar: what follows a closing delimiter is irrelevant; single tokens by C03, moving by the shift lemma. |
| C103 | What the operations on token streams cost | The operations on the heap in the monad that counts steps, erased to the model; a potential (the tokens in memory) pays for drops; what the loop of `drop` frees is shown by the value, by the invariant of C37. |
| C104 | What the source map costs | The functions of the source map in the monad that counts steps, erased to the model; the cache holds the ends of the spans asked about, and the cost of a look-up is the distance to any position in it. |
| C105 | Printing to a writer that fails | Printers as programs over an arbitrary writer; each is a list of pieces, by induction over trees; the adapter that indents turns pieces into pieces. |
| C106 | The threads of a process before rustc 1.57 | A product of the system of C75 with a program for each thread; every execution is simulated by one of C97, in which a thread that panicked in the detection is still waiting. |
| C107 | The value of a literal is found in linear time and is shorter | The unescaper in the monad that counts steps, erased to the model; each function pays for what it consumes; the size by induction on the meaning of C28. |
| C108 | The parser on the heap | The lexer with its builders as variables of the heap; it refines the lexer of C01 step by step, with an invariant on the cells allocated since the start; what a failed run leaves is found with C37. |
| C109 | Printing from the heap | The heap with counts raised by a function of the address; cloning and dropping add to and take from that function; induction on the depth and the trees. |
| C110 | The API on the heap | Each call is a program of heap operations whose effect on values is computed (C34); with the parser (C108) and printing (C109) a simulation between heap states and the values of C66. |
| C111 | The conditional definitions fit together | The conditional definitions as a table with conditions and references; references become implications between conditions, which are checked for all settings that the relations of C86 allow. |
| C112 | Iterators of the user, and panics that are caught | Programs with the code of iterators inside of the calls that run it; refinement of the heap by values, in which the stream that is being extended is hidden, by mutual induction on programs and iterators. |
| C113 | Iterators of the user and caught panics, in both modes | Scripts with iterators at the wrapper; equality with a specification in which iterators run first and the trees they returned are appended at once; invariants (mode, spans, others) and the simulation of deferring by mutual induction. |
| C114 | Programs whose streams can be printed and parsed again | Invariant of programs on values: every stream is well-formed but for a joint punct at its end; induction over programs with C108 for the heap, C03 for the text and C109 for printing. |
| C115 | Printing loses nothing but the spacing of puncts that join with nothing | Spec: `Printable` and `respace`. `respace ts` of a printable stream is well-formed, and the printed text of `ts` is a way of writing it: where printing puts no space behind a punct that is alone, the tokens may touch; then the lexing theorem for written streams of C05. Programs with C108 and C109. |
