{"claims": [
 {"property": "C01", "status": "proved", "theorems": ["PM2.Props.C01_parse_total", "PM2.Props.C01_exhausted"], "note": "every history of the thread's source map and every text that fits the 32-bit position space"},
 {"property": "C02", "status": "proved", "theorems": ["PM2.Props.C02_literal_total"], "note": ""},
 {"property": "C03", "status": "proved", "theorems": ["PM2.Props.C03_lossless", "PM2.Props.C03_only_wf"], "note": "The well-formed streams are exactly those that survive printing and parsing, for every history with room for the text."},
 {"property": "C04", "status": "proved", "theorems": ["PM2.Props.C04_fixed_point", "PM2.Props.C04_idempotent"], "note": "For every accepted text and any two histories."},
 {"property": "C05", "status": "proved", "theorems": ["PM2.Props.C05_spaced", "PM2.Props.C05_any_two", "PM2.Props.C05_interchange"], "note": "Spaced lists the ways of writing a stream; a plain comment may not directly follow a slash punct and a group may not be written as the error literal (/*ERROR*/)."},
 {"property": "C06", "status": "proved", "theorems": ["PM2.Props.C06_tiling"], "note": ""},
 {"property": "C07", "status": "proved", "theorems": ["PM2.Props.C07_groups", "PM2.Props.C07_mismatch", "PM2.Props.C07_unclosed"], "note": "Group structure of every successful parse; a mismatched, unopened or unclosed delimiter at a position between tokens fails the parse."},
 {"property": "C08", "status": "proved", "theorems": ["PM2.Props.C08_extent", "PM2.Props.C08_skipped", "PM2.Props.C08_unterminated"], "note": ""},
 {"property": "C09", "status": "proved", "theorems": ["PM2.Props.C09_attribute"], "note": "Tokens, placement and spans of the attribute; the string literal's str_value is the comment text."},
 {"property": "C10", "status": "proved", "theorems": ["PM2.Props.C10_bare_cr"], "note": ""},
 {"property": "C100", "status": "proved", "theorems": ["PM2.Props.C100_error", "PM2.Props.C100_release", "PM2.Props.C100_one"], "note": ""},
 {"property": "C101", "status": "proved", "theorems": ["PM2.Props.C101_display", "PM2.Props.C101_parsed", "PM2.Props.C101_bare"], "note": ""},
 {"property": "C102", "status": "proved", "theorems": ["PM2.Props.C102_token", "PM2.Props.C102_punct", "PM2.Props.C102_doc"], "note": "identifiers, literals and groups; puncts; doc comments"},
 {"property": "C103", "status": "proved", "theorems": ["PM2.Props.C103_same", "PM2.Props.C103_constant", "PM2.Props.C103_freed", "PM2.Props.C103_drop", "PM2.Props.C103_program"], "note": "Steps are counted in Model/TimedHeap.lean; pushing to a vector is one step (amortised), cloning or freeing the text of a token is one step."},
 {"property": "C104", "status": "proved", "theorems": ["PM2.Props.C104_parse", "PM2.Props.C104_literal", "PM2.Props.C104_line_column", "PM2.Props.C104_bytes_same", "PM2.Props.C104_bytes", "PM2.Props.C104_ascending", "PM2.Props.C104_again"], "note": "Steps are counted in Model/TimedMap.lean; an operation on a BTreeMap of n entries counts log2 n + 1 steps; pushing to the vector of files is one step (amortised)."},
 {"property": "C105", "status": "proved", "theorems": ["PM2.Props.C105_display", "PM2.Props.C105_debug", "PM2.Props.C105_stops", "PM2.Props.C105_appends", "PM2.Props.C105_string", "PM2.Props.C105_buffer", "PM2.Props.C105_calls"], "note": "How std cuts numbers and characters into pieces is modelled from its source; the theorems do not depend on it beyond that the pieces are fixed."},
 {"property": "C106", "status": "proved", "theorems": ["PM2.Props.C106_simulated", "PM2.Props.C106_calm", "PM2.Props.C106_reported", "PM2.Props.C106_uniform", "PM2.Props.C106_no_mismatch", "PM2.Props.C106_ordered", "PM2.Props.C106_progress"], "note": "the detection without is_available (before rustc 1.57); which panics of the detection are possible is C76"},
 {"property": "C107", "status": "proved", "theorems": ["PM2.Props.C107_str", "PM2.Props.C107_byte_str", "PM2.Props.C107_cstr", "PM2.Props.C107_check", "PM2.Props.C107_shorter", "PM2.Props.C107_size"], "note": "allocation is not counted"},
 {"property": "C108", "status": "proved", "theorems": ["PM2.Props.C108_ok", "PM2.Props.C108_err", "PM2.Props.C108_drop", "PM2.Props.C108_values", "PM2.Props.C108_others", "PM2.Props.C108_total", "PM2.Props.C108_live"], "note": "with checked positions; a program goes on after a LexError, and a panic ends it"},
 {"property": "C109", "status": "proved", "theorems": ["PM2.Props.C109_stream", "PM2.Props.C109_tree", "PM2.Props.C109_iter", "PM2.Props.C109_text", "PM2.Props.C109_depth", "PM2.Props.C109_always"], "note": "identifiers and literals are printed as in C105"},
 {"property": "C11", "status": "proved", "theorems": ["PM2.Props.C11_spacing", "PM2.Props.C11_doc"], "note": ""},
 {"property": "C110", "status": "proved", "theorems": ["PM2.Props.C110_run", "PM2.Props.C110_live", "PM2.Props.C110_no_leak", "PM2.Props.C110_drop_all", "PM2.Props.C110_move", "PM2.Props.C110_wrapper"], "note": "A move is a clone after which the original is dropped; the calls of the compiler (into_compiler) are a parameter."},
 {"property": "C111", "status": "proved", "theorems": ["PM2.Props.C111_resolved", "PM2.Props.C111_available", "PM2.Props.C111_withdrawn", "PM2.Props.C111_nightly"], "note": "All conditional definitions of the crate, for all hosts. Types are not checked. That stabilised methods are stable from their version on, and that a probe that compiles shows that the compiler has its methods, are hypotheses."},
 {"property": "C112", "status": "proved", "theorems": ["PM2.Props.C112_values", "PM2.Props.C112_calls", "PM2.Props.C112_others", "PM2.Props.C112_live", "PM2.Props.C112_no_leak", "PM2.Props.C112_total", "PM2.Props.C112_extend_trees", "PM2.Props.C112_extend_streams"], "note": "The stream that is being extended cannot be used by the iterator (it is borrowed). In compiler mode: C113."},
 {"property": "C113", "status": "proved", "theorems": ["PM2.Props.C113_values", "PM2.Props.C113_calls", "PM2.Props.C113_extend_trees", "PM2.Props.C113_mismatch", "PM2.Props.C113_extend_streams", "PM2.Props.C113_size_hint", "PM2.Props.C113_others", "PM2.Props.C113_mode", "PM2.Props.C113_deferred", "PM2.Props.C113_panics", "PM2.Props.C113_unwound"], "note": "What the compiler's own Extend<TokenStream> leaves in a stream when the iterator panics is a parameter. A size_hint that panics between tokens is C113_size_hint; elsewhere it is a panic in place of next. C113_panics and C113_unwound are for programs that invalidate spans only when nobody has any (LiveScript, as C94)."},
 {"property": "C114", "status": "proved", "theorems": ["PM2.Props.C114_wf", "PM2.Props.C114_reparse", "PM2.Props.C114_append", "PM2.Props.C114_needed", "PM2.Props.C114_ident", "PM2.Props.C114_literal", "PM2.Props.C114_int", "PM2.Props.C114_float", "PM2.Props.C114_text"], "note": "a stream that ends with a joint punct is the exception, until what the punct is joint to is put after it"},
 {"property": "C115", "status": "proved", "theorems": ["PM2.Props.C115_reads", "PM2.Props.C115_tokens", "PM2.Props.C115_wf", "PM2.Props.C115_exact", "PM2.Props.C115_program"], "note": "streams with a joint slash before a slash or a star, or a quote before anything it does not join with, are excluded"},
 {"property": "C12", "status": "proved", "theorems": ["PM2.Props.C12_lifetime"], "note": ""},
 {"property": "C13", "status": "proved", "theorems": ["PM2.Props.C13_maximal"], "note": ""},
 {"property": "C14", "status": "proved", "theorems": ["PM2.Props.C14_token", "PM2.Props.C14_literal", "PM2.Props.C14_accepts"], "note": ""},
 {"property": "C15", "status": "proved", "theorems": ["PM2.Props.C15_token", "PM2.Props.C15_literal", "PM2.Props.C15_too_many"], "note": ""},
 {"property": "C16", "status": "proved", "theorems": ["PM2.Props.C16_shift", "PM2.Props.C16_same", "PM2.Props.C16_literal"], "note": ""},
 {"property": "C17", "status": "proved", "theorems": ["PM2.Props.C17_error_span", "PM2.Props.C17_usable"], "note": ""},
 {"property": "C18", "status": "proved", "theorems": ["PM2.Props.C18_string"], "note": ""},
 {"property": "C19", "status": "proved", "theorems": ["PM2.Props.C19_byte_string"], "note": ""},
 {"property": "C20", "status": "proved", "theorems": ["PM2.Props.C20_c_string"], "note": ""},
 {"property": "C21", "status": "proved", "theorems": ["PM2.Props.C21_character"], "note": "There is no accessor for character literals; the value is taken with unescape_char."},
 {"property": "C22", "status": "proved", "theorems": ["PM2.Props.C22_byte_character"], "note": ""},
 {"property": "C23", "status": "proved", "theorems": ["PM2.Props.C23_suffixed", "PM2.Props.C23_unsuffixed", "PM2.Props.C23_unique"], "note": "every integer and every integer type; decimal representation specified independently and shown unique; both readings of the text, with spans"},
 {"property": "C24", "status": "proved", "theorems": ["PM2.Props.C24_unsuffixed", "PM2.Props.C24_suffixed"], "note": "std's Display text of the float is a parameter constrained to digits with an optional fraction; negative values and the is_finite assertion included"},
 {"property": "C25", "status": "proved", "theorems": ["PM2.Props.C25_verbatim", "PM2.Props.C25_accepts_iff"], "note": ""},
 {"property": "C26", "status": "proved", "theorems": ["PM2.Props.C26_literal", "PM2.Props.C26_token", "PM2.Props.C26_converse"], "note": "For literals without suffix and without carriage return; concrete witnesses show that both exceptions are needed (a cooked string containing CR LF is accepted by the lexer and refused by str_value)."},
 {"property": "C27", "status": "proved", "theorems": ["PM2.Props.C27_total", "PM2.Props.C27_kind", "PM2.Props.C27_exclusive", "PM2.Props.C27_either_mode"], "note": ""},
 {"property": "C28", "status": "proved", "theorems": ["PM2.Props.C28_str", "PM2.Props.C28_byte_str", "PM2.Props.C28_cstr", "PM2.Props.C28_unique", "PM2.Props.C28_cstr_no_nul"], "note": ""},
 {"property": "C29", "status": "proved", "theorems": ["PM2.Props.C29_ident_new"], "note": "Over every lawful XID table."},
 {"property": "C30", "status": "proved", "theorems": ["PM2.Props.C30_ident_new_raw"], "note": "Over every lawful XID table."},
 {"property": "C31", "status": "proved", "theorems": ["PM2.Props.C31_eq_print", "PM2.Props.C31_eq_str", "PM2.Props.C31_cmp", "PM2.Props.C31_order", "PM2.Props.C31_hash"], "note": "cmp is shown to be the lexicographic order by code points of the printed text. Hash is modelled as the bytes fed to the hasher."},
 {"property": "C32", "status": "proved", "theorems": ["PM2.Props.C32_lexes", "PM2.Props.C32_converse"], "note": ""},
 {"property": "C33", "status": "proved", "theorems": ["PM2.Props.C33_punct_new", "PM2.Props.C33_lexer"], "note": ""},
 {"property": "C34", "status": "proved", "theorems": ["PM2.Props.C34_values", "PM2.Props.C34_safe", "PM2.Props.C34_independent"], "note": "Programs over a heap of reference-counted vectors refine programs on plain lists; no program touches freed memory."},
 {"property": "C35", "status": "proved", "theorems": ["PM2.Props.C35_new", "PM2.Props.C35_is_empty", "PM2.Props.C35_from_tree", "PM2.Props.C35_extend_trees", "PM2.Props.C35_collect_trees", "PM2.Props.C35_extend_streams", "PM2.Props.C35_collect_streams", "PM2.Props.C35_during"], "note": "C35_during: whatever the user's iterator does between two elements."},
 {"property": "C36", "status": "proved", "theorems": ["PM2.Props.C36_program", "PM2.Props.C36_split", "PM2.Props.C36_parse", "PM2.Props.C36_literal_from_str", "PM2.Props.C36_literal_int", "PM2.Props.C36_literal_float", "PM2.Props.C36_literal_text"], "note": "C36_program assumes that literals have at most one minus sign and that raw pushes are not given negative literals; C36_literal_* and C36_parse discharge this for the constructors and the parser."},
 {"property": "C37", "status": "proved", "theorems": ["PM2.Props.C37_drop", "PM2.Props.C37_live", "PM2.Props.C37_no_leak", "PM2.Props.C34_safe"], "note": "Drop calls nest to depth two (dropDepth), for any heap."},
 {"property": "C38", "status": "proved", "theorems": ["PM2.Props.C38_iterate"], "note": ""},
 {"property": "C39", "status": "proved", "theorems": ["PM2.Props.C39_append", "PM2.Props.C39_tokens"], "note": ""},
 {"property": "C40", "status": "proved", "theorems": ["PM2.Props.C40_files", "PM2.Props.C40_disjoint", "PM2.Props.C40_resolves"], "note": ""},
 {"property": "C41", "status": "proved", "theorems": ["PM2.Props.C41_line_column"], "note": ""},
 {"property": "C42", "status": "proved", "theorems": ["PM2.Props.C42_byte_range", "PM2.Props.C42_source_text"], "note": ""},
 {"property": "C43", "status": "proved", "theorems": ["PM2.Props.C43_source_text", "PM2.Props.C43_leaf_text"], "note": ""},
 {"property": "C44", "status": "proved", "theorems": ["PM2.Props.C44_nested", "PM2.Props.C44_siblings", "PM2.Props.C44_contents"], "note": ""},
 {"property": "C45", "status": "proved", "theorems": ["PM2.Props.C45_delimiters", "PM2.Props.C45_inside"], "note": ""},
 {"property": "C46", "status": "proved", "theorems": ["PM2.Props.C46_join_same", "PM2.Props.C46_join_diff", "PM2.Props.C46_join_callSite"], "note": ""},
 {"property": "C47", "status": "proved", "theorems": ["PM2.Props.C47_subspan", "PM2.Props.C47_subspan_text"], "note": ""},
 {"property": "C48", "status": "proved", "theorems": ["PM2.Props.C48_call_site", "PM2.Props.C48_tokens"], "note": ""},
 {"property": "C49", "status": "proved", "theorems": ["PM2.Props.C49_file", "PM2.Props.C49_file_inj"], "note": ""},
 {"property": "C50", "status": "proved", "theorems": ["PM2.Props.C50_invalidate", "PM2.Props.C50_fresh"], "note": ""},
 {"property": "C51", "status": "proved", "theorems": ["PM2.Props.C51_set_span"], "note": ""},
 {"property": "C52", "status": "proved", "theorems": ["PM2.Props.C52_cmp_lt", "PM2.Props.C52_cmp_eq", "PM2.Props.C52_cmp_swap", "PM2.Props.C52_cmp_trans", "PM2.Props.C52_position_lt", "PM2.Props.C52_start_le_end"], "note": ""},
 {"property": "C53", "status": "proved", "theorems": ["PM2.Props.C53_placed", "PM2.Props.C53_no_panic"], "note": "Session: histories of parses and span operations with the set of spans obtained."},
 {"property": "C54", "status": "proved", "theorems": ["PM2.Props.C54_ordered", "PM2.Props.C54_settled", "PM2.Props.C55_steps", "PM2.Props.C54_race"], "note": "Proved for every history ordered by happens-before, in any number of threads, which includes single-threaded ones, under relaxed memory. C54_race shows that a force() concurrent with the first detection can be overwritten. Termination is C55_steps."},
 {"property": "C55", "status": "proved", "theorems": ["PM2.Props.C55_agree", "PM2.Props.C55_available", "PM2.Props.C55_steps", "PM2.Props.C55_progress"], "note": "Any interleaving and any relaxed loads. Each step lowers a bound of six steps, and no thread waits for a thread that cannot step. The variant of initialize for rustc before 1.57 is C75 to C77."},
 {"property": "C56", "status": "proved", "theorems": ["PM2.Props.C56_deferred"], "note": "For every compiler whose streams never lose a token on entry, any program of wrapper calls gives the same results (values, texts, panics) with deferred streams as with streams that append at once. The compiler's API is a parameter."},
 {"property": "C57", "status": "proved", "theorems": ["PM2.Props.C57_homogeneous", "PM2.Props.C57_mixed", "PM2.Props.C57_spans"], "note": "C57_mixed says exactly which calls panic with the mismatch. The first wording (mixing always panics) was too strong: a fallback stream takes compiler tokens and Punct::set_span takes any span; this is in the statement now."},
 {"property": "C58", "status": "proved", "theorems": ["PM2.Props.C58_stream", "PM2.Props.C58_literal"], "note": "For every compiler parser (result, error or panic); that a panic of the compiler's parser is caught is panic::catch_unwind, which is trusted."},
 {"property": "C59", "status": "proved", "theorems": ["PM2.Props.C59_str", "PM2.Props.C59_byte_str", "PM2.Props.C59_cstr", "PM2.Props.C59_raw", "PM2.Props.C59_check"], "note": ""},
 {"property": "C60", "status": "proved", "theorems": ["PM2.Props.C60_bom", "PM2.Props.C60_once"], "note": ""},
 {"property": "C61", "status": "proved", "theorems": ["PM2.Props.C61_concat"], "note": "Both directions, with the exact tokens or error; b may not begin with a byte order mark (it would be skipped only at the start of a text)."},
 {"property": "C62", "status": "proved", "theorems": ["PM2.Props.C62_char", "PM2.Props.C62_byte", "PM2.Props.C62_char_accepted", "PM2.Props.C62_byte_accepted"], "note": ""},
 {"property": "C63", "status": "proved", "theorems": ["PM2.Props.C63_literals"], "note": "Both directions, for the grammar in Spec/Grammar.lean, which does not mention the lexer."},
 {"property": "C64", "status": "proved", "theorems": ["PM2.Props.C64_grammar", "PM2.Props.C64_rejected", "PM2.Props.C64_whitespace", "PM2.Props.C64_word"], "note": "Spans included. The grammar shares with the model only the token type, the character classes (C64_whitespace lists the whitespace, C64_word says which texts are identifiers) and Literal::string for the text of doc attributes (C96)."},
 {"property": "C65", "status": "proved", "theorems": ["PM2.Props.C65_unambiguous", "PM2.Props.C65_literal"], "note": ""},
 {"property": "C66", "status": "proved", "theorems": ["PM2.Props.C66_fallback"], "note": "Programs over all calls of Op (48 public methods); the values of the fallback's side are embedded by treeF."},
 {"property": "C67", "status": "proved", "theorems": ["PM2.Props.C67_compiler"], "note": "Assumes that no tree vanishes when it enters a compiler's stream (enter t \u2260 []), as C56 does."},
 {"property": "C68", "status": "proved", "theorems": ["PM2.Props.C68_handover"], "note": "The agreement of the two parsers is a hypothesis about the compiler."},
 {"property": "C69", "status": "proved", "theorems": ["PM2.Props.C69_total", "PM2.Props.C69_grammar", "PM2.Props.C69_same"], "note": "The lexer is one definition, parametric in the type of positions (class Pos)."},
 {"property": "C70", "status": "proved", "theorems": ["PM2.Props.C70_literal"], "note": ""},
 {"property": "C71", "status": "proved", "theorems": ["PM2.Props.C71_lossless", "PM2.Props.C71_fixed_point", "PM2.Props.C71_spaced"], "note": ""},
 {"property": "C72", "status": "proved", "theorems": ["PM2.Props.C72_str", "PM2.Props.C72_byte_str", "PM2.Props.C72_cstr", "PM2.Props.C72_raw_str", "PM2.Props.C72_raw_byte_str", "PM2.Props.C72_raw_cstr", "PM2.Props.C72_char", "PM2.Props.C72_byte", "PM2.Props.C72_check"], "note": "Specification of faults in Spec/Fault.lean."},
 {"property": "C73", "status": "proved", "theorems": ["PM2.Props.C73_str", "PM2.Props.C73_byte_str", "PM2.Props.C73_cstr"], "note": ""},
 {"property": "C74", "status": "proved", "theorems": ["PM2.Props.C74_check"], "note": ""},
 {"property": "C75", "status": "proved", "theorems": ["PM2.Props.C75_ordered", "PM2.Props.C75_agree", "PM2.Props.C75_settled"], "note": "Model/PanicHook.lean: relaxed atomics, Once with poisoning, a global panic hook. Threads that panic in this module make no further calls."},
 {"property": "C76", "status": "proved", "theorems": ["PM2.Props.C76_calm", "PM2.Props.C76_once", "PM2.Props.C76_restores", "PM2.Props.C76_not_silent", "PM2.Props.C76_overlap", "PM2.Props.C76_lost"], "note": "C76_lost shows why overlapping detections are excluded in C76_calm."},
 {"property": "C77", "status": "proved", "theorems": ["PM2.Props.C77_steps", "PM2.Props.C77_progress"], "note": ""},
 {"property": "C78", "status": "proved", "theorems": ["PM2.Props.C78_determines", "PM2.Props.C78_token", "PM2.Props.C78_error"], "note": "Std formatter builders modelled in Model/Fmt.lean. Streams that were parsed are of valid tokens (parsed_proper)."},
 {"property": "C79", "status": "proved", "theorems": ["PM2.Props.C79_no_locations", "PM2.Props.C79_ident"], "note": ""},
 {"property": "C80", "status": "proved", "theorems": ["PM2.Props.C80_layout", "PM2.Props.C80_compact", "PM2.Props.C80_plain"], "note": ""},
 {"property": "C81", "status": "proved", "theorems": ["PM2.Props.C81_options"], "note": ""},
 {"property": "C82", "status": "proved", "theorems": ["PM2.Props.C82_byte_character", "PM2.Props.C82_c_string"], "note": "The compiler is a parameter; that its literal parser agrees with the fallback's on single literals is a hypothesis (ParsesLiterals)."},
 {"property": "C83", "status": "proved", "theorems": ["PM2.Props.C83_from_compiler", "PM2.Props.C83_into_compiler", "PM2.Props.C83_there_and_back", "PM2.Props.C83_back_and_there"], "note": "The agreement of compiler and fallback on texts is a hypothesis (ParsesAlike, PrintsAlike)."},
 {"property": "C84", "status": "proved", "theorems": ["PM2.Props.C84_first", "PM2.Props.C84_any", "PM2.Props.C84_total", "PM2.Props.C84_reach", "PM2.Props.C84_fuzz", "PM2.Props.C84_spans"], "note": "The macro side of do_fuzz is not modelled."},
 {"property": "C85", "status": "proved", "theorems": ["PM2.Props.C85_minor", "PM2.Props.C85_unique", "PM2.Props.C85_check"], "note": ""},
 {"property": "C86", "status": "proved", "theorems": ["PM2.Props.C86_cfgs", "PM2.Props.C86_printed", "PM2.Props.C86_once", "PM2.Props.C86_text", "PM2.Props.C86_guard", "PM2.Props.C86_implied"], "note": ""},
 {"property": "C87", "status": "proved", "theorems": ["PM2.Props.C87_files", "PM2.Props.C87_other_files", "PM2.Props.C87_bootstrap"], "note": "What the proviso says about compilers is a hypothesis (unlocks, stable)."},
 {"property": "C88", "status": "proved", "theorems": ["PM2.Props.C88_command", "PM2.Props.C88_exit"], "note": ""},
 {"property": "C89", "status": "proved", "theorems": ["PM2.Props.C89_total", "PM2.Props.C89_grammar", "PM2.Props.C89_error", "PM2.Props.C89_literal", "PM2.Props.C89_file", "PM2.Props.C89_same"], "note": "Queries about the spans are C90."},
 {"property": "C90", "status": "proved", "theorems": ["PM2.Props.C90_same", "PM2.Props.C90_lines", "PM2.Props.C90_wrapped_panic", "PM2.Props.C90_wrapped_wrong"], "note": "Where the checks would fire no file is found, so the two builds agree even after a wrap-around; the last two theorems construct a panic and a wrong text."},
 {"property": "C91", "status": "proved", "theorems": ["PM2.Props.C91_unsuffixed", "PM2.Props.C91_suffixed", "PM2.Props.C91_panics", "PM2.Props.C91_unique"], "note": "Assumed of std (LawfulShortest): Display finds some digits whose number rounds to the float; exactDigits_lawful shows that there is such a choice. The layout of the digits is std's code, written out."},
 {"property": "C92", "status": "proved", "theorems": ["PM2.Props.C92_local", "PM2.Props.C92_plain", "PM2.Props.C92_unwind"], "note": "Rust's rules for auto traits are in Spec/AutoTraits.lean, the fields of the types in Model/Marker.lean."},
 {"property": "C93", "status": "proved", "theorems": ["PM2.Props.C93_additive", "PM2.Props.C93_no_positions"], "note": "With checked positions, as long as there is room for the texts; StepFits says so."},
 {"property": "C94", "status": "proved", "theorems": ["PM2.Props.C94_step", "PM2.Props.C94_session", "PM2.Props.C94_placed"], "note": "Live excludes texts of 2^32 characters or more, and invalidating while spans of texts are held (shown to be necessary)."},
 {"property": "C95", "status": "proved", "theorems": ["PM2.Props.C95_panic", "PM2.Props.C95_program"], "note": "The panic for mixing modes is C57_mixed. Panics inside the API of the compiler, other than those of its parsers and identifier constructors, are not modelled."},
 {"property": "C96", "status": "proved", "theorems": ["PM2.Props.C96_string", "PM2.Props.C96_character", "PM2.Props.C96_byte_string", "PM2.Props.C96_byte_character", "PM2.Props.C96_c_string"], "note": "the tables of printable and combining characters are parameters"},
 {"property": "C97", "status": "proved", "theorems": ["PM2.Props.C97_queries", "PM2.Props.C97_uniform", "PM2.Props.C97_no_mismatch", "PM2.Props.C97_settled", "PM2.Props.C97_forced", "PM2.Props.C97_ordered", "PM2.Props.C97_progress"], "note": "the detection with is_available (rustc 1.57 and later); the races that are left with force are C54_race"},
 {"property": "C98", "status": "proved", "theorems": ["PM2.Props.C98_stream", "PM2.Props.C98_literal"], "note": "steps are counted in Model/Timed.lean, which computes the same results (proved); registering the source is counted in C104, dropping values in C103"},
 {"property": "C99", "status": "proved", "theorems": ["PM2.Props.C99_size", "PM2.Props.C99_bare", "PM2.Props.C99_wrap"], "note": "with checked positions, as long as there is room for the text"}
]}
