import Verif.Model.NoSpan
import Verif.Model.Ident
import Verif.Model.Debug
import Verif.Model.Unescape
import Verif.Model.Float
import Verif.Model.Heap
import Verif.Model.Timed
import Verif.Spec.Decide
import Verif.Spec.Tokens
/-!
# The test suite of the crate, run on the model

The assertions of tests/test.rs, tests/comments.rs and tests/test_fmt.rs in /repo, which hold of the code, evaluated on
the model. They are tests of the transcription, not proofs of properties; nothing else depends on them. Left out: tests/test_size.rs
(sizes in memory), tests/features.rs, and tests/marker.rs with tests/ui, whose assertions are what C92 proves.
The texts of panics are not modelled.
-/

namespace PM2.Tests

/-- The Unicode tables at the characters that the tests use. -/
@[reducible] def tables : UnicodeTables where
  xidStart c := c.isAlpha || c == 'á' || c == 'ć' || c == '𓀕' || c == '我' || c == '叫'
  xidContinue c := c.isAlphanum || c == '_' || c == 'á' || c == 'ć' || c == '𓀕' || c == '我' || c == '叫'
  graphemeExtend c := c == '\u0333'
  printable c := (0x20 ≤ c.toNat && c.toNat ≤ 0x7E) || c == '❤' || c == 'á' || c == 'ć' || c == '𓀕' || c == '我' || c == '叫'

/-- Shortest digits of the floats that the tests use: 10 and 1e100. -/
@[instance_reducible] def digits : ShortestDigits where
  digits _ bits := if bits = 0x54B249AD2594C37D then (['1'], 101) else (['1'], 2)

attribute [local instance] tables digits

/-- Parsed with `span_locations` and without, after which the tokens differ in their spans only; and counted. -/
def stream (s : String) : Option (List TokenTree) :=
  match (TokenStream.fromStr .init s.toList).2, NoSpan.fromStr s.toList, (T.fromStrAt s.toList (1 : Nat)).val with
  | .ok ts, .ok ts', .ok ts'' =>
    if Spec.mapSpan (fun _ => .callSite) ts = Spec.mapSpan (fun _ => .callSite) ts' ∧ ts = ts'' then some ts else none
  | _, _, _ => none

def parses (s : String) : Bool := (stream s).isSome

/-- All the ways to parse give an error, not a panic. -/
def fails (s : String) : Bool :=
  match (TokenStream.fromStr .init s.toList).2, NoSpan.fromStr s.toList, (T.fromStrAt s.toList (1 : Nat)).val with
  | .err _, .err _, .err _ => true
  | _, _, _ => false

def count (s : String) : Option Nat := (stream s).map List.length

def literal (s : String) : Option (List Char) :=
  match (Literal.fromStr .init s.toList).2, NoSpan.literalFromStr s.toList with
  | .ok (l, _), .ok (l', _) => if l = l' then some l else none
  | _, _ => none

def literalFails (s : String) : Bool :=
  match (Literal.fromStr .init s.toList).2, NoSpan.literalFromStr s.toList with
  | .err _, .err _ => true
  | _, _ => false

def ident (s : String) : Option String :=
  match Ident.new (ε := Unit) s.toList .callSite with
  | .ok t => some (String.ofList (displayTree t))
  | _ => none

def identPanics (s : String) : Bool := match Ident.new (ε := Unit) s.toList .callSite with | .panic => true | _ => false

def identRaw (s : String) : Option String :=
  match Ident.newRaw (ε := Unit) s.toList .callSite with
  | .ok t => some (String.ofList (displayTree t))
  | _ => none

def identRawPanics (s : String) : Bool := match Ident.newRaw (ε := Unit) s.toList .callSite with | .panic => true | _ => false

/-! ## tests/test.rs -/

/- `idents`, `raw_idents`, `ident_raw_underscore` … `lifetime_invalid` -/
example : ident "String" = some "String" ∧ ident "fn" = some "fn" ∧ ident "_" = some "_" := by decide +kernel
example : identRaw "String" = some "r#String" ∧ identRaw "fn" = some "r#fn" := by decide +kernel
example : identRawPanics "_" ∧ identRawPanics "super" := by decide +kernel
example : identPanics "" ∧ identPanics "255" ∧ identPanics "a#" ∧ identPanics "r#" ∧ identPanics "r#255" ∧ identPanics "r#a#" ∧
    identPanics "'" ∧ identPanics "'255" ∧ identPanics "'a#" := by decide +kernel

/- `literal_string` -/
example : litString "".toList = "\"\"".toList ∧ litString "aA".toList = "\"aA\"".toList ∧
    litString "\t".toList = "\"\\t\"".toList ∧ litString "❤".toList = "\"❤\"".toList ∧
    litString "'".toList = "\"'\"".toList ∧ litString "\"".toList = "\"\\\"\"".toList ∧
    litString "\x00".toList = "\"\\0\"".toList ∧ litString "\x01".toList = "\"\\u{1}\"".toList ∧
    litString "a\x000b\x007c\x008d\x00e\x00".toList = "\"a\\x000b\\x007c\\08d\\0e\\0\"".toList := by decide +kernel
example : parses "\"\\\r\n    x\"" ∧ fails "\"\\\r\n  \rx\"" := by decide +kernel

/- `literal_raw_string` -/
def rawStringLiteralWithHashes (n : Nat) : String :=
  String.ofList ('r' :: List.replicate n '#' ++ ['"', '"'] ++ List.replicate n '#')
example : parses "r\"\r\n\"" := by decide +kernel
example : parses (rawStringLiteralWithHashes 255) := by decide +kernel
example : fails (rawStringLiteralWithHashes 256) := by decide +kernel

def strOf (l : Option (List Char)) : Option (List Char) :=
  match l.map strValue with | some (.ok v) => some v | _ => none
def bytesOfLit (l : Option (List Char)) : Option (List UInt8) :=
  match l.map byteStrValue with | some (.ok v) => some v | _ => none
def cstrOf (l : Option (List Char)) : Option (List UInt8) :=
  match l.map cstrValue with | some (.ok v) => some v | _ => none

/- `literal_string_value` -/
example : ∀ s ∈ ["", "...", "...\t...", "...\\...", "...\x00...", "...\x01..."],
    strOf (some (litString s.toList)) = some s.toList ∧ strOf (literal ("r\"" ++ s ++ "\"")) = some s.toList ∧
    strOf (literal ("r##\"" ++ s ++ "\"##")) = some s.toList := by decide +kernel

/- `literal_byte_character` -/
example : litByteCharacter 97 = "b'a'".toList ∧ litByteCharacter 0 = "b'\\0'".toList ∧ litByteCharacter 9 = "b'\\t'".toList ∧
    litByteCharacter 10 = "b'\\n'".toList ∧ litByteCharacter 13 = "b'\\r'".toList ∧ litByteCharacter 39 = "b'\\''".toList ∧
    litByteCharacter 92 = "b'\\\\'".toList ∧ litByteCharacter 0x1f = "b'\\x1F'".toList ∧
    litByteCharacter 34 = "b'\"'".toList := by decide +kernel

/- `literal_byte_string` -/
example : litByteString [] = "b\"\"".toList ∧ litByteString [0] = "b\"\\0\"".toList ∧ litByteString [9] = "b\"\\t\"".toList ∧
    litByteString [10] = "b\"\\n\"".toList ∧ litByteString [13] = "b\"\\r\"".toList ∧ litByteString [34] = "b\"\\\"\"".toList ∧
    litByteString [92] = "b\"\\\\\"".toList ∧ litByteString [0x1f] = "b\"\\x1F\"".toList ∧ litByteString [39] = "b\"'\"".toList ∧
    litByteString (bytesOf "a\x000b\x007c\x008d\x00e\x00".toList) = "b\"a\\x000b\\x007c\\08d\\0e\\0\"".toList := by decide +kernel
example : parses "b\"\\\r\n    x\"" ∧ fails "b\"\\\r\n  \rx\"" ∧ fails "b\"\\\r\n  \u00a0x\"" ∧ fails "br\"\u00a0\"" := by
  decide +kernel

/- `literal_byte_string_value` -/
example : bytesOfLit (some (litByteString [46, 46, 0xF0, 46])) = some [46, 46, 0xF0, 46] := by decide +kernel
example : ∀ s ∈ ["", "...", "...\t...", "...\\...", "...\x00..."],
    bytesOfLit (some (litByteString (bytesOf s.toList))) = some (bytesOf s.toList) ∧
    bytesOfLit (literal ("br\"" ++ s ++ "\"")) = some (bytesOf s.toList) ∧
    bytesOfLit (literal ("br##\"" ++ s ++ "\"##")) = some (bytesOf s.toList) := by decide +kernel

/- `literal_c_string` -/
example : litCString [] = .ok "c\"\"".toList ∧ litCString [97, 65] = .ok "c\"aA\"".toList ∧
    litCString [9] = .ok "c\"\\t\"".toList ∧ litCString [0xE2, 0x9D, 0xA4] = .ok "c\"❤\"".toList ∧
    litCString [39] = .ok "c\"'\"".toList ∧ litCString [34] = .ok "c\"\\\"\"".toList ∧
    litCString [0x7F, 0xFF, 0xFE, 0xCC, 0xB3] = .ok "c\"\\u{7f}\\xFF\\xFE\\u{333}\"".toList := by decide +kernel
example : (stream "
        c\"hello\\x80我叫\\u{1F980}\"  // from the RFC
        cr\"\\\"
        cr##\"Hello \"world\"!\"##
        c\"\\t\\n\\r\\\"\\\\\"
    ").map (·.map fun | .literal l _ => some l | _ => none) =
    some (["c\"hello\\x80我叫\\u{1F980}\"", "cr\"\\\"", "cr##\"Hello \"world\"!\"##", "c\"\\t\\n\\r\\\"\\\\\""].map
      (some ·.toList)) := by decide +kernel
example : fails "c\"\\0\"" ∧ fails "c\"\\x00\"" ∧ fails "c\"\\u{0}\"" ∧ fails "c\"\x00\"" := by decide +kernel

/- `literal_c_string_value` -/
example : ∀ b ∈ [[], [46], [46, 9, 46], [46, 92, 46], [46, 1, 46], [46, 0xF0, 46]],
    (match litCString b with | .ok l => cstrOf (some l) | _ => none) = some (b ++ [0]) := by decide +kernel
example : ∀ s ∈ ["", "...", "...\t...", "...\\...", "...\x01..."],
    cstrOf (literal ("cr\"" ++ s ++ "\"")) = some (bytesOf s.toList ++ [0]) ∧
    cstrOf (literal ("cr##\"" ++ s ++ "\"##")) = some (bytesOf s.toList ++ [0]) := by decide +kernel

/- `literal_character` -/
example : litCharacter 'a' = "'a'".toList ∧ litCharacter '\t' = "'\\t'".toList ∧ litCharacter '❤' = "'❤'".toList ∧
    litCharacter '\'' = "'\\''".toList ∧ litCharacter '"' = "'\"'".toList ∧ litCharacter '\x00' = "'\\0'".toList ∧
    litCharacter '\x01' = "'\\u{1}'".toList := by decide +kernel

/- `literal_integer` -/
def int (r : Res Unit TokenTree) : Option String := match r with | .ok (.literal l _) => some (String.ofList l) | _ => none
example : (∀ k ∈ [IntKind.u8, .u16, .u32, .u64, .u128, .usize, .i8, .i16, .i32, .i64, .i128, .isize],
    int (.ok (Literal.intUnsuffixed 10)) = some "10" ∧ (int (.ok (Literal.intSuffixed k 10))).map String.toList =
      some ("10".toList ++ k.name)) := by decide +kernel
example : int (.ok (Literal.intSuffixed .i32 (-10))) = some "-10i32" ∧ int (.ok (Literal.intUnsuffixed (-10))) = some "-10" := by
  decide +kernel

/- `literal_float` -/
example : int (Literal.fromFloatSuffixed .f32 0x41200000) = some "10f32" ∧
    int (Literal.fromFloatSuffixed .f32 0xC1200000) = some "-10f32" ∧
    int (Literal.fromFloatSuffixed .f64 0x4024000000000000) = some "10f64" ∧
    int (Literal.fromFloatSuffixed .f64 0xC024000000000000) = some "-10f64" ∧
    int (Literal.fromFloatUnsuffixed .f32 0x41200000) = some "10.0" ∧
    int (Literal.fromFloatUnsuffixed .f32 0xC1200000) = some "-10.0" ∧
    int (Literal.fromFloatUnsuffixed .f64 0x4024000000000000) = some "10.0" ∧
    int (Literal.fromFloatUnsuffixed .f64 0xC024000000000000) = some "-10.0" ∧
    int (Literal.fromFloatUnsuffixed .f64 0x54B249AD2594C37D) =
      some "10000000000000000000000000000000000000000000000000000000000000000000000000000000000000000000000000000.0" := by
  decide +kernel

/- `literal_suffix` -/
example : count "999u256" = some 1 ∧ count "999r#u256" = some 3 ∧ count "1." = some 1 ∧ count "1.f32" = some 3 ∧
    count "1.0_0" = some 1 ∧ count "1._0" = some 3 ∧ count "1._m" = some 3 ∧ count "\"\"s" = some 1 ∧ count "r\"\"r" = some 1 ∧
    count "r#\"\"#r" = some 1 ∧ count "b\"\"b" = some 1 ∧ count "br\"\"br" = some 1 ∧ count "br#\"\"#br" = some 1 ∧
    count "c\"\"c" = some 1 ∧ count "cr\"\"cr" = some 1 ∧ count "cr#\"\"#cr" = some 1 ∧ count "'c'c" = some 1 ∧
    count "b'b'b" = some 1 ∧ count "0E" = some 1 ∧ count "0o0A" = some 1 ∧ count "0E--0" = some 4 ∧ count "0.0ECMA" = some 1 := by
  decide +kernel

/- `literal_iter_negative`: `TokenStream::from` pushes the token as `FromIterator` does -/
example : Heap.splitToken (.literal "-3i32".toList .callSite) =
    [.punct '-' .alone .callSite, .literal "3i32".toList .callSite] := by decide +kernel

/- `literal_parse` -/
example : ∀ s ∈ ["1", "-1", "-1u12", "1.0", "-1.0", "-1.0f12", "'a'", "\"\n\""], literal s = some s.toList := by decide +kernel
example : ∀ s ∈ ["0 1", " 0", "0 ", "/* comment */0", "0/* comment */", "0// comment", "- 1", "- 1.0", "-\"\""],
    literalFails s = true := by decide +kernel

/- `literal_span` -/
def okVal {ε α : Type} : Res ε α → Option α | .ok a => some a | _ => none
def cols (s : String) : Option (Nat × Nat) := do
  let (sm, r) := Literal.fromStr .init s.toList
  let (_, span) ← okVal r
  let a ← okVal (Span.start (ε := Unit) sm span)
  let b ← okVal (Span.end_ (ε := Unit) sm span)
  some (a.column, b.column)
example : cols "0.1" = some (0, 3) ∧ cols "-0.1" = some (0, 4) := by decide +kernel
example : (do
    let (sm, r) := Literal.fromStr .init "0.1".toList
    let (_, span) ← okVal r
    let sub ← subspan span (.included 1) (.excluded 2)
    let (_, t) ← okVal (Span.sourceText (ε := Unit) sm sub)
    t) = some ['.'] ∧
  ((okVal (Literal.fromStr .init "0.1".toList).2).bind fun (_, span) => subspan span (.included 1) (.excluded 4)) = none := by
  decide +kernel

/- `source_text`: the queries in the order of the test, with the cache between them -/
example : (do
    let (sm, r) := TokenStream.fromStr .init "    𓀕 a z    ".toList
    let ts ← okVal r
    let first ← ts[0]?
    let second ← ts[1]?
    let third ← ts[2]?
    let (sm, t₁) ← okVal (Span.sourceText (ε := Unit) sm first.span)
    let (sm, t₃) ← okVal (Span.sourceText (ε := Unit) sm third.span)
    let (_, t₂) ← okVal (Span.sourceText (ε := Unit) sm second.span)
    some (t₁, t₃, t₂)) = some (some ['𓀕'], some ['z'], some ['a']) := by decide +kernel

/- `lifetimes` -/
def shape (s : String) : Option (List (Char ⊕ List Char × Bool)) := (stream s).bind fun ts => ts.mapM fun
  | .punct c sp _ => if c = '\'' then if sp = .joint then some (.inl c) else none else if sp = .alone then some (.inl c) else none
  | .ident sym raw _ => some (.inr (sym, raw))
  | _ => none
example : shape "'a 'static 'struct 'r#gen 'r#prefix#lifetime" =
    some [.inl '\'', .inr ("a".toList, false), .inl '\'', .inr ("static".toList, false), .inl '\'',
      .inr ("struct".toList, false), .inl '\'', .inr ("gen".toList, true), .inl '\'', .inr ("prefix".toList, true),
      .inl '#', .inr ("lifetime".toList, false)] := by decide +kernel
example : okVal (IdentData.eqStr (ε := Unit) ⟨"gen".toList, true⟩ "r#gen".toList) = some true ∧
    okVal (IdentData.eqStr (ε := Unit) ⟨"a".toList, false⟩ "a".toList) = some true := by decide +kernel
example : fails "' a" ∧ fails "' r#gen" ∧ fails "' prefix#lifetime" ∧ fails "'prefix#lifetime" ∧ fails "'aa'bb" ∧
    fails "'r#gen'a" := by decide +kernel

/- `roundtrip` -/
def roundtrip (p : String) : Bool :=
  match stream p with
  | some ts =>
    match stream (String.ofList (display ts)) with
    | some ts' => display ts == display ts'
    | none => false
  | none => false
example : roundtrip "a" ∧ roundtrip "<<" ∧ roundtrip "<<=" ∧ roundtrip "
        1
        1.0
        1f32
        2f64
        1usize
        4isize
        4e10
        1_000
        1_0i32
        8u8
        9
        0
        0xffffffffffffffffffffffffffffffff
        1x
        1u80
        1f320
    " ∧ roundtrip "'a" ∧ roundtrip "'_" ∧ roundtrip "'static" ∧ roundtrip "'\\u{10__FFFF}'" ∧
    roundtrip "\"\\u{10_F0FF__}foo\\u{1_0_0_0__}\"" := by decide +kernel

/- `fail` -/
example : fails "' static" ∧ fails "r#1" ∧ fails "r#_" ∧ fails "\"\\u{0000000}\"" ∧ fails "\"\\u{999999}\"" ∧
    fails "\"\\u{_0}\"" ∧ fails "\"\\u{}\"" ∧ fails "b\"\r\"" ∧ fails "r\"\r\"" ∧ fails "\"\\\r  \"" ∧ fails "'aa'aa" ∧
    fails "br##\"\"#" ∧ fails "cr##\"\"#" ∧ fails "\"\\\n\u0085\r\"" := by decide +kernel

mutual
/-- The lines and columns of the trees in the order of `check_spans_internal`. -/
def spansTree (sm : SourceMap) : TokenTree → List (Option (Nat × Nat × Nat × Nat))
  | .group _ ts s => spanOf sm s :: spansTrees sm ts
  | t => [spanOf sm t.span]
def spansTrees (sm : SourceMap) : List TokenTree → List (Option (Nat × Nat × Nat × Nat))
  | [] => []
  | t :: ts => spansTree sm t ++ spansTrees sm ts
def spanOf (sm : SourceMap) (s : Span) : Option (Nat × Nat × Nat × Nat) := do
  let a ← okVal (Span.start (ε := Unit) sm s)
  let b ← okVal (Span.end_ (ε := Unit) sm s)
  some (a.line, a.column, b.line, b.column)
end
/-- The test stops at the end of its list, so the list is a prefix. -/
def checkSpans (p : String) (l : List (Nat × Nat × Nat × Nat)) : Bool :=
  match TokenStream.fromStr .init p.toList with
  | (sm, .ok ts) => (l.map some).isPrefixOf (spansTrees sm ts)
  | _ => false

/- `span_test` -/
example : checkSpans "/// This is a document comment\ntesting 123\n{\n  testing 234\n}"
    [(1, 0, 1, 30), (1, 0, 1, 30), (1, 0, 1, 30), (1, 0, 1, 30), (1, 0, 1, 30), (2, 0, 2, 7), (2, 8, 2, 11), (3, 0, 5, 1),
      (4, 2, 4, 9), (4, 10, 4, 13)] := by decide +kernel

/- `default_span` -/
example : okVal (Span.start (ε := Unit) .init .callSite) = some ⟨1, 0⟩ ∧ okVal (Span.end_ (ε := Unit) .init .callSite) = some ⟨1, 0⟩ ∧
    okVal (Span.file (ε := Unit) .init .callSite) = some "<unspecified>".toList ∧ Span.localFile .callSite = none := by
  decide +kernel

/- `span_join` -/
def spanJoin : Option Bool := do
    let (sm, r₁) := TokenStream.fromStr .init "aaa\nbbb".toList
    let (sm, r₂) := TokenStream.fromStr sm "ccc\nddd".toList
    let ts₁ ← okVal r₁
    let ts₂ ← okVal r₂
    let a ← ts₁[0]?
    let b ← ts₁[1]?
    let c ← ts₂[0]?
    let fa ← okVal (Span.file (ε := Unit) sm a.span)
    let fb ← okVal (Span.file (ε := Unit) sm b.span)
    let fc ← okVal (Span.file (ε := Unit) sm c.span)
    let j₁ ← okVal (Span.join (ε := Unit) sm a.span b.span)
    let j₂ ← okVal (Span.join (ε := Unit) sm a.span c.span)
    let j ← j₁
    let fj ← okVal (Span.file (ε := Unit) sm j)
    some (fa != fc && fa == fb && j₂.isNone && spanOf sm j == some (1, 0, 2, 3) && fj == fa)
example : spanJoin = some true := by decide +kernel

/- `no_panic`, `punct_before_comment`, `joint_last_token`, `raw_identifier` -/
example : fails "b'\u0086  \x00\x00\x00^\"" := by decide +kernel
example : stream "~// comment" = some [.punct '~' .alone ⟨1, 2⟩] := by decide +kernel
example : (okVal (punctNew (ε := Unit) ':' .joint)).map displayTree = some [':'] ∧
    Heap.splitToken (.punct ':' .joint .callSite) = [.punct ':' .joint .callSite] := by decide +kernel
example : (stream "r#dyn").map (·.map fun t => String.ofList (displayTree t)) = some ["r#dyn"] := by decide +kernel

/- `test_display_ident`, `test_debug_ident`, `test_display_tokenstream` -/
example : displayTreeFmt { fill := '-', align := some .center, width := some 14 } (.ident "proc_macro".toList false .callSite) =
    "proc_macro".toList ∧
  displayTreeFmt { fill := '-', align := some .center, width := some 14 } (.ident "proc_macro".toList true .callSite) =
    "r#proc_macro".toList := by decide +kernel
example : debugIdent true false "proc_macro".toList false .callSite = "Ident { sym: proc_macro }".toList ∧
    debugIdent false false "proc_macro".toList false .callSite = "Ident(proc_macro)".toList ∧
    debugIdent true false "proc_macro".toList true .callSite = "Ident { sym: r#proc_macro }".toList ∧
    debugIdent false false "proc_macro".toList true .callSite = "Ident(r#proc_macro)".toList := by decide +kernel
example : (stream "[a + 1]").map display = some "[a + 1]".toList ∧
    (stream "[a + 1]").map (displayFmt { fill := '-', align := some .center, width := some 5 }) = some "[a + 1]".toList := by
  decide +kernel

/- `test_debug_tokenstream` -/
example : (stream "[a + 1]").map (debugStream false true) = some "TokenStream [
    Group {
        delimiter: Bracket,
        stream: TokenStream [
            Ident {
                sym: a,
            },
            Punct {
                char: '+',
                spacing: Alone,
            },
            Literal {
                lit: 1,
            },
        ],
    },
]".toList := by decide +kernel
example : (stream "[a + 1]").map (debugStream true true) = some "TokenStream [
    Group {
        delimiter: Bracket,
        stream: TokenStream [
            Ident {
                sym: a,
                span: bytes(2..3),
            },
            Punct {
                char: '+',
                spacing: Alone,
                span: bytes(4..5),
            },
            Literal {
                lit: 1,
                span: bytes(6..7),
            },
        ],
        span: bytes(1..8),
    },
]".toList := by decide +kernel

/- `tokenstream_size_hint`, `tuple_indexing` -/
example : (stream "a b (c d) e").map (·.length) = some 4 := by decide +kernel
example : (stream "tuple.0.0").map (·.map fun t => String.ofList (displayTree t)) = some ["tuple", ".", "0.0"] := by
  decide +kernel

/- `non_ascii_tokens` -/
example : checkSpans "// abc" [] ∧ checkSpans "// ábc" [] ∧ checkSpans "// abc x" [] ∧ checkSpans "// ábc x" [] ∧
    checkSpans "/* abc */ x" [(1, 10, 1, 11)] ∧ checkSpans "/* ábc */ x" [(1, 10, 1, 11)] ∧
    checkSpans "/* ab\nc */ x" [(2, 5, 2, 6)] ∧ checkSpans "/* áb\nc */ x" [(2, 5, 2, 6)] ∧
    checkSpans "/*** abc */ x" [(1, 12, 1, 13)] ∧ checkSpans "/*** ábc */ x" [(1, 12, 1, 13)] ∧
    checkSpans "\"abc\"" [(1, 0, 1, 5)] ∧ checkSpans "\"ábc\"" [(1, 0, 1, 5)] ∧
    checkSpans "r#\"abc\"#" [(1, 0, 1, 8)] ∧ checkSpans "r#\"ábc\"#" [(1, 0, 1, 8)] ∧
    checkSpans "r#\"a\nc\"#" [(1, 0, 2, 3)] ∧ checkSpans "r#\"á\nc\"#" [(1, 0, 2, 3)] ∧
    checkSpans "'a'" [(1, 0, 1, 3)] ∧ checkSpans "'á'" [(1, 0, 1, 3)] := by decide +kernel
example : checkSpans "//! abc" [(1, 0, 1, 7), (1, 0, 1, 7), (1, 0, 1, 7)] ∧
    checkSpans "//! ábc" [(1, 0, 1, 7), (1, 0, 1, 7), (1, 0, 1, 7)] ∧
    checkSpans "//! abc\n" [(1, 0, 1, 7), (1, 0, 1, 7), (1, 0, 1, 7)] ∧
    checkSpans "//! ábc\n" [(1, 0, 1, 7), (1, 0, 1, 7), (1, 0, 1, 7)] ∧
    checkSpans "/*! abc */" [(1, 0, 1, 10), (1, 0, 1, 10), (1, 0, 1, 10)] ∧
    checkSpans "/*! ábc */" [(1, 0, 1, 10), (1, 0, 1, 10), (1, 0, 1, 10)] ∧
    checkSpans "/*! a\nc */" [(1, 0, 2, 4), (1, 0, 2, 4), (1, 0, 2, 4)] ∧
    checkSpans "/*! á\nc */" [(1, 0, 2, 4), (1, 0, 2, 4), (1, 0, 2, 4)] ∧
    checkSpans "abc" [(1, 0, 1, 3)] ∧ checkSpans "ábc" [(1, 0, 1, 3)] ∧ checkSpans "ábć" [(1, 0, 1, 3)] ∧
    checkSpans "abc// foo" [(1, 0, 1, 3)] ∧ checkSpans "ábc// foo" [(1, 0, 1, 3)] ∧ checkSpans "ábć// foo" [(1, 0, 1, 3)] ∧
    checkSpans "b\"a\\\n c\"" [(1, 0, 2, 3)] := by decide +kernel

/- `whitespace`, `byte_order_mark` -/
example : count " \t\x0b\x0c\r\n\u00a0\u200e\u200f" = some 0 ∧ parses " \r \r\r\n " := by decide +kernel
example : (stream "\ufefffoo").map (·.map displayTree) = some ["foo".toList] ∧ fails "foo\ufeff" := by decide +kernel

/- `test_invalidate_current_thread_spans`, `test_use_span_after_invalidation` -/
def createSpan (sm : SourceMap) : SourceMap × Option Span :=
  match TokenStream.fromStr sm ['1'] with
  | (sm, .ok (t :: _)) => (sm, some t.span)
  | (sm, _) => (sm, none)
example : (createSpan .init).2.map (debugSpan true) = some "bytes(1..2)".toList ∧
    (createSpan (createSpan .init).1).2.map (debugSpan true) = some "bytes(3..4)".toList ∧
    (createSpan (createSpan (createSpan .init).1).1.invalidate).2.map (debugSpan true) = some "bytes(1..2)".toList := by
  decide +kernel
example : (createSpan .init).2.map (fun s =>
    match Span.sourceText (ε := Unit) (createSpan .init).1.invalidate s with | .panic => true | _ => false) = some true := by
  decide +kernel

/-! ## tests/comments.rs -/

/-- `lit_of_doc_comment`. -/
def docLit (inner : Bool) (s : String) : Option String :=
  match stream s, inner with
  | some [.punct '#' .alone _, .group .bracket [.ident ['d', 'o', 'c'] false _, .punct '=' .alone _, .literal l _] _], false =>
    some (String.ofList l)
  | some [.punct '#' .alone _, .punct '!' .alone _,
      .group .bracket [.ident ['d', 'o', 'c'] false _, .punct '=' .alone _, .literal l _] _], true =>
    some (String.ofList l)
  | _, _ => none

/- `closed_immediately`, `incomplete`, `lit`, `carriage_return` -/
example : count "/**/" = some 0 ∧ fails "/*/" := by decide +kernel
example : docLit false "/// doc" = some "\" doc\"" ∧ docLit true "//! doc" = some "\" doc\"" ∧
    docLit false "/** doc */" = some "\" doc \"" ∧ docLit true "/*! doc */" = some "\" doc \"" := by decide +kernel
example : docLit false "///\r\n" = some "\"\"" ∧ docLit false "/**\r\n*/" = some "\"\\r\\n\"" ∧ fails "///\r" ∧
    fails "///\r \n" ∧ fails "/**\r \n*/" := by decide +kernel

/-! ## tests/test_fmt.rs -/

example : let x := [TokenTree.ident ['x'] false .callSite]
    let show_ (d : Delimiter) (ts : List TokenTree) := String.ofList (displayTree (groupNew d ts))
    show_ .parenthesis [] = "()" ∧ show_ .parenthesis x = "(x)" ∧ show_ .bracket [] = "[]" ∧ show_ .bracket x = "[x]" ∧
    show_ .brace [] = "{ }" ∧ show_ .brace x = "{ x }" ∧ show_ .none [] = "" ∧ show_ .none x = "x" := by decide +kernel

end PM2.Tests
