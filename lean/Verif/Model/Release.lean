import Verif.Model.SourceMap
/-!
# Parsing with overflow checks off

A release build has no overflow checks unless the profile asks for them: `u32` additions wrap around.
Parsing adds positions in three places, `Cursor::advance`, `next_start_pos` and `add_file`; these are
modelled here with wrapping additions. The lexer is the one of `Verif/Model/Parse.lean` at positions of
type `UInt32`.
-/

namespace PM2

/-- With `span_locations` and without overflow checks: src/parse.rs:24-25 wraps around. -/
instance : Pos UInt32 := ⟨fun off n => .ok (off + UInt32.ofNat n), fun lo hi => ⟨lo.toNat, hi.toNat⟩⟩

/-- `u32` addition without overflow checks. -/
def wrapAddU32 (a b : Nat) : Nat := (a + b) % u32Size

namespace Release

/-- src/fallback.rs:456-462 `SourceMap::next_start_pos`. -/
def nextStartPos {ε : Type} (sm : SourceMap) : Res ε Nat :=
  match sm.files.getLast? with
  | none => .panic
  | some f => .ok (wrapAddU32 f.span.hi 1)

/-- src/fallback.rs:464-481 `SourceMap::add_file`. -/
def addFile {ε : Type} (sm : SourceMap) (src : List Char) : Res ε (SourceMap × Span) := do
  let (len, lines) := linesOffsets src
  let lo ← nextStartPos sm
  let span : Span := ⟨lo, wrapAddU32 lo (asU32 len)⟩
  .ok (⟨sm.files ++ [⟨src, span, lines, []⟩]⟩, span)

/-- src/fallback.rs:197-211 `get_cursor`. -/
def getCursor {ε : Type} (sm : SourceMap) (src : List Char) :
    Res ε (SourceMap × Cursor UInt32) := do
  let (sm, span) ← addFile sm src
  .ok (sm, ⟨src, UInt32.ofNat span.lo⟩)

section
variable [UnicodeTables]

/-- src/fallback.rs:83-94 `TokenStream::from_str_checked` on a thread with source map `sm`. -/
def fromStr (sm : SourceMap) (src : List Char) : SourceMap × Res Span (List TokenTree) :=
  match getCursor (ε := Span) sm src with
  | .ok (sm, cursor) => (sm, fromStrAt src cursor.off)
  | .err e => (sm, .err e)
  | .panic => (sm, .panic)
  | .diverge => (sm, .diverge)

/-- src/fallback.rs:972-1000 `Literal::from_str_checked` on a thread with source map `sm`. -/
def literalFromStr (sm : SourceMap) (src : List Char) :
    SourceMap × Res Span (List Char × Span) :=
  match getCursor (ε := Span) sm src with
  | .ok (sm, cursor) => (sm, literalFromStrAt src cursor.off)
  | .err e => (sm, .err e)
  | .panic => (sm, .panic)
  | .diverge => (sm, .diverge)

end

/-! ### Span queries

`SourceMap::find`, `span_within` and the methods that use only these do no arithmetic and are those of
`Verif/Model/SourceMap.lean`. -/

/-- `u32` subtraction without overflow checks. -/
def wrapSubU32 (a b : Nat) : Nat := if a < b then a + u32Size - b else a - b

/-- `usize` subtraction without overflow checks, on a 64-bit machine. -/
def wrapSubUsize (a b : Nat) : Nat := if a < b then a + 2 ^ 64 - b else a - b

/-- src/fallback.rs:381-424 `FileInfo::byte`. -/
def byte {ε : Type} (fi : FileInfo) (ch : Nat) : Res ε (FileInfo × Nat) :=
  fi.byteAt (wrapSubU32 ch fi.span.lo)

/-- src/fallback.rs:377-379 `FileInfo::byte_range`. -/
def byteRangeOf {ε : Type} (fi : FileInfo) (span : Span) : Res ε (FileInfo × Nat × Nat) := do
  let (fi, a) ← byte fi span.lo
  let (fi, b) ← byte fi span.hi
  .ok (fi, a, b)

/-- src/fallback.rs:426-429 `FileInfo::source_text`. -/
def sourceTextOf {ε : Type} (fi : FileInfo) (span : Span) : Res ε (FileInfo × List Char) := do
  let (fi, a, b) ← byteRangeOf fi span
  let t ← slice fi.sourceText a b
  .ok (fi, t)

/-- src/fallback.rs:355-371 `FileInfo::offset_line_column`. -/
def offsetLineColumn {ε : Type} (fi : FileInfo) (offset : Nat) : Res ε LineColumn :=
  if !fi.spanWithin ⟨asU32 offset, asU32 offset⟩ then .panic
  else do
    let offset := wrapSubUsize offset fi.span.lo
    let r ← binarySearchBy (fun x => .ok (compare x offset)) fi.lines
    match r with
    | .inl found => .ok ⟨found + 1, 0⟩
    | .inr idx =>
      match fi.lines[wrapSubUsize idx 1]? with
      | none => .panic
      | some start => .ok ⟨idx, wrapSubUsize offset start⟩

/-- src/fallback.rs:558-571 `Span::byte_range`. -/
def byteRange {ε : Type} (sm : SourceMap) (s : Span) : Res ε (SourceMap × Nat × Nat) :=
  if s.isCallSite then .ok (sm, 0, 0)
  else sm.withFile s (fun f => byteRangeOf f s)

/-- src/fallback.rs:648-661 `Span::source_text`. -/
def sourceText {ε : Type} (sm : SourceMap) (s : Span) : Res ε (SourceMap × Option (List Char)) :=
  if s.isCallSite then .ok (sm, none)
  else sm.withFile s (fun f => do
    let (f, t) ← sourceTextOf f s
    .ok (f, some t))

/-- src/fallback.rs:573-584 `Span::start`. -/
def start {ε : Type} (sm : SourceMap) (s : Span) : Res ε LineColumn := do
  let fi ← sm.fileinfo s
  offsetLineColumn fi s.lo

/-- src/fallback.rs:586-597 `Span::end`. -/
def end_ {ε : Type} (sm : SourceMap) (s : Span) : Res ε LineColumn := do
  let fi ← sm.fileinfo s
  offsetLineColumn fi s.hi

end Release
end PM2
