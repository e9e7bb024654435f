import Verif.Model.Parse
/-!
# The thread's source map and the span API (src/fallback.rs:318-693, 1157-1196)

The thread-local `SOURCE_MAP` is the explicit state `SourceMap`. Configuration `span_locations` on,
`fuzzing` off. `u32` additions are checked (a debug build panics on overflow; a release build wraps
around, which src/extra.rs:13-24 documents as producing nonsense).
-/

namespace PM2

/-! ### Standard library pieces -/

/-- The loop of `slice::binary_search_by` (std): `while size > 1`. The comparison closure may
panic. The probing strategy is the one of current std releases; std only promises the result for
sorted slices. -/
def bsearchLoop {α ε : Type} (f : α → Res ε Ordering) (a : List α) :
    (fuel size base : Nat) → Res ε Nat
  | 0, _, _ => .diverge
  | fuel + 1, size, base =>
    if 1 < size then
      let half := size / 2
      let mid := base + half
      match a[mid]? with
      | none => .panic
      | some x => do
        let c ← f x
        bsearchLoop f a fuel (size - half) (if c = .gt then base else mid)
    else .ok base

/-- `slice::binary_search_by` (std): `.inl i` is `Ok(i)`, `.inr i` is `Err(i)`. -/
def binarySearchBy {α ε : Type} (f : α → Res ε Ordering) (a : List α) : Res ε (Nat ⊕ Nat) :=
  if a.length = 0 then .ok (.inr 0)
  else do
    let base ← bsearchLoop f a (a.length + 1) a.length 0
    match a[base]? with
    | none => .panic
    | some x => do
      let c ← f x
      match c with
      | .eq => .ok (.inl base)
      | .lt => .ok (.inr (base + 1))
      | .gt => .ok (.inr base)

/-- `BTreeMap<usize, usize>`: the entries in key order. -/
abbrev ByteCache := List (Nat × Nat)

/-- `BTreeMap::insert`. -/
def ByteCache.insert : ByteCache → Nat → Nat → ByteCache
  | [], k, v => [(k, v)]
  | (k', v') :: m, k, v =>
    if k < k' then (k, v) :: (k', v') :: m
    else if k = k' then (k, v) :: m
    else (k', v') :: ByteCache.insert m k v

/-- `map.range(..=k).next_back()`. -/
def ByteCache.floor (m : ByteCache) (k : Nat) : Option (Nat × Nat) :=
  (m.filter (fun e => e.1 ≤ k)).getLast?

/-- `map.range(k..).next()`. -/
def ByteCache.ceil (m : ByteCache) (k : Nat) : Option (Nat × Nat) :=
  (m.filter (fun e => k ≤ e.1)).head?

/-- `str::char_indices` as a list. -/
def charIndicesFrom : List Char → Nat → List (Nat × Char)
  | [], _ => []
  | c :: s, i => (i, c) :: charIndicesFrom s (i + c.utf8Size)

/-- `str::char_indices` as a list. -/
def charIndices (s : List Char) : List (Nat × Char) := charIndicesFrom s 0

/-! ### Files -/

/-- src/location.rs:7-15 `LineColumn`. -/
structure LineColumn where
  line : Nat
  column : Nat
deriving DecidableEq, Repr

/-- src/location.rs:17-23 `Ord for LineColumn`; `PartialOrd` (25-29) is this. -/
def LineColumn.cmp (a b : LineColumn) : Ordering :=
  (compare a.line b.line).then (compare a.column b.column)

/-- src/fallback.rs:345-351 `FileInfo`. -/
structure FileInfo where
  sourceText : List Char
  span : Span
  lines : List Nat
  cache : ByteCache
deriving DecidableEq, Repr

/-- src/fallback.rs:432-447 `lines_offsets`: the loop. -/
def linesOffsetsLoop : List Char → Nat → List Nat → Nat × List Nat
  | [], total, lines => (total, lines)
  | ch :: s, total, lines =>
    linesOffsetsLoop s (total + 1) (if ch = '\n' then lines ++ [total + 1] else lines)

/-- src/fallback.rs:432-447 `lines_offsets`. -/
def linesOffsets (s : List Char) : Nat × List Nat := linesOffsetsLoop s 0 [0]

/-- src/fallback.rs:373-375 `FileInfo::span_within`. -/
def FileInfo.spanWithin (fi : FileInfo) (span : Span) : Bool :=
  decide (span.lo ≥ fi.span.lo) && decide (span.hi ≤ fi.span.hi)

/-- src/fallback.rs:355-371 `FileInfo::offset_line_column`. -/
def FileInfo.offsetLineColumn {ε : Type} (fi : FileInfo) (offset : Nat) : Res ε LineColumn :=
  if !fi.spanWithin ⟨asU32 offset, asU32 offset⟩ then .panic
  else if offset < fi.span.lo then .panic
  else do
    let offset := offset - fi.span.lo
    let r ← binarySearchBy (fun x => .ok (compare x offset)) fi.lines
    match r with
    | .inl found => .ok ⟨found + 1, 0⟩
    | .inr idx =>
      if idx = 0 then .panic
      else match fi.lines[idx - 1]? with
        | none => .panic
        | some start => if offset < start then .panic else .ok ⟨idx, offset - start⟩

/-- src/fallback.rs:385-424 `FileInfo::byte` after its first line. -/
def FileInfo.byteAt {ε : Type} (fi : FileInfo) (charIndex : Nat) : Res ε (FileInfo × Nat) :=
    let (prevChar, prevByte) := (fi.cache.floor charIndex).getD (0, 0)
    if prevChar = charIndex then .ok (fi, prevByte)
    else do
      let fromPrev : Res ε Nat := do
        let tail ← sliceFrom fi.sourceText prevByte
        match (charIndices tail)[charIndex - prevChar]? with
        | some (b, _) => .ok (prevByte + b)
        | none => .ok (strLen fi.sourceText)
      let byteOffset ← (match fi.cache.ceil charIndex with
        | some (nextChar, nextByte) =>
          if nextChar - charIndex < charIndex - prevChar then do
            let pre ← sliceTo fi.sourceText nextByte
            if nextChar - charIndex = 0 then .panic
            else match (charIndices pre).reverse[nextChar - charIndex - 1]? with
              | some (b, _) => .ok b
              | none => .panic
          else fromPrev
        | none => fromPrev)
      .ok ({ fi with cache := fi.cache.insert charIndex byteOffset }, byteOffset)

/-- src/fallback.rs:381-424 `FileInfo::byte`. -/
def FileInfo.byte {ε : Type} (fi : FileInfo) (ch : Nat) : Res ε (FileInfo × Nat) :=
  if ch < fi.span.lo then .panic
  else fi.byteAt (ch - fi.span.lo)

/-- src/fallback.rs:377-379 `FileInfo::byte_range`. -/
def FileInfo.byteRange {ε : Type} (fi : FileInfo) (span : Span) : Res ε (FileInfo × Nat × Nat) := do
  let (fi, a) ← fi.byte span.lo
  let (fi, b) ← fi.byte span.hi
  .ok (fi, a, b)

/-- src/fallback.rs:426-429 `FileInfo::source_text`. -/
def FileInfo.sourceTextOf {ε : Type} (fi : FileInfo) (span : Span) :
    Res ε (FileInfo × List Char) := do
  let (fi, a, b) ← fi.byteRange span
  let t ← slice fi.sourceText a b
  .ok (fi, t)

/-! ### The source map -/

/-- src/fallback.rs:449-452 `SourceMap`; the thread-local state. -/
structure SourceMap where
  files : List FileInfo
deriving DecidableEq, Repr

/-- src/fallback.rs:325-337: the initial `SOURCE_MAP` with its dummy file. -/
def SourceMap.init : SourceMap := ⟨[⟨[], ⟨0, 0⟩, [0], []⟩]⟩

/-- src/fallback.rs:339-343 `invalidate_current_thread_spans`, and src/extra.rs:71-75, which forwards to it. -/
def SourceMap.invalidate (sm : SourceMap) : SourceMap := ⟨sm.files.take 1⟩

/-- src/fallback.rs:456-462 `SourceMap::next_start_pos`. -/
def SourceMap.nextStartPos {ε : Type} (sm : SourceMap) : Res ε Nat :=
  match sm.files.getLast? with
  | none => .panic
  | some f => addU32 f.span.hi 1

/-- src/fallback.rs:464-481 `SourceMap::add_file`. -/
def SourceMap.addFile {ε : Type} (sm : SourceMap) (src : List Char) : Res ε (SourceMap × Span) := do
  let (len, lines) := linesOffsets src
  let lo ← sm.nextStartPos
  let hi ← addU32 lo (asU32 len)
  let span : Span := ⟨lo, hi⟩
  .ok (⟨sm.files ++ [⟨src, span, lines, []⟩]⟩, span)

/-- src/fallback.rs:483-497 `SourceMap::find`. -/
def SourceMap.find {ε : Type} (sm : SourceMap) (span : Span) : Res ε Nat := do
  let r ← binarySearchBy (fun file =>
    if file.span.hi < span.lo then .ok .lt
    else if file.span.lo > span.hi then .ok .gt
    else if file.spanWithin span then .ok .eq else .panic) sm.files
  match r with
  | .inl i => .ok i
  | .inr _ => .panic

/-- src/fallback.rs:508-511 `SourceMap::fileinfo`. -/
def SourceMap.fileinfo {ε : Type} (sm : SourceMap) (span : Span) : Res ε FileInfo := do
  let i ← sm.find span
  match sm.files[i]? with
  | some f => .ok f
  | none => .panic

/-- The file index reported by `SourceMap::filepath` (src/fallback.rs:499-506): `none` is
`<unspecified>`, `some i` is `<parsed string i>`. -/
def SourceMap.filepathIndex {ε : Type} (sm : SourceMap) (span : Span) : Res ε (Option Nat) := do
  let i ← sm.find span
  .ok (if i = 0 then none else some i)

/-- The text produced by `SourceMap::filepath` (src/fallback.rs:499-506). -/
def filepathText : Option Nat → List Char
  | none => "<unspecified>".toList
  | some i => "<parsed string ".toList ++ Nat.toDigits 10 i ++ ['>']

/-- src/fallback.rs:499-506 `SourceMap::filepath`. -/
def SourceMap.filepath {ε : Type} (sm : SourceMap) (span : Span) : Res ε (List Char) := do
  let i ← sm.filepathIndex span
  .ok (filepathText i)

/-- `fileinfo_mut(span)` (src/fallback.rs:513-516) followed by an update of that file. -/
def SourceMap.withFile {ε α : Type} (sm : SourceMap) (span : Span)
    (k : FileInfo → Res ε (FileInfo × α)) : Res ε (SourceMap × α) := do
  let i ← sm.find span
  match sm.files[i]? with
  | some f => do
    let (f, a) ← k f
    .ok (⟨sm.files.set i f⟩, a)
  | none => .panic

/-! ### The span API -/

/-- src/fallback.rs:690-692 `Span::is_call_site`. -/
def Span.isCallSite (s : Span) : Bool := s.lo == 0 && s.hi == 0

/-- src/fallback.rs:558-571 `Span::byte_range`. -/
def Span.byteRange {ε : Type} (sm : SourceMap) (s : Span) : Res ε (SourceMap × Nat × Nat) :=
  if s.isCallSite then .ok (sm, 0, 0)
  else sm.withFile s (fun f => f.byteRange s)

/-- src/fallback.rs:573-584 `Span::start`. -/
def Span.start {ε : Type} (sm : SourceMap) (s : Span) : Res ε LineColumn := do
  let fi ← sm.fileinfo s
  fi.offsetLineColumn s.lo

/-- src/fallback.rs:586-597 `Span::end`. -/
def Span.end_ {ε : Type} (sm : SourceMap) (s : Span) : Res ε LineColumn := do
  let fi ← sm.fileinfo s
  fi.offsetLineColumn s.hi

/-- src/fallback.rs:599-609 `Span::file`. -/
def Span.file {ε : Type} (sm : SourceMap) (s : Span) : Res ε (List Char) := sm.filepath s

/-- src/fallback.rs:611-614 `Span::local_file`. -/
def Span.localFile (_s : Span) : Option (List Char) := none

/-- src/fallback.rs:621-641 `Span::join`. -/
def Span.join {ε : Type} (sm : SourceMap) (s other : Span) : Res ε (Option Span) := do
  let fi ← sm.fileinfo s
  if !fi.spanWithin other then .ok none
  else .ok (some ⟨min s.lo other.lo, max s.hi other.hi⟩)

/-- src/fallback.rs:648-661 `Span::source_text`. -/
def Span.sourceText {ε : Type} (sm : SourceMap) (s : Span) :
    Res ε (SourceMap × Option (List Char)) :=
  if s.isCallSite then .ok (sm, none)
  else sm.withFile s (fun f => do
    let (f, t) ← f.sourceTextOf s
    .ok (f, some t))

/-- `u32::saturating_add`. -/
def satAddU32 (a b : Nat) : Nat := min (a + b) (u32Size - 1)

/-- src/fallback.rs:668-674 `Span::first_byte`; also `Group::span_open` (746-748). -/
def Span.firstByte (s : Span) : Span := ⟨s.lo, min (satAddU32 s.lo 1) s.hi⟩

/-- src/fallback.rs:681-687 `Span::last_byte`; also `Group::span_close` (750-752). -/
def Span.lastByte (s : Span) : Span := ⟨max (s.hi - 1) s.lo, s.hi⟩

/-- src/fallback.rs:547-552 `Span::resolved_at`. -/
def Span.resolvedAt (s _other : Span) : Span := s

/-- src/fallback.rs:554-556 `Span::located_at`. -/
def Span.locatedAt (_s other : Span) : Span := other

/-- `core::ops::Bound<usize>`. -/
inductive Bound where
  | included (n : Nat)
  | excluded (n : Nat)
  | unbounded
deriving DecidableEq, Repr

/-- `u32::checked_add`. -/
def checkedAddU32 (a b : Nat) : Option Nat := if a + b < u32Size then some (a + b) else none

/-- `u32::try_from(usize).ok()`. -/
def u32TryFrom (n : Nat) : Option Nat := if n < u32Size then some n else none

/-- src/fallback.rs:1157-1196 `Literal::subspan`, for a literal with span `s`. -/
def subspan (s : Span) (start end_ : Bound) : Option Span := do
  let lo ← (match start with
    | .included n => do checkedAddU32 s.lo (← u32TryFrom n)
    | .excluded n => do checkedAddU32 (← checkedAddU32 s.lo (← u32TryFrom n)) 1
    | .unbounded => some s.lo)
  let hi ← (match end_ with
    | .included n => do checkedAddU32 (← checkedAddU32 s.lo (← u32TryFrom n)) 1
    | .excluded n => do checkedAddU32 s.lo (← u32TryFrom n)
    | .unbounded => some s.hi)
  if lo ≤ hi ∧ hi ≤ s.hi then some ⟨lo, hi⟩ else none

/-! ### Parsing on a thread -/

section
variable [UnicodeTables]

/-- src/fallback.rs:197-211 `get_cursor`. -/
def getCursor {ε : Type} (sm : SourceMap) (src : List Char) : Res ε (SourceMap × Cursor Nat) := do
  let (sm, span) ← sm.addFile src
  .ok (sm, ⟨src, span.lo⟩)

/-- src/fallback.rs:83-94 `TokenStream::from_str_checked` on a thread with source map `sm`: the new
source map (the file is registered even when parsing fails) and the result. The part after
`get_cursor` is `fromStrAt`. -/
def TokenStream.fromStr (sm : SourceMap) (src : List Char) :
    SourceMap × Res Span (List TokenTree) :=
  match getCursor (ε := Span) sm src with
  | .ok (sm, cursor) => (sm, fromStrAt src cursor.off)
  | .err e => (sm, .err e)
  | .panic => (sm, .panic)
  | .diverge => (sm, .diverge)

/-- src/fallback.rs:972-1000 `Literal::from_str_checked` on a thread with source map `sm`. -/
def Literal.fromStr (sm : SourceMap) (src : List Char) :
    SourceMap × Res Span (List Char × Span) :=
  match getCursor (ε := Span) sm src with
  | .ok (sm, cursor) => (sm, literalFromStrAt src cursor.off)
  | .err e => (sm, .err e)
  | .panic => (sm, .panic)
  | .diverge => (sm, .diverge)

end

end PM2
