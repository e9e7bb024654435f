import Verif.Model.SourceMap
import Verif.Model.Timed
/-!
# The source map with a count of the steps (src/fallback.rs:197-211, 345-516, 558-661, 972-1000)

The functions of `Verif.Model.SourceMap` again, in the monad that counts steps. A step is a call, an iteration of a loop, or
a character that is copied, counted or passed. In detail:

- the text of a source is copied and its characters are counted (src/fallback.rs:432-447, 464-481);
- `binary_search` takes a step for each comparison;
- a look-up or an insertion in a `BTreeMap` of `n` entries takes `log2 n + 1` steps;
- `char_indices().nth(k)` and `nth_back(k)` pass at most `k + 1` characters (src/fallback.rs:403-407, 410-413);
- the text of a span is copied (src/fallback.rs:426-429), and so is the name of a file (src/fallback.rs:499-506).

That the functions compute the same results as those of `Verif.Model.SourceMap` is proved (`Proof/TimedMap.lean`).
-/

namespace PM2.TM
open Timed (tick step)

variable {ε : Type}

/-- The loop of `slice::binary_search_by` (std). -/
def bsearchLoop {α : Type} (f : α → Res ε Ordering) (a : List α) : (fuel size base : Nat) → Timed ε Nat
  | 0, _, _ => .diverge
  | fuel + 1, size, base =>
    if 1 < size then tick 1 <|
      let half := size / 2
      let mid := base + half
      match a[mid]? with
      | none => .panic
      | some x => do
        let c ← (⟨f x, 0⟩ : Timed ε Ordering)
        bsearchLoop f a fuel (size - half) (if c = .gt then base else mid)
    else .ok base

/-- `slice::binary_search_by` (std). -/
def binarySearchBy {α : Type} (f : α → Res ε Ordering) (a : List α) : Timed ε (Nat ⊕ Nat) := tick 1 <|
  if a.length = 0 then .ok (.inr 0)
  else do
    let base ← bsearchLoop f a (a.length + 1) a.length 0
    match a[base]? with
    | none => .panic
    | some x => tick 1 do
      let c ← (⟨f x, 0⟩ : Timed ε Ordering)
      match c with
      | .eq => .ok (.inl base)
      | .lt => .ok (.inr (base + 1))
      | .gt => .ok (.inr base)

/-- The steps of an operation on a `BTreeMap`. -/
def mapCost (m : ByteCache) : Nat := Nat.log2 m.length + 1

/-- src/fallback.rs:432-447 `lines_offsets`. -/
def linesOffsets (s : List Char) : Timed ε (Nat × List Nat) := tick (1 + s.length) (.ok (PM2.linesOffsets s))

/-- src/fallback.rs:355-371 `FileInfo::offset_line_column`. -/
def offsetLineColumn (fi : FileInfo) (offset : Nat) : Timed ε LineColumn := tick 1 <|
  if !fi.spanWithin ⟨asU32 offset, asU32 offset⟩ then .panic
  else if offset < fi.span.lo then .panic
  else do
    let offset := offset - fi.span.lo
    let r ← binarySearchBy (fun x => .ok (compare x offset)) fi.lines
    match r with
    | .inl found => .ok ⟨found + 1, 0⟩
    | .inr idx =>
      if idx = 0 then .panic
      else match fi.lines[idx - 1]? with
        | none => .panic
        | some start => if offset < start then .panic else .ok ⟨idx, offset - start⟩

/-- src/fallback.rs:385-424 `FileInfo::byte` after its first line. -/
def byteAt (fi : FileInfo) (charIndex : Nat) : Timed ε (FileInfo × Nat) := tick (mapCost fi.cache) <|
    let (prevChar, prevByte) := (fi.cache.floor charIndex).getD (0, 0)
    if prevChar = charIndex then .ok (fi, prevByte)
    else do
      let fromPrev : Timed ε Nat := tick (charIndex - prevChar + 1) do
        let tail ← (⟨sliceFrom fi.sourceText prevByte, 0⟩ : Timed ε (List Char))
        match (charIndices tail)[charIndex - prevChar]? with
        | some (b, _) => .ok (prevByte + b)
        | none => .ok (strLen fi.sourceText)
      let byteOffset ← tick (mapCost fi.cache) (match fi.cache.ceil charIndex with
        | some (nextChar, nextByte) =>
          if nextChar - charIndex < charIndex - prevChar then tick (nextChar - charIndex) do
            let pre ← (⟨sliceTo fi.sourceText nextByte, 0⟩ : Timed ε (List Char))
            if nextChar - charIndex = 0 then .panic
            else match (charIndices pre).reverse[nextChar - charIndex - 1]? with
              | some (b, _) => .ok b
              | none => .panic
          else fromPrev
        | none => fromPrev)
      tick (mapCost fi.cache) <|
        .ok ({ fi with cache := fi.cache.insert charIndex byteOffset }, byteOffset)

/-- src/fallback.rs:381-424 `FileInfo::byte`. -/
def byte (fi : FileInfo) (ch : Nat) : Timed ε (FileInfo × Nat) := tick 1 <|
  if ch < fi.span.lo then .panic
  else byteAt fi (ch - fi.span.lo)

/-- src/fallback.rs:377-379 `FileInfo::byte_range`. -/
def byteRange (fi : FileInfo) (span : Span) : Timed ε (FileInfo × Nat × Nat) := do
  let (fi, a) ← byte fi span.lo
  let (fi, b) ← byte fi span.hi
  .ok (fi, a, b)

/-- src/fallback.rs:426-429 `FileInfo::source_text`. -/
def sourceTextOf (fi : FileInfo) (span : Span) : Timed ε (FileInfo × List Char) := do
  let (fi, a, b) ← byteRange fi span
  let t ← (⟨slice fi.sourceText a b, 0⟩ : Timed ε (List Char))
  tick t.length (.ok (fi, t))

/-- src/fallback.rs:464-481 `SourceMap::add_file`, with 456-462 `next_start_pos`. -/
def addFile (sm : SourceMap) (src : List Char) : Timed ε (SourceMap × Span) := do
  let (len, lines) ← linesOffsets src
  let lo ← (⟨sm.nextStartPos, 1⟩ : Timed ε Nat)
  let hi ← (⟨addU32 lo (asU32 len), 0⟩ : Timed ε Nat)
  let span : Span := ⟨lo, hi⟩
  tick src.length <| .ok (⟨sm.files ++ [⟨src, span, lines, []⟩]⟩, span)

/-- src/fallback.rs:483-497 `SourceMap::find`. -/
def find (sm : SourceMap) (span : Span) : Timed ε Nat := do
  let r ← binarySearchBy (fun (file : FileInfo) =>
    if file.span.hi < span.lo then .ok .lt
    else if file.span.lo > span.hi then .ok .gt
    else if file.spanWithin span then .ok .eq else .panic) sm.files
  match r with
  | .inl i => .ok i
  | .inr _ => .panic

/-- src/fallback.rs:508-511 `SourceMap::fileinfo`. -/
def fileinfo (sm : SourceMap) (span : Span) : Timed ε FileInfo := do
  let i ← find sm span
  match sm.files[i]? with
  | some f => .ok f
  | none => .panic

/-- src/fallback.rs:499-506 `SourceMap::filepath`. -/
def filepath (sm : SourceMap) (span : Span) : Timed ε (List Char) := do
  let i ← find sm span
  let name := filepathText (if i = 0 then none else some i)
  tick name.length (.ok name)

/-- `fileinfo_mut(span)` (src/fallback.rs:513-516) followed by an update of that file. -/
def withFile {α : Type} (sm : SourceMap) (span : Span)
    (k : FileInfo → Timed ε (FileInfo × α)) : Timed ε (SourceMap × α) := do
  let i ← find sm span
  match sm.files[i]? with
  | some f => do
    let (f, a) ← k f
    .ok (⟨sm.files.set i f⟩, a)
  | none => .panic

/-- src/fallback.rs:558-571 `Span::byte_range`. -/
def spanByteRange (sm : SourceMap) (s : Span) : Timed ε (SourceMap × Nat × Nat) := tick 1 <|
  if s.isCallSite then .ok (sm, 0, 0)
  else withFile sm s (fun f => byteRange f s)

/-- src/fallback.rs:573-584 `Span::start`. -/
def spanStart (sm : SourceMap) (s : Span) : Timed ε LineColumn := tick 1 do
  let fi ← fileinfo sm s
  offsetLineColumn fi s.lo

/-- src/fallback.rs:586-597 `Span::end`. -/
def spanEnd (sm : SourceMap) (s : Span) : Timed ε LineColumn := tick 1 do
  let fi ← fileinfo sm s
  offsetLineColumn fi s.hi

/-- src/fallback.rs:599-609 `Span::file`. -/
def spanFile (sm : SourceMap) (s : Span) : Timed ε (List Char) := tick 1 (filepath sm s)

/-- src/fallback.rs:621-641 `Span::join`. -/
def spanJoin (sm : SourceMap) (s other : Span) : Timed ε (Option Span) := tick 1 do
  let fi ← fileinfo sm s
  if !fi.spanWithin other then .ok none
  else .ok (some ⟨min s.lo other.lo, max s.hi other.hi⟩)

/-- src/fallback.rs:648-661 `Span::source_text`. -/
def spanSourceText (sm : SourceMap) (s : Span) : Timed ε (SourceMap × Option (List Char)) := tick 1 <|
  if s.isCallSite then .ok (sm, none)
  else withFile sm s (fun f => do
    let (f, t) ← sourceTextOf f s
    .ok (f, some t))

section
variable [UnicodeTables]

/-- src/fallback.rs:197-211 `get_cursor`. -/
def getCursor (sm : SourceMap) (src : List Char) : Timed ε (SourceMap × Cursor Nat) := tick 1 do
  let (sm, span) ← addFile sm src
  .ok (sm, ⟨src, span.lo⟩)

/-- src/fallback.rs:83-94 `TokenStream::from_str_checked` on a thread with source map `sm`. -/
def streamFromStr (sm : SourceMap) (src : List Char) : SourceMap × Timed Span (List TokenTree) :=
  match (getCursor sm src : Timed Span _) with
  | ⟨.ok (sm, cursor), c⟩ => (sm, tick c (T.fromStrAt src cursor.off))
  | ⟨.err e, c⟩ => (sm, ⟨.err e, c⟩)
  | ⟨.panic, c⟩ => (sm, ⟨.panic, c⟩)
  | ⟨.diverge, c⟩ => (sm, ⟨.diverge, c⟩)

/-- src/fallback.rs:972-1000 `Literal::from_str_checked` on a thread with source map `sm`. -/
def literalFromStr (sm : SourceMap) (src : List Char) : SourceMap × Timed Span (List Char × Span) :=
  match (getCursor sm src : Timed Span _) with
  | ⟨.ok (sm, cursor), c⟩ => (sm, tick c (T.literalFromStrAt src cursor.off))
  | ⟨.err e, c⟩ => (sm, ⟨.err e, c⟩)
  | ⟨.panic, c⟩ => (sm, ⟨.panic, c⟩)
  | ⟨.diverge, c⟩ => (sm, ⟨.diverge, c⟩)

end

end PM2.TM
