import Verif.Proof.Lit
/-! # C40–C42, C46–C50, C52: the source map and the span API -/

set_option linter.unusedSectionVars false

namespace PM2.Props
open Spec

section
variable [UnicodeTables] {ε : Type}

/-! ### C40 -/

/-- **C40**, the contents: after any history the map holds, behind the call-site entry at position 0,
exactly the texts parsed since the last invalidation, the `i`-th one at `base texts i`. -/
theorem C40_files {sm : SourceMap} {texts : List (List Char)} (h : History sm texts) :
    sm.files.length = texts.length + 1 ∧
    ∀ i t, texts[i]? = some t → ∃ f, sm.files[i + 1]? = some f ∧ f.sourceText = t ∧
      f.span = ⟨base texts i, base texts i + t.length⟩ := by
  constructor
  · have hh := congrArg List.length h.holds.2
    have hl : ∀ p ts, (lay p ts).length = ts.length := by
      intro p ts
      induction ts generalizing p with
      | nil => rfl
      | cons t ts ih => simp [lay, ih]
    simpa [hl] using hh
  · intro i t ht
    have hi : InText texts i t ⟨base texts i, base texts i + t.length⟩ :=
      ⟨ht, Nat.le_refl _, Nat.le_add_right _ _, Nat.le_refl _⟩
    obtain ⟨f, h1, h2, h3⟩ := h.holds.2.within hi
    exact ⟨f, h3.file, h1, h2⟩

theorem widths_append (a b : List (List Char)) : widths (a ++ b) = widths a + widths b := by
  simp [widths]

theorem take_succ_widths {texts : List (List Char)} {i : Nat} {t : List Char}
    (ht : texts[i]? = some t) : widths (texts.take (i + 1)) = widths (texts.take i) + t.length + 1 := by
  rw [List.take_succ, ht, widths_append]
  simp [widths]; omega

theorem widths_take_mono (texts : List (List Char)) {i j : Nat} (h : i ≤ j) :
    widths (texts.take i) ≤ widths (texts.take j) := by
  have : texts.take j = texts.take i ++ (texts.drop i).take (j - i) := by
    rw [← List.take_add]; congr 1; omega
  rw [this, widths_append]; omega

/-- **C40**, separation: distinct texts occupy disjoint ranges with at least one position between
them, and none contains position 0. -/
theorem C40_disjoint {sm : SourceMap} {texts : List (List Char)} (h : History sm texts)
    {i j : Nat} {a b : FileInfo} (hij : i < j) (hi : sm.files[i + 1]? = some a)
    (hj : sm.files[j + 1]? = some b) :
    0 < a.span.lo ∧ a.span.lo + a.sourceText.length = a.span.hi ∧ a.span.hi < b.span.lo := by
  obtain ⟨hlen, hfiles⟩ := C40_files h
  have hi' : i < texts.length := by
    have := (List.getElem?_eq_some_iff.mp hi).1; omega
  have hj' : j < texts.length := by
    have := (List.getElem?_eq_some_iff.mp hj).1; omega
  obtain ⟨f, e1, e2, e3⟩ := hfiles i texts[i] (List.getElem?_eq_getElem hi')
  obtain ⟨g, g1, g2, g3⟩ := hfiles j texts[j] (List.getElem?_eq_getElem hj')
  rw [hi] at e1; rw [hj] at g1
  simp at e1 g1
  subst e1 g1
  rw [e2, e3, g3]
  simp only
  refine ⟨by unfold base; omega, trivial, ?_⟩
  have h1 := take_succ_widths (List.getElem?_eq_getElem hi')
  have h2 := widths_take_mono texts (show i + 1 ≤ j by omega)
  simp only [base_eq]; omega

/-- **C40**, resolution: every span inside a parsed text resolves to that text. -/
theorem C40_resolves {sm : SourceMap} {texts : List (List Char)} (h : History sm texts)
    {i : Nat} {t : List Char} {s : Span} (hs : InText texts i t s) :
    ∃ f, sm.fileinfo (ε := ε) s = .ok f ∧ f.sourceText = t ∧ f.span.lo = base texts i := by
  obtain ⟨f, h1, h2, hw⟩ := h.holds.2.within hs
  exact ⟨f, fileinfo_eq h.wf hw, h1, by rw [h2]⟩

/-! ### C41 -/

/-- Reading `t` from the start of a text: the line is one more than the number of line feeds, the
column is the number of characters after the last line feed. -/
theorem lineColumn_count (t : List Char) :
    t.foldl step ⟨1, 0⟩ =
      ⟨1 + t.count '\n', (t.reverse.takeWhile (fun c => c != '\n')).length⟩ := by
  suffices h : ∀ (r : List Char), r.reverse.foldl step ⟨1, 0⟩ =
      ⟨1 + r.count '\n', (r.takeWhile (fun c => c != '\n')).length⟩ by
    have := h t.reverse
    simpa using this
  intro r
  induction r with
  | nil => rfl
  | cons c r ih =>
    simp only [List.reverse_cons, List.foldl_append, ih, List.foldl_cons, List.foldl_nil, step]
    by_cases hc : c = '\n'
    · subst hc; simp; omega
    · simp [hc]

/-- **C41.** In any history, `start()` and `end()` of a span inside a parsed text are the line (from
1, counting line feeds) and column (characters since the last line feed) of its two ends. -/
theorem C41_line_column {sm : SourceMap} {texts : List (List Char)} (h : History sm texts)
    {i : Nat} {t : List Char} {s : Span} (hs : InText texts i t s) :
    s.start (ε := ε) sm =
      .ok ⟨1 + (t.take (s.lo - base texts i)).count '\n',
        ((t.take (s.lo - base texts i)).reverse.takeWhile (fun c => c != '\n')).length⟩ ∧
    s.end_ (ε := ε) sm =
      .ok ⟨1 + (t.take (s.hi - base texts i)).count '\n',
        ((t.take (s.hi - base texts i)).reverse.takeWhile (fun c => c != '\n')).length⟩ := by
  obtain ⟨f, h1, h2, hw⟩ := h.holds.2.within hs
  rw [start_eq h.wf hw, end_eq h.wf hw, h1, h2]
  simp only [lineColumn, lineColumn_count]
  exact ⟨trivial, trivial⟩

/-! ### C42 -/

/-- **C42.** In any history — including any earlier `byte_range`/`source_text` queries, which fill
the cache — `byte_range()` of a span inside a parsed text is the UTF-8 byte range of those
characters. -/
theorem C42_byte_range {sm : SourceMap} {texts : List (List Char)} (h : History sm texts)
    {i : Nat} {t : List Char} {s : Span} (hs : InText texts i t s) :
    ∃ sm', s.byteRange (ε := ε) sm = .ok (sm',
      ((t.take (s.lo - base texts i)).map Char.utf8Size).sum,
      ((t.take (s.hi - base texts i)).map Char.utf8Size).sum) := by
  obtain ⟨f, h1, h2, hw⟩ := h.holds.2.within hs
  obtain ⟨sm', e, -, -⟩ := byteRange_eq (ε := ε) h.wf hw
  refine ⟨sm', ?_⟩
  rw [e, h1, h2]; rfl

/-- **C42**, `source_text`: the characters of the span. -/
theorem C42_source_text {sm : SourceMap} {texts : List (List Char)} (h : History sm texts)
    {i : Nat} {t : List Char} {s : Span} (hs : InText texts i t s) :
    ∃ sm', s.sourceText (ε := ε) sm = .ok (sm',
      some ((t.drop (s.lo - base texts i)).take (s.hi - s.lo))) := by
  obtain ⟨f, h1, h2, hw⟩ := h.holds.2.within hs
  have hc : s.isCallSite = false := by
    have := hs.lo
    simp [Span.isCallSite, base] at *
    omega
  obtain ⟨sm', e, -, -⟩ := sourceText_eq (ε := ε) h.wf hw hc
  refine ⟨sm', ?_⟩
  have hlo := hs.lo
  rw [e, h1, h2]
  simp only [substring]
  congr 4
  omega

/-! ### C46 -/

/-- **C46**, same text: `join` is the smallest span covering both. -/
theorem C46_join_same {sm : SourceMap} {texts : List (List Char)} (h : History sm texts)
    {i : Nat} {t : List Char} {a b : Span} (ha : InText texts i t a) (hb : InText texts i t b) :
    ∃ j, a.join (ε := ε) sm b = .ok (some j) ∧ InText texts i t j ∧
      (j.lo ≤ a.lo ∧ a.hi ≤ j.hi) ∧ (j.lo ≤ b.lo ∧ b.hi ≤ j.hi) ∧
      ∀ k : Span, (k.lo ≤ a.lo ∧ a.hi ≤ k.hi) → (k.lo ≤ b.lo ∧ b.hi ≤ k.hi) →
        k.lo ≤ j.lo ∧ j.hi ≤ k.hi := by
  obtain ⟨f, h1, h2, hw⟩ := h.holds.2.within ha
  have ha1 := ha.lo; have ha2 := ha.le; have ha3 := ha.hi
  have hb1 := hb.lo; have hb2 := hb.le; have hb3 := hb.hi
  refine ⟨⟨min a.lo b.lo, max a.hi b.hi⟩, ?_, ⟨ha.text, ?_, ?_, ?_⟩, ?_, ?_, ?_⟩
  · unfold Span.join
    rw [fileinfo_eq h.wf hw, Res.ok_bind]
    have : f.spanWithin b = true := by
      simp [FileInfo.spanWithin, h2]; omega
    simp [this]
  all_goals simp only
  · omega
  · omega
  · omega
  · omega
  · omega
  · intro k h1 h2; omega

/-- **C46**, different texts: `join` is `None`. -/
theorem C46_join_diff {sm : SourceMap} {texts : List (List Char)} (h : History sm texts)
    {i j : Nat} {t u : List Char} {a b : Span} (ha : InText texts i t a) (hb : InText texts j u b)
    (hij : i ≠ j) : a.join (ε := ε) sm b = .ok none := by
  obtain ⟨f, h1, h2, hw⟩ := h.holds.2.within ha
  have ha1 := ha.lo; have ha2 := ha.le; have ha3 := ha.hi
  have hb1 := hb.lo; have hb2 := hb.le; have hb3 := hb.hi
  unfold Span.join
  rw [fileinfo_eq h.wf hw, Res.ok_bind]
  have : f.spanWithin b = false := by
    simp only [FileInfo.spanWithin, h2, Bool.and_eq_false_iff, decide_eq_false_iff_not]
    rcases Nat.lt_or_gt_of_ne hij with hlt | hlt
    · have e1 := take_succ_widths ha.text
      have e2 := widths_take_mono texts (show i + 1 ≤ j by omega)
      simp only [base_eq] at *
      right; omega
    · have e1 := take_succ_widths hb.text
      have e2 := widths_take_mono texts (show j + 1 ≤ i by omega)
      simp only [base_eq] at *
      left; omega
  simp [this]

/-- **C46**, call site: a call-site span joins with itself only. -/
theorem C46_join_callSite {sm : SourceMap} {texts : List (List Char)} (h : History sm texts)
    {i : Nat} {t : List Char} {a : Span} (ha : InText texts i t a) :
    a.join (ε := ε) sm Span.callSite = .ok none ∧ Span.callSite.join (ε := ε) sm a = .ok none ∧
    Span.callSite.join (ε := ε) sm Span.callSite = .ok (some Span.callSite) := by
  obtain ⟨f, h1, h2, hw⟩ := h.holds.2.within ha
  have ha1 := ha.lo
  have hb0 : 0 < base texts i := by unfold base; omega
  obtain ⟨rest, hr, -⟩ := h.wf
  have hd : Within sm 0 dummyFile Span.callSite :=
    ⟨by rw [hr]; rfl, Nat.le_refl _, Nat.le_refl _, Nat.le_refl _⟩
  have hale := ha.le
  refine ⟨?_, ?_, ?_⟩
  · unfold Span.join
    rw [fileinfo_eq h.wf hw, Res.ok_bind]
    have : f.spanWithin Span.callSite = false := by
      simp [FileInfo.spanWithin, h2, Span.callSite]; omega
    simp [this]
  · unfold Span.join
    rw [fileinfo_eq h.wf hd, Res.ok_bind]
    have : dummyFile.spanWithin a = false := by
      simp [FileInfo.spanWithin, dummyFile]; omega
    simp [this]
  · unfold Span.join
    rw [fileinfo_eq h.wf hd, Res.ok_bind]
    rfl

/-! ### C47 -/

/-- Offset meant by a start bound. -/
def startOffset : Bound → Nat
  | .included n => n
  | .excluded n => n + 1
  | .unbounded => 0

/-- Offset meant by an end bound, in something of length `len`. -/
def endOffset (len : Nat) : Bound → Nat
  | .included n => n + 1
  | .excluded n => n
  | .unbounded => len

theorem checkedAdd_some {a b c : Nat} : checkedAddU32 a b = some c ↔ a + b < u32Size ∧ a + b = c := by
  unfold checkedAddU32
  split
  · simp_all
  · constructor
    · simp
    · rintro ⟨h, -⟩; contradiction

theorem u32Try_some {a c : Nat} : u32TryFrom a = some c ↔ a < u32Size ∧ a = c := by
  unfold u32TryFrom
  split
  · simp_all
  · constructor
    · simp
    · rintro ⟨h, -⟩; contradiction

def startB (s : Span) (a : Bound) : Option Nat :=
  match a with
  | .included n => do checkedAddU32 s.lo (← u32TryFrom n)
  | .excluded n => do checkedAddU32 (← checkedAddU32 s.lo (← u32TryFrom n)) 1
  | .unbounded => some s.lo

def endB (s : Span) (b : Bound) : Option Nat :=
  match b with
  | .included n => do checkedAddU32 (← checkedAddU32 s.lo (← u32TryFrom n)) 1
  | .excluded n => do checkedAddU32 s.lo (← u32TryFrom n)
  | .unbounded => some s.hi

theorem subspan_eq (s : Span) (a b : Bound) : subspan s a b =
    (startB s a).bind fun lo => (endB s b).bind fun hi =>
      if lo ≤ hi ∧ hi ≤ s.hi then some ⟨lo, hi⟩ else none := by
  cases a <;> cases b <;> rfl

/-- **C47.** For a literal of any span (not a whole 32-bit space long), `subspan` with any bounds is
a total function: it is `Some` exactly when the range is not reversed and fits, and it then covers
the characters at those offsets. -/
theorem C47_subspan {s : Span} (h1 : s.lo ≤ s.hi) (h2 : s.hi < 2 ^ 32) (a b : Bound) (r : Span) :
    subspan s a b = some r ↔
      startOffset a ≤ endOffset (s.hi - s.lo) b ∧ endOffset (s.hi - s.lo) b ≤ s.hi - s.lo ∧
      r = ⟨s.lo + startOffset a, s.lo + endOffset (s.hi - s.lo) b⟩ := by
  have h2' : s.hi < u32Size := h2
  have hstart : ∀ lo, startB s a = some lo ↔
      s.lo + startOffset a < u32Size ∧ lo = s.lo + startOffset a := by
    intro lo
    cases a with
    | included n =>
      simp only [startB, Option.bind_eq_bind, Option.bind_eq_some_iff, checkedAdd_some, u32Try_some,
        startOffset]
      constructor
      · rintro ⟨x, ⟨-, rfl⟩, h3, rfl⟩; exact ⟨h3, rfl⟩
      · rintro ⟨h3, rfl⟩; exact ⟨n, ⟨by omega, rfl⟩, h3, rfl⟩
    | excluded n =>
      simp only [startB, Option.bind_eq_bind, Option.bind_eq_some_iff, checkedAdd_some, u32Try_some,
        startOffset]
      constructor
      · rintro ⟨y, ⟨-, rfl⟩, x, ⟨-, rfl⟩, h3, rfl⟩; exact ⟨h3, by omega⟩
      · rintro ⟨h3, rfl⟩; exact ⟨n, ⟨by omega, rfl⟩, s.lo + n, ⟨by omega, rfl⟩, by omega, by omega⟩
    | unbounded =>
      simp only [startB, startOffset, Nat.add_zero, Option.some.injEq]
      constructor
      · rintro rfl; exact ⟨by omega, rfl⟩
      · rintro ⟨-, rfl⟩; rfl
  have hend : ∀ hi, endB s b = some hi ↔
      s.lo + endOffset (s.hi - s.lo) b < u32Size ∧ hi = s.lo + endOffset (s.hi - s.lo) b := by
    intro lo
    cases b with
    | included n =>
      simp only [endB, Option.bind_eq_bind, Option.bind_eq_some_iff, checkedAdd_some, u32Try_some,
        endOffset]
      constructor
      · rintro ⟨y, ⟨-, rfl⟩, x, ⟨-, rfl⟩, h3, rfl⟩; exact ⟨h3, by omega⟩
      · rintro ⟨h3, rfl⟩; exact ⟨n, ⟨by omega, rfl⟩, s.lo + n, ⟨by omega, rfl⟩, by omega, by omega⟩
    | excluded n =>
      simp only [endB, Option.bind_eq_bind, Option.bind_eq_some_iff, checkedAdd_some, u32Try_some,
        endOffset]
      constructor
      · rintro ⟨x, ⟨-, rfl⟩, h3, rfl⟩; exact ⟨h3, rfl⟩
      · rintro ⟨h3, rfl⟩; exact ⟨n, ⟨by omega, rfl⟩, h3, rfl⟩
    | unbounded =>
      simp only [endB, endOffset, Option.some.injEq]
      constructor
      · rintro rfl; exact ⟨by omega, by omega⟩
      · rintro ⟨-, rfl⟩; omega
  rw [subspan_eq]
  simp only [Option.bind_eq_some_iff]
  constructor
  · rintro ⟨lo, hlo, hi, hhi, hr⟩
    obtain ⟨-, rfl⟩ := (hstart lo).mp hlo
    obtain ⟨-, rfl⟩ := (hend hi).mp hhi
    split at hr
    · simp at hr; subst hr
      refine ⟨by omega, by omega, rfl⟩
    · simp at hr
  · rintro ⟨g1, g2, rfl⟩
    refine ⟨s.lo + startOffset a, (hstart _).mpr ⟨by omega, rfl⟩,
      s.lo + endOffset (s.hi - s.lo) b, (hend _).mpr ⟨by omega, rfl⟩, ?_⟩
    rw [if_pos (by omega)]

/-- **C47**, text: the result's source text is the slice of the literal's source text. -/
theorem C47_subspan_text {sm : SourceMap} {texts : List (List Char)} (h : History sm texts)
    {i : Nat} {t : List Char} {s r : Span} (hs : InText texts i t s) (h2 : s.hi < 2 ^ 32)
    {a b : Bound} (hr : subspan s a b = some r) :
    ∃ sm', r.sourceText (ε := ε) sm = .ok (sm', some
      ((((t.drop (s.lo - base texts i)).take (s.hi - s.lo)).drop (startOffset a)).take
        (endOffset (s.hi - s.lo) b - startOffset a))) := by
  have hs1 := hs.lo; have hs2 := hs.le; have hs3 := hs.hi
  obtain ⟨g1, g2, rfl⟩ := (C47_subspan hs2 h2 a b r).mp hr
  have hin : InText texts i t ⟨s.lo + startOffset a, s.lo + endOffset (s.hi - s.lo) b⟩ :=
    ⟨hs.text, by simp only; omega, by simp only; omega, by simp only; omega⟩
  obtain ⟨sm', e⟩ := C42_source_text (ε := ε) h hin
  refine ⟨sm', ?_⟩
  rw [e]
  simp only [List.drop_take, List.take_take, List.drop_drop]
  congr 4
  · omega
  · congr 1; omega

/-! ### C48 -/

/-- **C48.** The call-site span is inert in every history. -/
theorem C48_call_site {sm : SourceMap} {texts : List (List Char)} (h : History sm texts) :
    Span.callSite.sourceText (ε := ε) sm = .ok (sm, none) ∧
    Span.callSite.byteRange (ε := ε) sm = .ok (sm, 0, 0) ∧
    Span.callSite.start (ε := ε) sm = .ok ⟨1, 0⟩ ∧
    Span.callSite.end_ (ε := ε) sm = .ok ⟨1, 0⟩ ∧
    Span.callSite.file (ε := ε) sm = .ok "<unspecified>".toList := by
  obtain ⟨rest, hr, -⟩ := h.wf
  have hd : Within sm 0 dummyFile Span.callSite :=
    ⟨by rw [hr]; rfl, Nat.le_refl _, Nat.le_refl _, Nat.le_refl _⟩
  refine ⟨rfl, rfl, ?_, ?_, ?_⟩
  · rw [start_eq h.wf hd]; rfl
  · rw [end_eq h.wf hd]; rfl
  · rw [file_eq h.wf hd]; rfl

/-! ### C49 -/

/-- **C49.** `file()` of a span in the `i`-th text (from 0) since the last invalidation is
`<parsed string i+1>`. -/
theorem C49_file {sm : SourceMap} {texts : List (List Char)} (h : History sm texts)
    {i : Nat} {t : List Char} {s : Span} (hs : InText texts i t s) :
    s.file (ε := ε) sm = .ok ("<parsed string ".toList ++ Nat.toDigits 10 (i + 1) ++ ['>']) := by
  obtain ⟨f, h1, h2, hw⟩ := h.holds.2.within hs
  rw [file_eq h.wf hw]; rfl

/-- **C49**, identity: two spans report the same file iff they lie in the same text. -/
theorem C49_file_inj {sm : SourceMap} {texts : List (List Char)} (h : History sm texts)
    {i j : Nat} {t u : List Char} {a b : Span} (ha : InText texts i t a) (hb : InText texts j u b) :
    a.file (ε := ε) sm = b.file sm ↔ i = j := by
  rw [C49_file h ha, C49_file h hb]
  constructor
  · intro he
    simp only [Res.ok.injEq, List.append_assoc, List.append_cancel_left_eq] at he
    have he := List.append_cancel_right he
    have h1 := congrArg (fun l => Nat.ofDigitChars 10 l 0) he
    simp only [Nat.ofDigitChars_ten_toDigits] at h1
    omega
  · rintro rfl; rfl

/-! ### C50 -/

/-- **C50.** After invalidation, in any history, the state is the initial state; so everything that
happens afterwards happens as on a new thread. -/
theorem C50_invalidate {sm : SourceMap} {texts : List (List Char)} (h : History sm texts) :
    sm.invalidate = SourceMap.init := h.wf.invalidate

/-- **C50**, observed: parses after an invalidation give the results of a fresh thread. -/
theorem C50_fresh {sm : SourceMap} {texts : List (List Char)} (h : History sm texts)
    (src : List Char) :
    TokenStream.fromStr sm.invalidate src = TokenStream.fromStr SourceMap.init src ∧
    Literal.fromStr sm.invalidate src = Literal.fromStr SourceMap.init src := by
  rw [C50_invalidate h]; exact ⟨rfl, rfl⟩

end

/-! ### C52 -/

/-- **C52**, order: `cmp` is the lexicographic order on (line, column). -/
theorem C52_cmp_lt (a b : LineColumn) :
    a.cmp b = .lt ↔ a.line < b.line ∨ (a.line = b.line ∧ a.column < b.column) := by
  unfold LineColumn.cmp
  rcases Nat.lt_trichotomy a.line b.line with h | h | h
  · rw [Nat.compare_eq_lt.mpr h]; simp [Ordering.then, h]
  · rw [Nat.compare_eq_eq.mpr h]
    simp [Ordering.then, Nat.compare_eq_lt, h]
  · rw [Nat.compare_eq_gt.mpr h]
    simp [Ordering.then]; omega

/-- **C52**, consistency with equality. -/
theorem C52_cmp_eq (a b : LineColumn) : a.cmp b = .eq ↔ a = b := by
  cases a with | mk l c => cases b with | mk l' c' =>
  unfold LineColumn.cmp
  rcases Nat.lt_trichotomy l l' with h | h | h
  · simp only [Nat.compare_eq_lt.mpr h]; simp [Ordering.then]; omega
  · subst h; simp [Ordering.then, Nat.compare_eq_eq]
  · simp only [Nat.compare_eq_gt.mpr h]; simp [Ordering.then]; omega

/-- **C52**, antisymmetry. -/
theorem C52_cmp_swap (a b : LineColumn) : a.cmp b = .gt ↔ b.cmp a = .lt := by
  rw [C52_cmp_lt]
  cases h : a.cmp b with
  | lt => rw [C52_cmp_lt] at h; simp; omega
  | eq => rw [C52_cmp_eq] at h; subst h; simp
  | gt =>
    have h1 : ¬ a.cmp b = .lt := by rw [h]; simp
    have h2 : ¬ a.cmp b = .eq := by rw [h]; simp
    rw [C52_cmp_lt] at h1; rw [C52_cmp_eq] at h2
    have : ¬ (a.line = b.line ∧ a.column = b.column) := by
      rintro ⟨h3, h4⟩; apply h2; cases a; cases b; simp_all
    simp; omega

/-- **C52**, transitivity. -/
theorem C52_cmp_trans {a b c : LineColumn} (h1 : a.cmp b = .lt) (h2 : b.cmp c = .lt) :
    a.cmp c = .lt := by
  rw [C52_cmp_lt] at *; omega

/-- **C52**, positions: a strictly earlier position of a text has a strictly smaller line/column. -/
theorem C52_position_lt (t : List Char) {p q : Nat} (hpq : p < q) (hq : q ≤ t.length) :
    (lineColumn t p).cmp (lineColumn t q) = .lt := by
  have hstep : ∀ (lc : LineColumn) (c : Char), lc.cmp (step lc c) = .lt := by
    intro lc c
    rw [C52_cmp_lt]; unfold step
    split <;> simp
  have hsucc : ∀ p, p < t.length → (lineColumn t p).cmp (lineColumn t (p + 1)) = .lt := by
    intro p hp
    unfold lineColumn
    rw [List.take_succ, List.getElem?_eq_getElem hp]
    simp only [Option.toList_some, List.foldl_append, List.foldl_cons, List.foldl_nil]
    exact hstep _ _
  obtain ⟨d, rfl⟩ : ∃ d, q = p + 1 + d := ⟨q - (p + 1), by omega⟩
  induction d with
  | zero => exact hsucc p (by omega)
  | succ d ih => exact C52_cmp_trans (ih (by omega) (by omega)) (hsucc _ (by omega))

section
variable [UnicodeTables] {ε : Type}

/-- **C52**, spans: `start() <= end()` for every span inside a parsed text, with equality only for
empty spans. -/
theorem C52_start_le_end {sm : SourceMap} {texts : List (List Char)} (h : History sm texts)
    {i : Nat} {t : List Char} {s : Span} (hs : InText texts i t s) :
    ∃ a b, s.start (ε := ε) sm = .ok a ∧ s.end_ (ε := ε) sm = .ok b ∧
      a.cmp b = (if s.lo = s.hi then .eq else .lt) := by
  obtain ⟨f, h1, h2, hw⟩ := h.holds.2.within hs
  have e1 := start_eq (ε := ε) h.wf hw
  have e2 := end_eq (ε := ε) h.wf hw
  refine ⟨_, _, e1, e2, ?_⟩
  have hs1 := hs.lo; have hs2 := hs.le; have hs3 := hs.hi
  rw [h1, h2]
  split
  · rename_i heq; rw [heq, C52_cmp_eq]
  · exact C52_position_lt t (by simp only; omega) (by simp only; omega)

end

/-! ### The hypotheses are satisfiable -/

section
attribute [local instance] sampleTables

/-- Two texts, the first one ill-formed and with a line feed and a two-byte character; spans inside
each. -/
theorem sampleHistory : History
    (TokenStream.fromStr (TokenStream.fromStr SourceMap.init "(é\nb".toList).1 "x y".toList).1
    ["(é\nb".toList, "x y".toList] := by
  have h1 := History.parse "(é\nb".toList History.init (by decide)
  rw [if_pos (by decide)] at h1
  have h2 := History.parse "x y".toList h1 (by decide)
  rw [if_pos (by decide)] at h2
  exact h2

example : InText ["(é\nb".toList, "x y".toList] 0 "(é\nb".toList ⟨2, 5⟩ :=
  ⟨rfl, by decide, by decide, by decide⟩
example : InText ["(é\nb".toList, "x y".toList] 1 "x y".toList ⟨6, 9⟩ :=
  ⟨rfl, by decide, by decide, by decide⟩
/-- C41 and C42 evaluated on that history. -/
example :
    (⟨2, 5⟩ : Span).end_ (ε := Unit)
      (TokenStream.fromStr (TokenStream.fromStr SourceMap.init "(é\nb".toList).1 "x y".toList).1 =
      .ok ⟨2, 1⟩ := by rfl
example : subspan ⟨10, 20⟩ (.included 2) (.excluded 5) = some ⟨12, 15⟩ := by rfl
example : subspan ⟨10, 20⟩ (.included 2) (.included 4294967295) = none := by rfl

end

end PM2.Props
