import Verif.Proof.SourceMap
/-! # The source map: lookups and histories -/

set_option linter.unusedSectionVars false

namespace PM2

variable {ε : Type}

/-- Consecutive files from position `lo` on, one position apart. -/
def Files : Nat → List FileInfo → Prop
  | _, [] => True
  | lo, f :: fs => f.span.lo = lo ∧ f.Good ∧ Files (f.span.hi + 1) fs

/-- position after the files -/
def endPos : Nat → List FileInfo → Nat
  | lo, [] => lo
  | _, f :: fs => endPos (f.span.hi + 1) fs

theorem Files.append {lo : Nat} {fs : List FileInfo} {f : FileInfo} (h : Files lo fs)
    (hf : f.Good) (hl : f.span.lo = endPos lo fs) : Files lo (fs ++ [f]) := by
  induction fs generalizing lo with
  | nil => exact ⟨hl, hf, trivial⟩
  | cons g fs ih => exact ⟨h.1, h.2.1, ih h.2.2 hl⟩

theorem endPos_append (lo : Nat) (fs : List FileInfo) (f : FileInfo) :
    endPos lo (fs ++ [f]) = f.span.hi + 1 := by
  induction fs generalizing lo with
  | nil => rfl
  | cons g fs ih => exact ih _

theorem Files.lo_ge {lo : Nat} {fs : List FileInfo} (h : Files lo fs) {i : Nat} {f : FileInfo}
    (hi : fs[i]? = some f) : lo ≤ f.span.lo := by
  induction fs generalizing lo i with
  | nil => simp at hi
  | cons g fs ih =>
    cases i with
    | zero => simp at hi; subst hi; exact Nat.le_of_eq h.1.symm
    | succ i =>
      simp at hi
      have := ih h.2.2 hi
      have h1 := h.1; have h2 := h.2.1.hi
      omega

theorem Files.good {lo : Nat} {fs : List FileInfo} (h : Files lo fs) {i : Nat} {f : FileInfo}
    (hi : fs[i]? = some f) : f.Good := by
  induction fs generalizing lo i with
  | nil => simp at hi
  | cons g fs ih =>
    cases i with
    | zero => simp at hi; subst hi; exact h.2.1
    | succ i => simp at hi; exact ih h.2.2 hi

theorem Files.disjoint {lo : Nat} {fs : List FileInfo} (h : Files lo fs) {i j : Nat}
    {f g : FileInfo} (hi : fs[i]? = some f) (hj : fs[j]? = some g) (hij : i < j) :
    f.span.hi < g.span.lo := by
  induction fs generalizing lo i j with
  | nil => simp at hi
  | cons x fs ih =>
    cases j with
    | zero => omega
    | succ j =>
      simp at hj
      cases i with
      | zero =>
        simp at hi; subst hi
        have := h.2.2.lo_ge hj
        omega
      | succ i =>
        simp at hi
        exact ih h.2.2 hi hj (by omega)

theorem Files.set {lo : Nat} {fs : List FileInfo} (h : Files lo fs) {i : Nat} {f g : FileInfo}
    (hi : fs[i]? = some f) (hg : g.Good) (hs : g.span = f.span) : Files lo (fs.set i g) := by
  induction fs generalizing lo i with
  | nil => simp at hi
  | cons x fs ih =>
    cases i with
    | zero =>
      simp at hi; subst hi
      exact ⟨by rw [hs]; exact h.1, hg, by rw [hs]; exact h.2.2⟩
    | succ i =>
      simp at hi
      exact ⟨h.1, h.2.1, ih h.2.2 hi⟩

/-- the dummy first file -/
def dummyFile : FileInfo := ⟨[], ⟨0, 0⟩, [0], []⟩

theorem dummyFile_good : dummyFile.Good :=
  ⟨rfl, by decide, rfl, by simp [dummyFile], by simp [dummyFile]⟩

/-- Invariant of the thread's source map. -/
def SourceMap.WF (sm : SourceMap) : Prop := ∃ rest, sm.files = dummyFile :: rest ∧ Files 1 rest

theorem SourceMap.WF.files {sm : SourceMap} (h : sm.WF) : Files 0 sm.files := by
  obtain ⟨rest, h1, h2⟩ := h
  rw [h1]; exact ⟨rfl, dummyFile_good, h2⟩

/-- The position the next file will get. -/
def SourceMap.nextPos (sm : SourceMap) : Nat := endPos 0 sm.files

theorem SourceMap.init_wf : SourceMap.init.WF := ⟨[], rfl, trivial⟩

theorem SourceMap.WF.invalidate {sm : SourceMap} (h : sm.WF) : sm.invalidate = SourceMap.init := by
  obtain ⟨rest, h1, -⟩ := h
  simp [SourceMap.invalidate, h1, SourceMap.init, dummyFile]

theorem getLast?_endPos {lo : Nat} {fs : List FileInfo} {f : FileInfo}
    (h : fs.getLast? = some f) : endPos lo fs = f.span.hi + 1 := by
  induction fs generalizing lo with
  | nil => simp at h
  | cons g fs ih =>
    cases fs with
    | nil => simp at h; subst h; rfl
    | cons g' fs =>
      rw [List.getLast?_cons_cons] at h
      exact ih (lo := lo) h

theorem SourceMap.WF.next {sm : SourceMap} (h : sm.WF) :
    ∃ f, sm.files.getLast? = some f ∧ sm.nextPos = f.span.hi + 1 := by
  obtain ⟨rest, h1, -⟩ := h
  cases hl : sm.files.getLast? with
  | none => rw [List.getLast?_eq_none_iff, h1] at hl; simp at hl
  | some f => exact ⟨f, rfl, getLast?_endPos hl⟩

/-- `add_file` when the text fits. -/
theorem addFile_eq {sm : SourceMap} (h : sm.WF) {src : List Char}
    (hfit : sm.nextPos + src.length < u32Size) :
    ∃ f : FileInfo, f.sourceText = src ∧ f.span = ⟨sm.nextPos, sm.nextPos + src.length⟩ ∧
      f.cache = [] ∧ f.Good ∧
      sm.addFile (ε := ε) src = .ok (⟨sm.files ++ [f]⟩, f.span) ∧
      SourceMap.WF ⟨sm.files ++ [f]⟩ := by
  obtain ⟨g, hg1, hg2⟩ := h.next
  have hgood : FileInfo.Good ⟨src, ⟨sm.nextPos, sm.nextPos + src.length⟩, (linesOffsets src).2, []⟩ :=
    ⟨rfl, hfit, rfl, by simp, by simp⟩
  refine ⟨⟨src, ⟨sm.nextPos, sm.nextPos + src.length⟩, (linesOffsets src).2, []⟩, rfl, rfl, rfl,
    hgood, ?_, ?_⟩
  · unfold SourceMap.addFile SourceMap.nextStartPos
    rw [linesOffsets_eq, hg1]
    simp only
    have h1 : asU32 src.length = src.length := Nat.mod_eq_of_lt (by omega)
    unfold addU32
    rw [if_pos (by omega), Res.ok_bind, h1, ← hg2, if_pos hfit]
    rfl
  · obtain ⟨rest, h1, h2⟩ := h
    refine ⟨rest ++ [_], by simp only [h1]; rfl, h2.append hgood ?_⟩
    simp only [SourceMap.nextPos, h1]
    rfl

/-- `add_file` when the text does not fit: it panics, changing nothing. -/
theorem addFile_panic {sm : SourceMap} (h : sm.WF) {src : List Char} (hlen : src.length < u32Size)
    (hfit : ¬ sm.nextPos + src.length < u32Size) : sm.addFile (ε := ε) src = .panic := by
  obtain ⟨g, hg1, hg2⟩ := h.next
  unfold SourceMap.addFile SourceMap.nextStartPos
  rw [linesOffsets_eq, hg1]
  simp only
  have h1 : asU32 src.length = src.length := Nat.mod_eq_of_lt hlen
  unfold addU32
  rw [h1]
  by_cases hx : g.span.hi + 1 < u32Size
  · rw [if_pos hx, Res.ok_bind, if_neg (by omega)]; rfl
  · rw [if_neg hx]; rfl

/-! ### Lookups -/

/-- The span lies in the `k`-th file `f`. -/
structure Within (sm : SourceMap) (k : Nat) (f : FileInfo) (s : Span) : Prop where
  file : sm.files[k]? = some f
  lo : f.span.lo ≤ s.lo
  le : s.lo ≤ s.hi
  hi : s.hi ≤ f.span.hi

theorem Within.len {sm : SourceMap} {k : Nat} {f : FileInfo} {s : Span} (h : Within sm k f s) :
    k < sm.files.length := by
  have := h.file
  rw [List.getElem?_eq_some_iff] at this
  exact this.1

theorem find_eq {sm : SourceMap} (h : sm.WF) {k : Nat} {f : FileInfo} {s : Span}
    (hw : Within sm k f s) : sm.find (ε := ε) s = .ok k := by
  have hF := h.files
  have hlt : ∀ i x, sm.files[i]? = some x → i < k → x.span.hi < s.lo := by
    intro i x hx hi
    have := hF.disjoint hx hw.file hi
    have := hw.lo
    omega
  have hgt : ∀ i x, sm.files[i]? = some x → k < i → s.hi < x.span.lo := by
    intro i x hx hi
    have := hF.disjoint hw.file hx hi
    have := hw.hi
    omega
  let g : FileInfo → Ordering := fun file =>
    if file.span.hi < s.lo then .lt else if file.span.lo > s.hi then .gt else .eq
  have hle := hw.le
  have hs : Sorted3 g sm.files k (k + 1) := by
    refine ⟨by omega, hw.len, ?_, ?_, ?_⟩
    · intro i x hx hi
      simp [g, hlt i x hx hi]
    · intro i x hx hi hi'
      have : i = k := by omega
      subst this
      rw [hw.file] at hx; simp at hx; subst hx
      have := hw.lo; have := hw.hi
      simp only [g]
      rw [if_neg (by omega), if_neg (by omega)]
    · intro i x hx hi
      have h1 := hgt i x hx (by omega)
      have h2 := (hF.good hx).hi
      simp only [g]
      rw [if_neg (by omega), if_pos h1]
  unfold SourceMap.find
  rw [binarySearchBy_spec (g := g) ?_ hs, Res.ok_bind, if_pos (by omega)]
  · simp
  · intro x hx
    obtain ⟨i, hi⟩ := List.mem_iff_getElem?.mp hx
    simp only [g]
    by_cases h1 : x.span.hi < s.lo
    · rw [if_pos h1, if_pos h1]
    · rw [if_neg h1, if_neg h1]
      by_cases h2 : x.span.lo > s.hi
      · rw [if_pos h2, if_pos h2]
      · rw [if_neg h2, if_neg h2]
        have hik : i = k := by
          rcases Nat.lt_trichotomy i k with hlt' | he | hgt'
          · exact absurd (hlt i x hi hlt') h1
          · exact he
          · exact absurd (hgt i x hi hgt') h2
        subst hik
        rw [hw.file] at hi; simp at hi; subst hi
        have := hw.lo; have := hw.hi
        rw [if_pos]
        simp only [FileInfo.spanWithin, Bool.and_eq_true, decide_eq_true_eq]
        omega

theorem fileinfo_eq {sm : SourceMap} (h : sm.WF) {k : Nat} {f : FileInfo} {s : Span}
    (hw : Within sm k f s) : sm.fileinfo (ε := ε) s = .ok f := by
  unfold SourceMap.fileinfo
  rw [find_eq h hw, Res.ok_bind, hw.file]

/-- Two source maps that differ in the byte caches only. -/
def SourceMap.Same (a b : SourceMap) : Prop :=
  a.files.map (fun f => (f.sourceText, f.span)) = b.files.map (fun f => (f.sourceText, f.span))

theorem SourceMap.Same.refl (a : SourceMap) : a.Same a := rfl
theorem SourceMap.Same.symm {a b : SourceMap} (h : a.Same b) : b.Same a := Eq.symm h
theorem SourceMap.Same.trans {a b c : SourceMap} (h : a.Same b) (h' : b.Same c) : a.Same c :=
  Eq.trans h h'

theorem SourceMap.Same.get {a b : SourceMap} (h : a.Same b) {k : Nat} {f : FileInfo}
    (hf : a.files[k]? = some f) :
    ∃ g, b.files[k]? = some g ∧ g.sourceText = f.sourceText ∧ g.span = f.span := by
  have h1 : (a.files.map (fun f => (f.sourceText, f.span)))[k]? =
      (b.files.map (fun f => (f.sourceText, f.span)))[k]? := by rw [h]
  simp only [List.getElem?_map, hf, Option.map_some] at h1
  cases hg : b.files[k]? with
  | none => rw [hg] at h1; simp at h1
  | some g =>
    rw [hg] at h1; simp at h1
    exact ⟨g, rfl, h1.1.symm, h1.2.symm⟩

theorem endPos_same {a b : List FileInfo} (lo : Nat)
    (h : a.map (fun f => (f.sourceText, f.span)) = b.map (fun f => (f.sourceText, f.span))) :
    endPos lo a = endPos lo b := by
  induction a generalizing b lo with
  | nil =>
    cases b with
    | nil => rfl
    | cons g b => simp at h
  | cons f a ih =>
    cases b with
    | nil => simp at h
    | cons g b =>
      simp at h
      simp only [endPos, h.1.2]
      exact ih _ h.2

theorem SourceMap.Same.nextPos {a b : SourceMap} (h : a.Same b) : a.nextPos = b.nextPos :=
  endPos_same 0 h

theorem Within.same {a b : SourceMap} (h : a.Same b) {k : Nat} {f : FileInfo} {s : Span}
    (hw : Within a k f s) :
    ∃ g, g.sourceText = f.sourceText ∧ g.span = f.span ∧ Within b k g s := by
  obtain ⟨g, h1, h2, h3⟩ := h.get hw.file
  exact ⟨g, h2, h3, h1, by rw [h3]; exact hw.lo, hw.le, by rw [h3]; exact hw.hi⟩

/-- Updating the cache of a file other than the dummy one. -/
theorem set_wf {sm : SourceMap} (h : sm.WF) {k : Nat} {f g : FileInfo}
    (hk : sm.files[k]? = some f) (hk0 : k ≠ 0) (hg : g.Good) (hs : g.span = f.span)
    (ht : g.sourceText = f.sourceText) :
    SourceMap.WF ⟨sm.files.set k g⟩ ∧ sm.Same ⟨sm.files.set k g⟩ := by
  obtain ⟨rest, h1, h2⟩ := h
  cases k with
  | zero => exact absurd rfl hk0
  | succ k =>
    rw [h1] at hk
    simp at hk
    constructor
    · exact ⟨rest.set k g, by simp [h1], h2.set hk hg hs⟩
    · unfold SourceMap.Same
      simp only [List.map_set, ht, hs]
      rw [h1]
      simp only [List.map_cons, List.set_cons_succ, List.cons.injEq, true_and]
      apply List.ext_getElem?
      intro i
      rw [List.getElem?_set]
      split
      · rename_i hi
        subst hi
        simp only [List.getElem?_map, hk, Option.map_some, List.length_map]
        rw [List.getElem?_eq_some_iff] at hk
        rw [if_pos hk.1]
      · rfl

theorem Within.not_dummy {sm : SourceMap} (h : sm.WF) {k : Nat} {f : FileInfo} {s : Span}
    (hw : Within sm k f s) (hs : s.isCallSite = false) : k ≠ 0 := by
  rintro rfl
  obtain ⟨rest, h1, -⟩ := h
  have hf := hw.file
  rw [h1] at hf; simp at hf; subst hf
  have h2 := hw.lo; have h3 := hw.hi; have h4 := hw.le
  simp [dummyFile] at h2 h3
  simp [Span.isCallSite] at hs
  have h5 : s.hi = 0 := h3
  have h6 : s.lo = 0 := by omega
  exact hs h6 h5

theorem callSite_iff {sm : SourceMap} (h : sm.WF) {k : Nat} {f : FileInfo} {s : Span}
    (hw : Within sm k f s) : k = 0 ↔ s.isCallSite = true := by
  constructor
  · intro hk
    cases hs : s.isCallSite with
    | true => rfl
    | false => exact absurd hk (hw.not_dummy h hs)
  · intro hs
    simp [Span.isCallSite] at hs
    obtain ⟨rest, h1, h2⟩ := h
    cases k with
    | zero => rfl
    | succ k =>
      have hf := hw.file
      rw [h1] at hf; simp at hf
      have := h2.lo_ge hf
      have := hw.lo
      omega

theorem start_eq {sm : SourceMap} (h : sm.WF) {k : Nat} {f : FileInfo} {s : Span}
    (hw : Within sm k f s) :
    s.start (ε := ε) sm = .ok (Spec.lineColumn f.sourceText (s.lo - f.span.lo)) := by
  unfold Span.start
  rw [fileinfo_eq h hw, Res.ok_bind]
  have := hw.le; have := hw.hi
  exact offsetLineColumn_eq (h.files.good hw.file) hw.lo (by omega)

theorem end_eq {sm : SourceMap} (h : sm.WF) {k : Nat} {f : FileInfo} {s : Span}
    (hw : Within sm k f s) :
    s.end_ (ε := ε) sm = .ok (Spec.lineColumn f.sourceText (s.hi - f.span.lo)) := by
  unfold Span.end_
  rw [fileinfo_eq h hw, Res.ok_bind]
  have := hw.le; have := hw.lo
  exact offsetLineColumn_eq (h.files.good hw.file) (by omega) hw.hi

theorem file_eq {sm : SourceMap} (h : sm.WF) {k : Nat} {f : FileInfo} {s : Span}
    (hw : Within sm k f s) :
    s.file (ε := ε) sm = .ok (filepathText (if k = 0 then none else some k)) := by
  unfold Span.file SourceMap.filepath SourceMap.filepathIndex
  rw [find_eq h hw]; rfl

theorem byteRange_good {f : FileInfo} (hf : f.Good) {s : Span} (h1 : f.span.lo ≤ s.lo)
    (h2 : s.lo ≤ f.span.hi) (h3 : f.span.lo ≤ s.hi) (h4 : s.hi ≤ f.span.hi) :
    ∃ cache, f.byteRange (ε := ε) s = .ok ({ f with cache := cache },
        Spec.byteOffset f.sourceText (s.lo - f.span.lo),
        Spec.byteOffset f.sourceText (s.hi - f.span.lo)) ∧
      FileInfo.Good { f with cache := cache } := by
  obtain ⟨c1, e1, g1⟩ := byte_spec (ε := ε) hf h1 h2
  obtain ⟨c2, e2, g2⟩ := byte_spec (ε := ε) g1 (ch := s.hi) h3 h4
  refine ⟨c2, ?_, g2⟩
  unfold FileInfo.byteRange
  rw [e1, Res.ok_bind]
  simp only
  rw [e2]; rfl

theorem byteRange_eq {sm : SourceMap} (h : sm.WF) {k : Nat} {f : FileInfo} {s : Span}
    (hw : Within sm k f s) :
    ∃ sm', s.byteRange (ε := ε) sm = .ok (sm',
        Spec.byteOffset f.sourceText (s.lo - f.span.lo),
        Spec.byteOffset f.sourceText (s.hi - f.span.lo)) ∧ sm'.WF ∧ sm.Same sm' := by
  unfold Span.byteRange
  cases hc : s.isCallSite with
  | true =>
    have hk := (callSite_iff h hw).mpr hc
    subst hk
    have hf := hw.file
    obtain ⟨rest, h1, h2⟩ := id h
    rw [h1] at hf; simp at hf; subst hf
    simp only [if_true]
    refine ⟨sm, ?_, h, .refl _⟩
    simp [dummyFile, Spec.byteOffset]
  | false =>
    have hle := hw.le; have hlo := hw.lo; have hhi := hw.hi
    obtain ⟨c, e, g⟩ := byteRange_good (ε := ε) (s := s) (h.files.good hw.file) hlo (by omega)
      (by omega) hhi
    have hs := set_wf h (g := { f with cache := c }) hw.file (hw.not_dummy h hc) g rfl rfl
    refine ⟨_, ?_, hs⟩
    simp only [Bool.false_eq_true, if_false]
    unfold SourceMap.withFile
    rw [find_eq h hw, Res.ok_bind, hw.file]
    simp only
    rw [e]; rfl

theorem slice_eq {s : List Char} {a b : Nat} (hab : a ≤ b) :
    slice (ε := ε) s (Spec.byteOffset s a) (Spec.byteOffset s b) = .ok (Spec.substring s a b) := by
  have hA : ∀ p, splitAtByte s (Spec.byteOffset s p) = some (s.take p, s.drop p) := fun p =>
    splitAtByte_eq (by simp) rfl
  have hmono : Spec.byteOffset s a ≤ Spec.byteOffset s b := by
    have := strLen_take_add s a (b - a)
    rw [show a + (b - a) = b by omega] at this
    show strLen (s.take a) ≤ strLen (s.take b)
    omega
  unfold slice
  rw [if_neg (by omega), hA, hA]
  simp only [Spec.substring]
  congr 1
  rw [List.drop_take, List.length_take]
  by_cases h : a ≤ s.length
  · rw [Nat.min_eq_left h]
  · rw [Nat.min_eq_right (by omega), List.drop_of_length_le (i := s.length) (by omega),
      List.drop_of_length_le (i := a) (by omega)]
    simp

theorem sourceText_eq {sm : SourceMap} (h : sm.WF) {k : Nat} {f : FileInfo} {s : Span}
    (hw : Within sm k f s) (hc : s.isCallSite = false) :
    ∃ sm', s.sourceText (ε := ε) sm = .ok (sm',
        some (Spec.substring f.sourceText (s.lo - f.span.lo) (s.hi - f.span.lo))) ∧
      sm'.WF ∧ sm.Same sm' := by
  have hle := hw.le; have hlo := hw.lo; have hhi := hw.hi
  obtain ⟨c, e, g⟩ := byteRange_good (ε := ε) (s := s) (h.files.good hw.file) hlo (by omega)
    (by omega) hhi
  have hs := set_wf h (g := { f with cache := c }) hw.file (hw.not_dummy h hc) g rfl rfl
  refine ⟨_, ?_, hs⟩
  unfold Span.sourceText
  rw [hc]
  simp only [Bool.false_eq_true, if_false]
  unfold SourceMap.withFile FileInfo.sourceTextOf
  rw [find_eq h hw, Res.ok_bind, hw.file]
  simp only
  rw [e, Res.ok_bind]
  simp only
  rw [slice_eq (by omega)]; rfl

/-! ### Histories -/

section
variable [UnicodeTables]

/-- The source maps a thread can have: any sequence of parses of texts with fewer than 2³²
characters, span queries (on any span whatsoever) and invalidations. -/
inductive SourceMap.Reach : SourceMap → Prop
  | init : Reach SourceMap.init
  | parse {sm} (src : List Char) : Reach sm → src.length < u32Size →
      Reach (TokenStream.fromStr sm src).1
  | literal {sm} (src : List Char) : Reach sm → src.length < u32Size →
      Reach (Literal.fromStr sm src).1
  | byteRange {sm sm' r} (s : Span) : Reach sm → s.byteRange (ε := Unit) sm = .ok (sm', r) → Reach sm'
  | sourceText {sm sm' r} (s : Span) : Reach sm → s.sourceText (ε := Unit) sm = .ok (sm', r) →
      Reach sm'
  | invalidate {sm} : Reach sm → Reach sm.invalidate

omit [UnicodeTables] in
theorem binarySearchBy_inl {α : Type} {f : α → Res ε Ordering} {a : List α} {i : Nat}
    (h : binarySearchBy f a = .ok (.inl i)) : ∃ x, a[i]? = some x ∧ f x = .ok .eq := by
  unfold binarySearchBy at h
  split at h
  · simp at h
  · cases hb : bsearchLoop f a (a.length + 1) a.length 0 with
    | ok base =>
      rw [hb, Res.ok_bind] at h
      cases hg : a[base]? with
      | none => rw [hg] at h; simp at h
      | some x =>
        rw [hg] at h
        simp only at h
        cases hf : f x with
        | ok c =>
          rw [hf, Res.ok_bind] at h
          cases c with
          | eq => simp at h; subst h; exact ⟨x, hg, hf⟩
          | lt => simp at h
          | gt => simp at h
        | err e => rw [hf] at h; simp at h
        | panic => rw [hf] at h; simp at h
        | diverge => rw [hf] at h; simp at h
    | err e => rw [hb] at h; simp at h
    | panic => rw [hb] at h; simp at h
    | diverge => rw [hb] at h; simp at h

omit [UnicodeTables] in
theorem find_some {sm : SourceMap} {s : Span} {k : Nat} (h : sm.find (ε := ε) s = .ok k) :
    ∃ f, sm.files[k]? = some f ∧ f.span.lo ≤ s.lo ∧ s.lo ≤ f.span.hi ∧ f.span.lo ≤ s.hi ∧
      s.hi ≤ f.span.hi := by
  unfold SourceMap.find at h
  revert h
  generalize hbs : binarySearchBy (ε := ε) _ sm.files = r
  intro h
  cases r with
  | ok y =>
    rw [Res.ok_bind] at h
    cases y with
    | inl i =>
      simp at h; subst h
      obtain ⟨x, hx, hf⟩ := binarySearchBy_inl hbs
      refine ⟨x, hx, ?_⟩
      split at hf
      · simp at hf
      · split at hf
        · simp at hf
        · split at hf
          · rename_i hw
            simp [FileInfo.spanWithin] at hw
            omega
          · simp at hf
    | inr i => simp at h
  | err e => simp at h
  | panic => simp at h
  | diverge => simp at h

theorem withFile_wf {α : Type} {sm sm' : SourceMap} (h : sm.WF) {s : Span}
    (hc : s.isCallSite = false) {k : FileInfo → Res ε (FileInfo × α)} {r : α}
    (hk : ∀ f : FileInfo, f.Good → f.span.lo ≤ s.lo → s.lo ≤ f.span.hi → f.span.lo ≤ s.hi →
      s.hi ≤ f.span.hi → ∀ f' a, k f = .ok (f', a) →
        f'.Good ∧ f'.span = f.span ∧ f'.sourceText = f.sourceText)
    (he : sm.withFile s k = .ok (sm', r)) : sm'.WF ∧ sm.Same sm' := by
  unfold SourceMap.withFile at he
  cases hf : sm.find (ε := ε) s with
  | ok i =>
    rw [hf, Res.ok_bind] at he
    obtain ⟨f, h1, h2, h3, h4, h5⟩ := find_some hf
    rw [h1] at he
    simp only at he
    cases hkf : k f with
    | ok y =>
      obtain ⟨f', a⟩ := y
      rw [hkf, Res.ok_bind] at he
      simp at he
      obtain ⟨g1, g2, g3⟩ := hk f (h.files.good h1) h2 h3 h4 h5 f' a hkf
      have hi0 : i ≠ 0 := by
        rintro rfl
        obtain ⟨rest, e1, -⟩ := h
        rw [e1] at h1; simp at h1; subst h1
        simp [dummyFile] at h2 h3 h4 h5
        simp [Span.isCallSite] at hc
        exact hc h3 h5
      have := set_wf h h1 hi0 g1 g2 g3
      rw [he.1] at this
      exact this
    | err e => rw [hkf] at he; simp at he
    | panic => rw [hkf] at he; simp at he
    | diverge => rw [hkf] at he; simp at he
  | err e => rw [hf] at he; simp at he
  | panic => rw [hf] at he; simp at he
  | diverge => rw [hf] at he; simp at he

theorem byteRange_wf {sm sm' : SourceMap} (h : sm.WF) {s : Span} {r : Nat × Nat}
    (he : s.byteRange (ε := ε) sm = .ok (sm', r)) : sm'.WF ∧ sm.Same sm' := by
  unfold Span.byteRange at he
  cases hc : s.isCallSite with
  | true => rw [hc] at he; simp at he; rw [← he.1]; exact ⟨h, .refl _⟩
  | false =>
    rw [hc] at he
    simp only [Bool.false_eq_true, if_false] at he
    refine withFile_wf h hc ?_ he
    intro f hf h1 h2 h3 h4 f' a hk
    obtain ⟨c, e, g⟩ := byteRange_good (ε := ε) hf h1 h2 h3 h4
    rw [e] at hk
    simp at hk
    rw [← hk.1]
    exact ⟨g, rfl, rfl⟩

theorem sourceText_wf {sm sm' : SourceMap} (h : sm.WF) {s : Span} {r : Option (List Char)}
    (he : s.sourceText (ε := ε) sm = .ok (sm', r)) : sm'.WF ∧ sm.Same sm' := by
  unfold Span.sourceText at he
  cases hc : s.isCallSite with
  | true => rw [hc] at he; simp at he; rw [← he.1]; exact ⟨h, .refl _⟩
  | false =>
    rw [hc] at he
    simp only [Bool.false_eq_true, if_false] at he
    refine withFile_wf h hc ?_ he
    intro f hf h1 h2 h3 h4 f' a hk
    obtain ⟨c, e, g⟩ := byteRange_good (ε := ε) hf h1 h2 h3 h4
    unfold FileInfo.sourceTextOf at hk
    rw [e, Res.ok_bind] at hk
    simp only at hk
    cases hsl : slice (ε := ε) f.sourceText (Spec.byteOffset f.sourceText (s.lo - f.span.lo))
        (Spec.byteOffset f.sourceText (s.hi - f.span.lo)) with
    | ok t =>
      rw [hsl] at hk
      simp at hk
      rw [← hk.1]
      exact ⟨g, rfl, rfl⟩
    | err e => rw [hsl] at hk; simp at hk
    | panic => rw [hsl] at hk; simp at hk
    | diverge => rw [hsl] at hk; simp at hk

/-- What a parse does to the source map, when the text fits. -/
theorem getCursor_eq {sm : SourceMap} (h : sm.WF) {src : List Char}
    (hfit : sm.nextPos + src.length < u32Size) :
    ∃ f : FileInfo, f.sourceText = src ∧ f.span = ⟨sm.nextPos, sm.nextPos + src.length⟩ ∧
      f.cache = [] ∧ SourceMap.WF ⟨sm.files ++ [f]⟩ ∧
      TokenStream.fromStr sm src = (⟨sm.files ++ [f]⟩, fromStrAt src sm.nextPos) ∧
      Literal.fromStr sm src = (⟨sm.files ++ [f]⟩, literalFromStrAt src sm.nextPos) := by
  obtain ⟨f, h1, h2, h3, h4, h5, h6⟩ := addFile_eq (ε := Span) h hfit
  refine ⟨f, h1, h2, h3, h6, ?_, ?_⟩
  · unfold TokenStream.fromStr getCursor
    rw [h5, Res.ok_bind]
    simp [h2]
  · unfold Literal.fromStr getCursor
    rw [h5, Res.ok_bind]
    simp [h2]

theorem getCursor_panic {sm : SourceMap} (h : sm.WF) {src : List Char} (hlen : src.length < u32Size)
    (hfit : ¬ sm.nextPos + src.length < u32Size) :
    TokenStream.fromStr sm src = (sm, .panic) ∧ Literal.fromStr sm src = (sm, .panic) := by
  unfold TokenStream.fromStr Literal.fromStr getCursor
  rw [addFile_panic h hlen hfit]
  exact ⟨rfl, rfl⟩

theorem SourceMap.Reach.wf {sm : SourceMap} (h : sm.Reach) : sm.WF := by
  induction h with
  | init => exact SourceMap.init_wf
  | parse src _ hlen ih =>
    rename_i sm _
    by_cases hfit : sm.nextPos + src.length < u32Size
    · obtain ⟨f, -, -, -, hw, e, -⟩ := getCursor_eq ih hfit
      rw [e]; exact hw
    · rw [(getCursor_panic ih hlen hfit).1]; exact ih
  | literal src _ hlen ih =>
    rename_i sm _
    by_cases hfit : sm.nextPos + src.length < u32Size
    · obtain ⟨f, -, -, -, hw, -, e⟩ := getCursor_eq ih hfit
      rw [e]; exact hw
    · rw [(getCursor_panic ih hlen hfit).2]; exact ih
  | byteRange s _ he ih => exact (byteRange_wf ih he).1
  | sourceText s _ he ih => exact (sourceText_wf ih he).1
  | invalidate _ ih => rw [ih.invalidate]; exact SourceMap.init_wf

end

end PM2
