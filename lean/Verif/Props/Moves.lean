import Verif.Proof.Shift
import Verif.Props.SourceMap
/-! # C16, C17, C60: history independence, error spans, byte order mark -/

set_option linter.unusedSectionVars false

namespace PM2.Props
open Spec

section
variable [UnicodeTables] {ε : Type}

/-- **C16.** The result of parsing a text is one fixed result, moved to the position at which the text
is registered: in any two histories the tokens (or the error) differ by a constant shift only. -/
theorem C16_shift (src : List Char) : ∃ r0, ∀ {sm : SourceMap} {texts : List (List Char)},
    History sm texts → Room texts src →
    (TokenStream.fromStr sm src).2 = shiftRes (base texts texts.length) r0 := by
  refine ⟨P.run src.length ((P.stripBom src).length + 1) ⟨P.stripBom src, [], []⟩, ?_⟩
  intro sm texts h hr
  obtain ⟨e, -, -, -, hb⟩ := h.fromStr hr
  have hl : (P.stripBom src).length ≤ src.length := by unfold P.stripBom; split <;> simp
  rw [e, fromStrAt_eq hb, ← P.run_shift _ _ _ (by simpa using hl), Nat.add_comm]
  rfl

theorem mapSpan_mapSpan (f g : Span → Span) : ∀ ts : List TokenTree,
    mapSpan f (mapSpan g ts) = mapSpan (f ∘ g) ts
  | [] => rfl
  | .group d inner s :: ts => by
    simp [mapSpan, mapSpanTree, mapSpan_mapSpan f g inner, mapSpan_mapSpan f g ts]
  | .ident _ _ _ :: ts => by simp [mapSpan, mapSpanTree, mapSpan_mapSpan f g ts]
  | .punct _ _ _ :: ts => by simp [mapSpan, mapSpanTree, mapSpan_mapSpan f g ts]
  | .literal _ _ :: ts => by simp [mapSpan, mapSpanTree, mapSpan_mapSpan f g ts]

theorem erase_shift (k : Nat) (ts : List TokenTree) : erase (shift k ts) = erase ts := by
  unfold erase shift
  rw [mapSpan_mapSpan]
  rfl

/-- **C16**, modulo spans: two histories give the same tokens, or both reject. -/
theorem C16_same {src : List Char} {sm sm' : SourceMap} {texts texts' : List (List Char)}
    (h : History sm texts) (hr : Room texts src) (h' : History sm' texts') (hr' : Room texts' src) :
    (∀ ts, (TokenStream.fromStr sm src).2 = .ok ts →
      ∃ ts', (TokenStream.fromStr sm' src).2 = .ok ts' ∧ erase ts' = erase ts) ∧
    (∀ e, (TokenStream.fromStr sm src).2 = .err e →
      ∃ e', (TokenStream.fromStr sm' src).2 = .err e' ∧
        e'.lo + base texts texts.length = e.lo + base texts' texts'.length) := by
  obtain ⟨r0, hall⟩ := C16_shift src
  rw [hall h hr, hall h' hr']
  cases r0 with
  | ok ts0 =>
    refine ⟨fun ts e => ⟨_, rfl, ?_⟩, fun e he => by simp [shiftRes] at he⟩
    simp [shiftRes] at e
    rw [← e, erase_shift, erase_shift]
  | err e0 =>
    refine ⟨fun ts e => by simp [shiftRes] at e, fun e he => ⟨_, rfl, ?_⟩⟩
    simp [shiftRes] at he
    rw [← he]; simp; omega
  | panic => simp [shiftRes]
  | diverge => simp [shiftRes]

/-- `Literal::from_str` does not depend on earlier parses either. -/
theorem C16_literal {src : List Char} {sm sm' : SourceMap} {texts texts' : List (List Char)}
    (h : History sm texts) (hr : Room texts src) (h' : History sm' texts') (hr' : Room texts' src) :
    (∃ s, (Literal.fromStr sm src).2 = .ok (src, s)) ↔
      (∃ s, (Literal.fromStr sm' src).2 = .ok (src, s)) := by
  obtain ⟨-, e, -, -, hb⟩ := h.fromStr hr
  obtain ⟨-, e', -, -, hb'⟩ := h'.fromStr hr'
  rw [e, e', literalFromStrAt_eq hb, literalFromStrAt_eq hb']
  split <;> simp

/-! ### C17 -/

/-- **C17.** The span of a `LexError` of `TokenStream::from_str` is an empty span inside the text just
parsed, so that its `start()` and `end()` are those of a position of that text (C41). -/
theorem C17_error_span {sm : SourceMap} {texts : List (List Char)} (h : History sm texts)
    {src : List Char} (hr : Room texts src) {e : Span}
    (herr : (TokenStream.fromStr sm src).2 = .err e) :
    InText (texts ++ [src]) texts.length src e ∧ e.lo = e.hi ∧ e ≠ Span.callSite := by
  obtain ⟨e1, -, -, -, hb⟩ := h.fromStr hr
  rw [e1, fromStrAt_eq hb] at herr
  have hl : (P.stripBom src).length ≤ src.length := by unfold P.stripBom; split <;> simp
  obtain ⟨g1, g2, g3⟩ := P.run_err (lo := base texts texts.length) _ _ _ (by simp; omega)
    (by simp) herr
  have hbase : base (texts ++ [src]) texts.length = base texts texts.length := by
    simp [base]
  refine ⟨⟨by simp, by rw [hbase]; exact g2, by omega, by rw [hbase]; omega⟩, g1, ?_⟩
  rintro rfl
  have : 1 ≤ base texts texts.length := by unfold base; omega
  simp [Span.callSite] at g2
  omega

/-- **C17**, usability: in the state after the failed parse, and in every later state that still holds
the text, `start()`, `end()`, `byte_range()` and `source_text()` of the error span succeed. -/
theorem C17_usable {sm : SourceMap} {texts : List (List Char)} (h : History sm texts)
    {src : List Char} (hr : Room texts src) {e : Span}
    (herr : (TokenStream.fromStr sm src).2 = .err e) :
    let sm' := (TokenStream.fromStr sm src).1
    (∃ lc, e.start (ε := ε) sm' = .ok lc ∧ e.end_ (ε := ε) sm' = .ok lc) ∧
    (∃ sm2 b, e.byteRange (ε := ε) sm' = .ok (sm2, b, b)) ∧
    ∃ sm2, e.sourceText (ε := ε) sm' = .ok (sm2, some []) := by
  obtain ⟨hin, heq, -⟩ := C17_error_span h hr herr
  have hh : History (TokenStream.fromStr sm src).1 (texts ++ [src]) := by
    have := History.parse src h (by unfold Room at hr; omega)
    rwa [if_pos hr] at this
  refine ⟨?_, ?_, ?_⟩
  · obtain ⟨h1, h2⟩ := C41_line_column (ε := ε) hh hin
    refine ⟨_, h1, ?_⟩
    rw [h2, heq]
  · obtain ⟨sm2, h1⟩ := C42_byte_range (ε := ε) hh hin
    rw [heq] at h1
    exact ⟨sm2, _, h1⟩
  · obtain ⟨sm2, h1⟩ := C42_source_text (ε := ε) hh hin
    refine ⟨sm2, ?_⟩
    rw [h1, heq]; simp

/-! ### C60 -/

/-- **C60.** One leading byte order mark is skipped: parsing BOM + `s` gives the result of parsing `s`
moved by one position. -/
theorem C60_bom {sm : SourceMap} {texts : List (List Char)} (h : History sm texts)
    {s : List Char} (hr : Room texts ('\ufeff' :: s)) (hs : s.head? ≠ some '\ufeff') :
    (TokenStream.fromStr sm ('\ufeff' :: s)).2 = shiftRes 1 (TokenStream.fromStr sm s).2 := by
  have hr' : Room texts s := by
    unfold Room at *; simp at hr; omega
  obtain ⟨e1, -, -, -, hb⟩ := h.fromStr hr
  obtain ⟨e2, -, -, -, hb'⟩ := h.fromStr hr'
  have hb1 : P.stripBom ('\ufeff' :: s) = s := by
    unfold P.stripBom
    rw [if_pos (by simp)]
    rfl
  have hb2 : P.stripBom s = s := by
    unfold P.stripBom
    rw [if_neg]
    intro hp
    obtain ⟨v, rfl⟩ := startsWith_iff.mp hp
    simp at hs
  rw [e1, e2, fromStrAt_eq hb, fromStrAt_eq hb', hb1, hb2,
    ← P.run_shift 1 _ _ (by simp)]
  rfl

/-- Only one byte order mark is skipped: a second one is an error. -/
theorem C60_once [LawfulUnicode] {sm : SourceMap} {texts : List (List Char)} (h : History sm texts)
    {s : List Char} (hr : Room texts ('\ufeff' :: '\ufeff' :: s)) :
    ∃ e, (TokenStream.fromStr sm ('\ufeff' :: '\ufeff' :: s)).2 = .err e := by
  obtain ⟨e1, -, -, -, hb⟩ := h.fromStr hr
  have hb1 : P.stripBom ('\ufeff' :: '\ufeff' :: s) = '\ufeff' :: s := by
    unfold P.stripBom
    rw [if_pos (by simp)]
    rfl
  have hleaf : P.leaf ('\ufeff' :: s) = none := by
    cases hl : P.leaf ('\ufeff' :: s) with
    | none => rfl
    | some x =>
      obtain ⟨l, r⟩ := x
      obtain ⟨c, u, e, hc⟩ := P.leaf_head hl
      simp at e
      obtain ⟨rfl, rfl⟩ := e
      rcases hc with hc | hc | hc | hc | hc | hc | hc | hc | hc
      · exact absurd hc (by decide)
      · exact absurd hc (by decide)
      · exact absurd hc (by decide)
      · exact absurd hc (by decide)
      · exact absurd hc (by decide)
      · have := identStart_continue hc
        have h2 := LawfulUnicode.continue_not_bom
        unfold isIdentContinue at this
        rw [h2] at this; simp at this
      · exact absurd hc (by decide)
      · exact absurd hc.1 (by decide)
      · obtain ⟨v, hv⟩ := startsWith_iff.mp hc
        simp [errorRepr] at hv
  have hn : P.next ('\ufeff' :: s) = .bad ('\ufeff' :: s) := by
    obtain ⟨-, g2, g3⟩ := P.no_trivia (c := '\ufeff') (r := s) (by decide) (by decide)
    unfold P.next P.next1
    rw [g3, g2]
    simp [P.openD, P.closeD, hleaf]
  rw [e1, fromStrAt_eq hb, hb1]
  simp only [P.run, P.step, hn]
  exact ⟨_, rfl⟩

end

/-! ### Concrete cases -/
section Examples
attribute [local instance] sampleTables

example : (TokenStream.fromStr SourceMap.init "\ufeffa".toList).2 =
    .ok [.ident ['a'] false ⟨2, 3⟩] := by rfl
example : (TokenStream.fromStr (TokenStream.fromStr SourceMap.init "xy".toList).1 "a".toList).2 =
    .ok [.ident ['a'] false ⟨4, 5⟩] := by rfl
/-- an error at the mismatched closing delimiter -/
example : (TokenStream.fromStr SourceMap.init "a (b]".toList).2 = .err ⟨5, 5⟩ := by rfl

end Examples

end PM2.Props
