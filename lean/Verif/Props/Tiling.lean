import Verif.Proof.Leaves
import Verif.Props.SourceMap
import Verif.Model.Display
/-! # C06, C43–C45, C48 and the first half of C07: tokens tile the source text -/

set_option linter.unusedSectionVars false

namespace PM2.Props
open Spec

section
variable [UnicodeTables] {ε : Type}

theorem base_prefix {a b : List (List Char)} (h : a <+: b) {i : Nat} (hi : i ≤ a.length) :
    base b i = base a i := by
  obtain ⟨c, rfl⟩ := h
  simp [base, List.take_append_of_le_length hi]

/-- **C06.** If a parse succeeds, the source text is — after one optional byte order mark — exactly the
texts of the tokens in order, separated by whitespace and non-doc comments only, each token standing
at its span. (`Spec.Tile` and `Spec.Trivia` are defined without reference to the parser.) -/
theorem C06_tiling {sm : SourceMap} {texts : List (List Char)} (h : History sm texts)
    {src : List Char} (hr : Room texts src) {ts : List TokenTree}
    (hok : (TokenStream.fromStr sm src).2 = .ok ts) :
    ∃ bom body, src = bom ++ body ∧
      (bom = ['\ufeff'] ∨ bom = [] ∧ src.head? ≠ some '\ufeff') ∧
      Tile (base texts texts.length + bom.length) body ts [] := by
  obtain ⟨e, -, -, -, hb⟩ := h.fromStr hr
  rw [e, fromStrAt_ok_iff hb] at hok
  have hl : (P.stripBom src).length ≤ src.length := by unfold P.stripBom; split <;> simp
  obtain ⟨body, e1, ht⟩ := hok.tile (by omega)
  simp at e1
  subst e1
  unfold P.stripBom at *
  split at ht
  · rename_i hp
    obtain ⟨v, rfl⟩ := startsWith_iff.mp hp
    refine ⟨['\ufeff'], v, rfl, .inl rfl, ?_⟩
    simp at ht
    have hx : base texts texts.length + (v.length + 1) - v.length =
        base texts texts.length + ['\ufeff'].length := by simp; omega
    rw [hx] at ht
    exact ht
  · rename_i hp
    refine ⟨[], src, rfl, .inr ⟨rfl, ?_⟩, ?_⟩
    · intro hh
      apply hp
      cases src with
      | nil => simp at hh
      | cons c s => simp at hh; subst hh; simp [startsWith_iff]
    · have hx : base texts texts.length + src.length - src.length =
        base texts texts.length + ([] : List Char).length := by simp
      rw [hx] at ht
      exact ht

/-- The span of every token of an accepted text, at any depth, lies in that text, in every later
state of the map that still holds it; and the characters there are written as the token. -/
theorem token_at {sm : SourceMap} {texts : List (List Char)} (h : History sm texts)
    {src : List Char} (hr : Room texts src) {ts : List TokenTree}
    (hok : (TokenStream.fromStr sm src).2 = .ok ts)
    {texts' : List (List Char)} (hp : texts ++ [src] <+: texts') {tok : TokenTree}
    (ht : Sub tok ts) :
    InText texts' texts.length src tok.span ∧ tok.span.lo < tok.span.hi ∧
    TokText tok ((src.drop (tok.span.lo - base texts' texts.length)).take
      (tok.span.hi - tok.span.lo)) := by
  obtain ⟨bom, body, rfl, -, htile⟩ := C06_tiling h hr hok
  obtain ⟨a, x, b, rfl, hx, hsp, htt⟩ := htile.sub ht
  have hbase : base texts' texts.length = base texts texts.length := by
    rw [base_prefix hp (by simp)]
    simp [base]
  have hx' : 0 < x.length := List.length_pos_iff.mpr hx
  refine ⟨⟨?_, ?_, ?_, ?_⟩, ?_, ?_⟩
  · obtain ⟨c, rfl⟩ := hp; simp
  · rw [hsp, hbase]; simp; omega
  · rw [hsp]; simp
  · rw [hsp, hbase]; simp; omega
  · rw [hsp]; simp; omega
  · rw [hsp, hbase]
    have e1 : base texts texts.length + bom.length + a.length - base texts texts.length =
        (bom ++ a).length := by simp; omega
    have e2 : base texts texts.length + bom.length + a.length + x.length -
        (base texts texts.length + bom.length + a.length) = x.length := by omega
    simp only [e1, e2]
    rw [show bom ++ (a ++ x ++ b) = (bom ++ a) ++ (x ++ b) by simp, List.drop_left, List.take_left]
    exact htt

/-- **C43.** In every later state of the map that still holds the text, `source_text` of every token
of an accepted text (at any depth) is `Some` of a text written as that token: its own text for an
identifier, punct or literal, `open contents close` for a group, or the doc comment the token stems
from. -/
theorem C43_source_text {sm : SourceMap} {texts : List (List Char)} (h : History sm texts)
    {src : List Char} (hr : Room texts src) {ts : List TokenTree}
    (hok : (TokenStream.fromStr sm src).2 = .ok ts)
    {sm' : SourceMap} {texts' : List (List Char)} (h' : History sm' texts')
    (hp : texts ++ [src] <+: texts') {tok : TokenTree} (ht : Sub tok ts) :
    ∃ x sm'', tok.span.sourceText (ε := ε) sm' = .ok (sm'', some x) ∧ TokText tok x := by
  obtain ⟨h1, -, h3⟩ := token_at h hr hok hp ht
  obtain ⟨sm'', e⟩ := C42_source_text (ε := ε) h' h1
  exact ⟨_, sm'', e, h3⟩

/-- The text of a leaf token is what `to_string` prints for it. -/
theorem C43_leaf {tok : TokenTree} {x : List Char} (h : LeafText tok x) : x = displayTree tok := by
  cases h <;> simp [displayTree, displayIdent]

/-- A token that is not a group and whose source text does not begin like a doc comment:
`source_text` is `Some` of exactly what `to_string` prints. -/
theorem C43_leaf_text {sm : SourceMap} {texts : List (List Char)} (h : History sm texts)
    {src : List Char} (hr : Room texts src) {ts : List TokenTree}
    (hok : (TokenStream.fromStr sm src).2 = .ok ts)
    {sm' : SourceMap} {texts' : List (List Char)} (h' : History sm' texts')
    (hp : texts ++ [src] <+: texts') {tok : TokenTree} (ht : Sub tok ts)
    (hg : ∀ d inner span, tok ≠ .group d inner span)
    (hdoc : ¬ IsDoc ((src.drop (tok.span.lo - base texts' texts.length)).take
      (tok.span.hi - tok.span.lo))) :
    ∃ sm'', tok.span.sourceText (ε := ε) sm' = .ok (sm'', some (displayTree tok)) := by
  obtain ⟨h1, -, h3⟩ := token_at h hr hok hp ht
  obtain ⟨sm'', e⟩ := C42_source_text (ε := ε) h' h1
  refine ⟨sm'', ?_⟩
  generalize (src.drop (tok.span.lo - base texts' texts.length)).take
      (tok.span.hi - tok.span.lo) = x at hdoc h3 e
  cases h3 with
  | leaf hl => rw [C43_leaf hl] at e; exact e
  | group => exact absurd rfl (hg _ _ _)
  | doc h1 h2 h3 => exact absurd h1.isDoc hdoc

/-! ### C44 -/

/-- **C44.** The spans of an accepted text are ordered, disjoint, nested, and lie in the text. -/
theorem C44_nested {sm : SourceMap} {texts : List (List Char)} (h : History sm texts)
    {src : List Char} (hr : Room texts src) {ts : List TokenTree}
    (hok : (TokenStream.fromStr sm src).2 = .ok ts) :
    Nested (base texts texts.length) (base texts texts.length + src.length) ts := by
  obtain ⟨bom, body, rfl, -, htile⟩ := C06_tiling h hr hok
  have hweak : ∀ {lo lo' hi ts}, Nested lo hi ts → lo' ≤ lo → Nested lo' hi ts := by
    intro lo lo' hi ts hn hle
    cases hn with
    | nil h => exact .nil (by omega)
    | leaf h1 h2 h3 h4 => exact .leaf h1 (by omega) h3 h4
    | doc h1 h2 h3 => exact .doc (by omega) h2 h3
    | group h1 h2 h3 h4 => exact .group (by omega) h2 h3 h4
  exact hweak (htile.nested (by simp; omega)) (by omega)

theorem nested_lo {lo hi : Nat} {ts : List TokenTree} (h : Nested lo hi ts) :
    lo ≤ hi ∧ ∀ t ∈ ts, lo ≤ t.span.lo ∧ t.span.lo < t.span.hi ∧ t.span.hi ≤ hi := by
  induction h with
  | nil h => exact ⟨h, by simp⟩
  | leaf h1 h2 h3 _ ih =>
    obtain ⟨i1, i2⟩ := ih
    refine ⟨by omega, ?_⟩
    intro t ht
    rcases List.mem_cons.mp ht with rfl | ht
    · exact ⟨h2, h3, i1⟩
    · have := i2 t ht; omega
  | @doc lo hi content inner span ts h1 h2 _ ih =>
    obtain ⟨i1, i2⟩ := ih
    refine ⟨by omega, ?_⟩
    intro t ht
    rcases List.mem_append.mp ht with ht | ht
    · have := Sub.docAttr_span (.here ht)
      rw [this]; exact ⟨h1, h2, i1⟩
    · have := i2 t ht; omega
  | @group lo hi d inner span ts h1 h2 _ _ ih1 ih2 =>
    obtain ⟨i1, i2⟩ := ih2
    refine ⟨by omega, ?_⟩
    intro t ht
    rcases List.mem_cons.mp ht with rfl | ht
    · exact ⟨h1, by simp [TokenTree.span]; omega, i1⟩
    · have := i2 t ht; omega

theorem docAttr_pairwise (content : List Char) (inner : Bool) (span : Span) {a b : TokenTree}
    (ha : a ∈ docAttr content inner span) (hb : b ∈ docAttr content inner span) :
    a.span = b.span := by
  rw [Sub.docAttr_span (.here ha), Sub.docAttr_span (.here hb)]

/-- Siblings: an earlier token ends before a later one begins, or they share a span. -/
theorem C44_siblings {lo hi : Nat} {ts : List TokenTree} (h : Nested lo hi ts) :
    ts.Pairwise (fun a b => a.span.hi ≤ b.span.lo ∨ a.span = b.span) := by
  induction h with
  | nil h => exact .nil
  | leaf h1 h2 h3 hn ih =>
    refine .cons ?_ ih
    intro b hb
    exact .inl ((nested_lo hn).2 b hb).1
  | @doc lo hi content inner span ts h1 h2 hn ih =>
    refine List.pairwise_append.mpr ⟨?_, ih, ?_⟩
    · have : ∀ (l : List TokenTree), (∀ a ∈ l, ∀ b ∈ l, a.span = b.span) →
          l.Pairwise (fun a b => a.span.hi ≤ b.span.lo ∨ a.span = b.span) := by
        intro l
        induction l with
        | nil => intro _; exact .nil
        | cons x l ihl =>
          intro hl
          refine .cons (fun b hb => .inr (hl x (by simp) b (by simp [hb]))) (ihl ?_)
          intro a ha b hb
          exact hl a (by simp [ha]) b (by simp [hb])
      exact this _ (fun a ha b hb => docAttr_pairwise _ _ _ ha hb)
    · intro a ha b hb
      rw [Sub.docAttr_span (.here ha)]
      exact .inl ((nested_lo hn).2 b hb).1
  | @group lo hi d inner span ts h1 h2 _ hn ih1 ih2 =>
    refine .cons ?_ ih2
    intro b hb
    exact .inl ((nested_lo hn).2 b hb).1

/-- Contents: everything inside a group lies strictly between the group's two ends, or the group and
its contents are a doc attribute and share one span. -/
theorem C44_contents {lo hi : Nat} {ts : List TokenTree} (h : Nested lo hi ts)
    {d : Delimiter} {inner : List TokenTree} {span : Span} (hg : Sub (.group d inner span) ts) :
    (∀ t, Sub t inner → span.lo < t.span.lo ∧ t.span.hi < span.hi) ∨
    (∃ content, inner = [.ident ['d', 'o', 'c'] false span, .punct '=' .alone span,
      .literal (litString content) span]) := by
  have hsub : ∀ {lo hi ts}, Nested lo hi ts → ∀ t, Sub t ts → lo ≤ t.span.lo ∧ t.span.hi ≤ hi := by
    intro lo hi ts h
    induction h with
    | nil h => intro t ht; exact ht.nil.elim
    | leaf h1 h2 h3 hn ih =>
      intro t ht
      have hb := (nested_lo hn).1
      rcases ht.cons with rfl | ⟨_, _, _, rfl, _⟩ | ht
      · exact ⟨h2, hb⟩
      · exact absurd rfl (h1 _ _ _)
      · have := ih t ht; omega
    | @doc lo hi content inner span ts h1 h2 hn ih =>
      intro t ht
      have hb := (nested_lo hn).1
      rcases ht.append with ht | ht
      · rw [ht.docAttr_span]; omega
      · have := ih t ht; omega
    | @group lo hi d inner span ts h1 h2 hi' hn ih1 ih2 =>
      intro t ht
      have hb := (nested_lo hn).1
      rcases ht.cons with rfl | ⟨_, _, _, e, ht⟩ | ht
      · exact ⟨h1, hb⟩
      · cases e
        have := ih1 t ht; omega
      · have := ih2 t ht; omega
  induction h with
  | nil h => exact hg.nil.elim
  | leaf h1 h2 h3 hn ih =>
    rcases hg.cons with rfl | ⟨_, _, _, rfl, _⟩ | ht
    · exact absurd rfl (h1 _ _ _)
    · exact absurd rfl (h1 _ _ _)
    · exact ih ht
  | @doc lo hi content inner' span' ts h1 h2 hn ih =>
    rcases hg.append with ht | ht
    · obtain ⟨rfl, rfl, rfl⟩ := ht.docAttr_group
      exact .inr ⟨content, rfl⟩
    · exact ih ht
  | @group lo hi d' inner' span' ts h1 h2 hi' hn ih1 ih2 =>
    rcases hg.cons with e | ⟨_, _, _, e, ht⟩ | ht
    · cases e
      refine .inl ?_
      intro t ht
      have := hsub hi' t ht
      omega
    · cases e; exact ih1 ht
    · exact ih2 ht

/-! ### C45 -/

theorem inText_first {texts : List (List Char)} {i : Nat} {t : List Char} {s : Span}
    (h : InText texts i t s) (hlt : s.lo < s.hi) (hu : base texts i + t.length < u32Size) :
    s.firstByte = ⟨s.lo, s.lo + 1⟩ ∧ s.lastByte = ⟨s.hi - 1, s.hi⟩ ∧
      InText texts i t s.firstByte ∧ InText texts i t s.lastByte := by
  have h1 := h.lo; have h2 := h.hi
  have e1 : s.firstByte = ⟨s.lo, s.lo + 1⟩ := by
    simp only [Span.firstByte, satAddU32, Span.mk.injEq, true_and]
    omega
  have e2 : s.lastByte = ⟨s.hi - 1, s.hi⟩ := by
    simp only [Span.lastByte, Span.mk.injEq, and_true]
    omega
  refine ⟨e1, e2, ⟨h.text, ?_, ?_, ?_⟩, ⟨h.text, ?_, ?_, ?_⟩⟩ <;> simp only [e1, e2] <;> omega

/-- **C45**, any span: `span_open` and `span_close` of a group lie inside the group's span, whatever
span of a text it was given (`set_span`), an empty one included; both have at most one character. -/
theorem C45_inside {texts : List (List Char)} {i : Nat} {t : List Char} {s : Span}
    (h : InText texts i t s) (hu : base texts i + t.length < u32Size) :
    (InText texts i t s.firstByte ∧ s.firstByte.lo = s.lo ∧ s.firstByte.hi ≤ s.hi ∧
      s.firstByte.hi ≤ s.lo + 1) ∧
    (InText texts i t s.lastByte ∧ s.lo ≤ s.lastByte.lo ∧ s.lastByte.hi = s.hi ∧
      s.hi ≤ s.lastByte.lo + 1) := by
  have h1 := h.lo; have h2 := h.hi; have h3 := h.le
  refine ⟨⟨⟨h.text, ?_, ?_, ?_⟩, rfl, ?_, ?_⟩, ⟨h.text, ?_, ?_, ?_⟩, ?_, rfl, ?_⟩ <;>
    simp only [Span.firstByte, Span.lastByte, satAddU32] <;> omega

/-- an empty span, as of a `LexError` -/
example : InText [['a', 'b']] 0 ['a', 'b'] (Span.lastByte ⟨2, 2⟩) ∧ Span.lastByte ⟨2, 2⟩ = ⟨2, 2⟩ :=
  ⟨(C45_inside (s := ⟨2, 2⟩) ⟨rfl, by decide, by decide, by decide⟩ (by decide)).2.1, by decide⟩

/-- **C45.** For every group of an accepted text that does not stem from a doc comment, the source
text of `span_open` is the opening delimiter and that of `span_close` the closing one. (`delim_span`
returns these same spans, src/extra.rs:117-143.) -/
theorem C45_delimiters {sm : SourceMap} {texts : List (List Char)} (h : History sm texts)
    {src : List Char} (hr : Room texts src) {ts : List TokenTree}
    (hok : (TokenStream.fromStr sm src).2 = .ok ts)
    {sm' : SourceMap} {texts' : List (List Char)} (h' : History sm' texts')
    (hp : texts ++ [src] <+: texts') {d : Delimiter} {inner : List TokenTree} {span : Span}
    (ht : Sub (.group d inner span) ts)
    (hdoc : ∀ content, inner ≠ [.ident ['d', 'o', 'c'] false span, .punct '=' .alone span,
      .literal (litString content) span]) :
    ∃ o c sm1 sm2, delimChars d = some (o, c) ∧
      span.firstByte.sourceText (ε := ε) sm' = .ok (sm1, some [o]) ∧
      span.lastByte.sourceText (ε := ε) sm' = .ok (sm2, some [c]) := by
  obtain ⟨h1, h2, h3⟩ := token_at h hr hok hp ht
  simp only [TokenTree.span] at h1 h2 h3
  have hbase : base texts' texts.length = base texts texts.length := by
    rw [base_prefix hp (by simp)]
    simp [base]
  have hu : base texts' texts.length + src.length < u32Size := by rw [hbase]; exact hr
  obtain ⟨e1, e2, i1, i2⟩ := inText_first h1 h2 hu
  obtain ⟨sm1, s1⟩ := C42_source_text (ε := ε) h' i1
  obtain ⟨sm2, s2⟩ := C42_source_text (ε := ε) h' i2
  generalize hx : (src.drop (span.lo - base texts' texts.length)).take (span.hi - span.lo) = x at h3
  cases h3 with
  | leaf hl => cases hl
  | @group _ _ _ o c body r hd hb =>
    refine ⟨o, c, sm1, sm2, hd, ?_, ?_⟩
    · rw [s1, e1]
      simp only [Nat.add_sub_cancel_left]
      have : ((src.drop (span.lo - base texts' texts.length)).take (span.hi - span.lo)).take 1 =
          [o] := by rw [hx]; rfl
      rw [List.take_take, show min 1 (span.hi - span.lo) = 1 by omega] at this
      rw [this]
    · rw [s2, e2]
      have hlen := congrArg List.length hx
      have hh := h1.hi
      have hlo := h1.lo
      simp at hlen
      have : ((src.drop (span.lo - base texts' texts.length)).take (span.hi - span.lo)).drop
          (span.hi - span.lo - 1) = [c] := by
        rw [hx]
        have : span.hi - span.lo - 1 = (o :: body).length := by simp; omega
        rw [this]; simp
      rw [List.drop_take, List.drop_drop] at this
      simp only
      rw [← this, show span.hi - (span.hi - 1) = span.hi - span.lo - (span.hi - span.lo - 1) by omega,
        show span.hi - 1 - base texts' texts.length =
          span.lo - base texts' texts.length + (span.hi - span.lo - 1) by omega]
  | doc _ _ hs =>
    exact absurd hs.docAttr_group.2.1 (hdoc _)

/-! ### C48, second half, and C07, first half -/

/-- **C48.** No token of an accepted text carries the call-site span. -/
theorem C48_tokens {sm : SourceMap} {texts : List (List Char)} (h : History sm texts)
    {src : List Char} (hr : Room texts src) {ts : List TokenTree}
    (hok : (TokenStream.fromStr sm src).2 = .ok ts) {tok : TokenTree} (ht : Sub tok ts) :
    tok.span ≠ Span.callSite ∧ tok.span.isCallSite = false := by
  obtain ⟨h1, h2, h3⟩ := token_at h hr hok (List.prefix_refl _) ht
  constructor
  · intro hc; rw [hc] at h2; simp [Span.callSite] at h2
  · simp [Span.isCallSite]; omega

/-- **C07**, the tree: every parsed group has real delimiters and its source text is enclosed in a
matching pair of them, with the contents tiled in between; or it is a doc attribute. -/
theorem C07_groups {sm : SourceMap} {texts : List (List Char)} (h : History sm texts)
    {src : List Char} (hr : Room texts src) {ts : List TokenTree}
    (hok : (TokenStream.fromStr sm src).2 = .ok ts)
    {d : Delimiter} {inner : List TokenTree} {span : Span} (ht : Sub (.group d inner span) ts) :
    d ≠ .none ∧
    ((∃ a body b o c r, src = a ++ o :: body ++ c :: b ∧ delimChars d = some (o, c) ∧
        Tile (span.lo + 1) body inner (c :: r) ∧ span.lo = base texts texts.length + a.length) ∨
      ∃ content, inner = [.ident ['d', 'o', 'c'] false span, .punct '=' .alone span,
        .literal (litString content) span]) := by
  obtain ⟨bom, body, rfl, -, htile⟩ := C06_tiling h hr hok
  obtain ⟨a, x, b, rfl, hx, hsp, htt⟩ := htile.sub ht
  cases htt with
  | leaf hl => cases hl
  | @group _ _ _ o c body' r hd hb =>
    refine ⟨?_, .inl ⟨bom ++ a, body', b, o, c, r, by simp, hd, hb, ?_⟩⟩
    · rintro rfl; simp [delimChars] at hd
    · simp [TokenTree.span] at hsp; rw [hsp]; simp; omega
  | doc _ _ hs =>
    obtain ⟨rfl, e, -⟩ := hs.docAttr_group
    exact ⟨by simp, .inr ⟨_, e⟩⟩

end

/-! ### Concrete cases -/
section Examples
attribute [local instance] sampleTables

/-- a text with trivia, a group, a doc comment -/
def sampleText : List Char := "a /*c*/(b)///d".toList

example : Room [] sampleText := by decide

/-- The hypotheses of the theorems of this file are met by a non-trivial text. -/
example : (TokenStream.fromStr SourceMap.init sampleText).2 = .ok
    [.ident ['a'] false ⟨1, 2⟩,
     .group .parenthesis [.ident ['b'] false ⟨9, 10⟩] ⟨8, 11⟩,
     .punct '#' .alone ⟨11, 15⟩,
     .group .bracket [.ident ['d', 'o', 'c'] false ⟨11, 15⟩, .punct '=' .alone ⟨11, 15⟩,
       .literal ['"', 'd', '"'] ⟨11, 15⟩] ⟨11, 15⟩] := by rfl

end Examples

end PM2.Props
