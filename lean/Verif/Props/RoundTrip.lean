import Verif.Proof.Concat
import Verif.Proof.Lexed
import Verif.Props.Ident
import Verif.Props.Context
/-! # C03–C05, C32, C33, C61: writing and reading back -/

set_option linter.unusedSectionVars false

namespace PM2.Props
open Spec

section
variable [UnicodeTables] [LawfulUnicode] {ε : Type}

/-- a text that lexes is parsed -/
theorem fromStr_of_lex {sm : SourceMap} {texts : List (List Char)} (h : History sm texts)
    {src : List Char} (hr : Room texts src) {ts : List TokenTree}
    (hl : P.Lex (base texts texts.length + src.length) src ts []) :
    (TokenStream.fromStr sm src).2 = .ok ts := by
  obtain ⟨e, -, -, -, hb⟩ := h.fromStr hr
  rw [e, fromStrAt_ok_iff hb, hl.no_bom]
  exact hl

theorem mapSpan_eq_map (f : Span → Span) (ts : List TokenTree) : mapSpan f ts = ts.map (mapSpanTree f) := by
  induction ts with
  | nil => rfl
  | cons t ts ih => simp [mapSpan, ih]

/-! ### C03, C04, C05 -/

theorem litOk_iff {x : List Char} : LitOk x ↔ LitLex x := by
  unfold LitOk LitLex
  rw [P.literal_iff]
  simp

theorem wf_iff {ts : List TokenTree} : WF ts ↔ WFL ts :=
  ⟨WFOf.mono (fun _ => litOk_iff.mp), WFOf.mono (fun _ => litOk_iff.mpr)⟩

theorem _root_.PM2.Spec.WF.lexed {ts : List TokenTree} (h : WF ts) : WFL ts := wf_iff.mp h

/-- **C03.** Printing then parsing is lossless: in every history with room for the text, parsing the
printed form of a well-formed stream succeeds and gives back the stream, modulo spans. -/
theorem C03_lossless {ts : List TokenTree} (hw : WF ts) {sm : SourceMap} {texts : List (List Char)}
    (h : History sm texts) (hr : Room texts (display ts)) :
    ∃ ts', (TokenStream.fromStr sm (display ts)).2 = .ok ts' ∧ erase ts' = erase ts := by
  have hs := spaced_display hw.lexed [] [] (.inl rfl)
  obtain ⟨ts', hl, he⟩ := hs.lex hw.lexed (.inl rfl)
    (base texts texts.length + (display ts).length) [] .nil
  exact ⟨ts', fromStr_of_lex h hr (by simpa [display] using hl), he⟩

theorem joinsWith_erase {c : Char} {ts ts' : List TokenTree} (e : erase ts = erase ts')
    (h : JoinsWith c ts) : JoinsWith c ts' := by
  unfold erase at e
  rw [mapSpan_eq_map, mapSpan_eq_map] at e
  rcases h with ⟨c', sp, span, ts1, rfl, h⟩ | ⟨x, span, ts1, rfl, h⟩
  · cases ts' with
    | nil => simp at e
    | cons t ts' =>
      cases t <;> simp [mapSpanTree] at e
      obtain ⟨⟨rfl, rfl⟩, -⟩ := e
      exact .inl ⟨_, _, _, _, rfl, h⟩
  · cases ts' with
    | nil => simp at e
    | cons t ts' =>
      cases t <;> simp [mapSpanTree] at e
      obtain ⟨rfl, -⟩ := e
      exact .inr ⟨_, _, _, rfl, h⟩

theorem quoteJoins_erase {ts ts' : List TokenTree} (e : erase ts = erase ts')
    (h : QuoteJoins ts) : QuoteJoins ts' := by
  unfold erase at e
  rw [mapSpan_eq_map, mapSpan_eq_map] at e
  rcases h with ⟨sym, raw, span, ts1, rfl⟩ | ⟨x, span, ts1, p, rfl, h⟩
  · cases ts' with
    | nil => simp at e
    | cons t ts' =>
      cases t <;> simp [mapSpanTree] at e
      obtain ⟨⟨rfl, rfl⟩, -⟩ := e
      exact .inl ⟨_, _, _, _, rfl⟩
  · cases ts' with
    | nil => simp at e
    | cons t ts' =>
      cases t <;> simp [mapSpanTree] at e
      obtain ⟨rfl, -⟩ := e
      exact .inr ⟨_, _, _, p, rfl, h⟩

theorem wfOf_erase {L : List Char → Prop} {ts : List TokenTree} (h : WFOf L ts) : ∀ {ts'},
    erase ts = erase ts' → WFOf L ts' := by
  have tail : ∀ {t t' : TokenTree} {ts ts' : List TokenTree}, erase (t :: ts) = erase (t' :: ts') →
      erase ts = erase ts' := by
    intro t t' ts ts' e
    unfold erase at *
    rw [mapSpan_eq_map, mapSpan_eq_map] at e
    rw [mapSpan_eq_map, mapSpan_eq_map]
    simp at e; exact e.2
  induction h with
  | nil =>
    intro ts' e
    cases ts' with
    | nil => exact .nil
    | cons => simp [erase, mapSpan] at e
  | ident h1 h2 _ ih =>
    intro ts' e
    cases ts' with
    | nil => simp [erase, mapSpan] at e
    | cons t ts' =>
      have ht := tail e
      cases t <;> simp [erase, mapSpan, mapSpanTree] at e
      obtain ⟨⟨rfl, rfl⟩, -⟩ := e
      exact .ident h1 h2 (ih ht)
  | literal h1 _ ih =>
    intro ts' e
    cases ts' with
    | nil => simp [erase, mapSpan] at e
    | cons t ts' =>
      have ht := tail e
      cases t <;> simp [erase, mapSpan, mapSpanTree] at e
      obtain ⟨rfl, -⟩ := e
      exact .literal h1 (ih ht)
  | group h1 _ _ ih1 ih2 =>
    intro ts' e
    cases ts' with
    | nil => simp [erase, mapSpan] at e
    | cons t ts' =>
      have ht := tail e
      cases t <;> simp [erase, mapSpan, mapSpanTree] at e
      obtain ⟨⟨rfl, e1⟩, -⟩ := e
      exact .group h1 (ih1 e1) (ih2 ht)
  | punct h1 h2 h3 _ ih =>
    intro ts' e
    cases ts' with
    | nil => simp [erase, mapSpan] at e
    | cons t ts' =>
      have ht := tail e
      cases t <;> simp [erase, mapSpan, mapSpanTree] at e
      obtain ⟨⟨rfl, rfl⟩, -⟩ := e
      exact .punct h1 h2 (fun hj => joinsWith_erase ht (h3 hj)) (ih ht)
  | quote h1 _ ih =>
    intro ts' e
    cases ts' with
    | nil => simp [erase, mapSpan] at e
    | cons t ts' =>
      have ht := tail e
      cases t <;> simp [erase, mapSpan, mapSpanTree] at e
      obtain ⟨⟨rfl, rfl⟩, -⟩ := e
      exact .quote (quoteJoins_erase ht h1) (ih ht)

/-- **C03**, the other direction: the well-formed streams are all the streams that survive printing and
parsing. -/
theorem C03_only_wf {ts : List TokenTree} {sm : SourceMap} {texts : List (List Char)}
    (h : History sm texts) (hr : Room texts (display ts)) :
    WF ts ↔ ∃ ts', (TokenStream.fromStr sm (display ts)).2 = .ok ts' ∧ erase ts' = erase ts := by
  constructor
  · exact fun hw => C03_lossless hw h hr
  · rintro ⟨ts', hok, he⟩
    obtain ⟨e, -, -, -, hb⟩ := h.fromStr hr
    rw [e, fromStrAt_ok_iff hb] at hok
    exact wf_iff.mpr (wfOf_erase hok.wf he)

/-- **C04.** Parse, print, parse is a fixed point: whatever was parsed, in whatever history, its printed
form parses to the same stream modulo spans. -/
theorem C04_fixed_point {sm sm' : SourceMap} {texts texts' : List (List Char)}
    (h : History sm texts) (h' : History sm' texts') {src : List Char} (hr : Room texts src)
    {ts : List TokenTree} (hok : (TokenStream.fromStr sm src).2 = .ok ts)
    (hr' : Room texts' (display ts)) :
    ∃ ts', (TokenStream.fromStr sm' (display ts)).2 = .ok ts' ∧ erase ts' = erase ts := by
  obtain ⟨e, -, -, -, hb⟩ := h.fromStr hr
  rw [e, fromStrAt_ok_iff hb] at hok
  have hs := spaced_display hok.wf [] [] (.inl rfl)
  obtain ⟨ts', hl, he⟩ := hs.lex hok.wf (.inl rfl)
    (base texts' texts'.length + (display ts).length) [] .nil
  exact ⟨ts', fromStr_of_lex h' hr' (by simpa [display] using hl), he⟩

mutual
theorem displayTree_mapSpan (f : Span → Span) : ∀ t : TokenTree, displayTree (mapSpanTree f t) = displayTree t
  | .group d ts s => by
    have : (mapSpan f ts).isEmpty = ts.isEmpty := by cases ts <;> rfl
    simp [mapSpanTree, displayTree, displayLoop_mapSpan f ts, this]
  | .ident _ _ _ => rfl
  | .punct _ _ _ => rfl
  | .literal _ _ => rfl
theorem displayLoop_mapSpan (f : Span → Span) : ∀ (ts : List TokenTree) (first joint : Bool),
    displayLoop (mapSpan f ts) first joint = displayLoop ts first joint
  | [], _, _ => rfl
  | t :: ts, first, joint => by
    have hj : jointAfter (mapSpanTree f t) = jointAfter t := by cases t <;> rfl
    simp [mapSpan, displayLoop, displayTree_mapSpan f t, hj, displayLoop_mapSpan f ts]
end

/-- Printing does not depend on the spans. -/
theorem display_erase {ts ts' : List TokenTree} (h : erase ts = erase ts') : display ts = display ts' := by
  unfold display
  rw [← displayLoop_mapSpan (fun _ => Span.callSite) ts, ← displayLoop_mapSpan (fun _ => Span.callSite) ts']
  unfold erase at h
  rw [h]

/-- **C04**, on texts: printing what was parsed is idempotent. -/
theorem C04_idempotent {sm sm' : SourceMap} {texts texts' : List (List Char)}
    (h : History sm texts) (h' : History sm' texts') {src : List Char} (hr : Room texts src)
    {ts : List TokenTree} (hok : (TokenStream.fromStr sm src).2 = .ok ts)
    (hr' : Room texts' (display ts)) :
    ∃ ts', (TokenStream.fromStr sm' (display ts)).2 = .ok ts' ∧ display ts' = display ts := by
  obtain ⟨ts', h1, h2⟩ := C04_fixed_point h h' hr hok hr'
  exact ⟨ts', h1, display_erase h2⟩

/-- **C05.** However the tokens of a well-formed stream are written, with any whitespace and plain
comments between, before and after them, parsing succeeds and gives the stream back modulo spans. -/
theorem C05_spaced {ts : List TokenTree} (hw : WF ts) {t0 s : List Char} (ht : Trivia t0 s)
    (hs : Spaced ts s []) {sm : SourceMap} {texts : List (List Char)}
    (h : History sm texts) (hr : Room texts (t0 ++ s)) :
    ∃ ts', (TokenStream.fromStr sm (t0 ++ s)).2 = .ok ts' ∧ erase ts' = erase ts := by
  obtain ⟨ts', hl, he⟩ := hs.lex hw.lexed (.inl rfl)
    (base texts texts.length + (t0 ++ s).length) t0 (by simpa using ht)
  exact ⟨ts', fromStr_of_lex h hr (by simpa using hl), he⟩

/-- **C05.** Any two ways of writing a stream parse to the same stream, modulo spans. The stream itself
need only come from a parse. -/
theorem C05_any_two {src : List Char} {ts : List TokenTree} {sm0 : SourceMap} {texts0 : List (List Char)}
    (h0 : History sm0 texts0) (hr0 : Room texts0 src) (hok : (TokenStream.fromStr sm0 src).2 = .ok ts)
    {t0 s : List Char} (ht : Trivia t0 s) (hs : Spaced ts s []) {sm : SourceMap}
    {texts : List (List Char)} (h : History sm texts) (hr : Room texts (t0 ++ s)) :
    ∃ ts', (TokenStream.fromStr sm (t0 ++ s)).2 = .ok ts' ∧ erase ts' = erase ts := by
  obtain ⟨e, -, -, -, hb⟩ := h0.fromStr hr0
  rw [e, fromStrAt_ok_iff hb] at hok
  obtain ⟨ts', hl, he⟩ := hs.lex hok.wf (.inl rfl)
    (base texts texts.length + (t0 ++ s).length) t0 (by simpa using ht)
  exact ⟨ts', fromStr_of_lex h hr (by simpa using hl), he⟩

/-! ### C32 -/

/-- **C32.** The printed form of an identifier made by the API parses to exactly that identifier, whose
span is the whole text. -/
theorem C32_lexes {a : IdentData} (ha : ApiIdent a) {sm : SourceMap} {texts : List (List Char)}
    (h : History sm texts) (hr : Room texts a.toStr) :
    (TokenStream.fromStr sm a.toStr).2 = .ok [.ident a.sym a.raw
      ⟨base texts texts.length, base texts texts.length + a.toStr.length⟩] := by
  obtain ⟨h1, h2⟩ := ha.valid
  have hl := leaf_written_ident (w := []) h1 h2 (by intro c w e; simp at e)
  rw [List.append_nil] at hl
  have := P.lex_single (E := base texts texts.length + a.toStr.length) hl
  refine fromStr_of_lex h hr ?_
  unfold IdentData.toStr displayIdent at *
  simpa [P.Leaf.tok] using this

/-- **C32**, converse: if a text parses to exactly one identifier that prints as the text, then
`Ident::new` (or `Ident::new_raw`, if it is raw) accepts it. -/
theorem C32_converse {sm : SourceMap} {texts : List (List Char)} (h : History sm texts)
    {src sym : List Char} {raw : Bool} {sp : Span} (hr : Room texts src)
    (hok : (TokenStream.fromStr sm src).2 = .ok [.ident sym raw sp]) (span : Span) :
    (raw = false → Ident.new (ε := ε) sym span = .ok (.ident sym false span)) ∧
    (raw = true → Ident.newRaw (ε := ε) sym span = .ok (.ident sym true span)) := by
  have ha := (ApiIdent.parsed h hr hok (.here (List.mem_singleton.mpr rfl))).valid
  have hn : Ident.new (ε := ε) sym span = .ok (.ident sym false span) := by
    refine (C29_ident_new sym span).1 ?_
    obtain ⟨c, t, e, h1, h2⟩ := ha.1
    exact ⟨c, t, e, by simpa [isIdentStart] using h1, h2⟩
  refine ⟨fun _ => hn, fun hraw => (C30_ident_new_raw sym span).1 ⟨hn, ?_⟩⟩
  intro hm
  apply ha.2 hraw
  simp only [neverRaw, List.map_cons, List.map_nil]
  simp only [List.mem_cons, List.not_mem_nil, or_false] at hm ⊢
  rcases hm with hm | hm | hm | hm | hm <;> simp [hm]

/-! ### C33, continued -/

/-- **C33.** The characters of the puncts of parsed streams are exactly the characters that `Punct::new`
accepts. -/
theorem C33_lexer (c : Char) :
    (∃ sm texts src ts sp span, History sm texts ∧ Room texts src ∧
      (TokenStream.fromStr sm src).2 = .ok ts ∧ Sub (.punct c sp span) ts) ↔
    ∃ sp, punctNew (ε := ε) c sp = .ok (.punct c sp Span.callSite) := by
  have hc : c ∈ "~!@#$%^&*-=+|;:,<.>/?'".toList ↔ c ∈ punctChars := by
    have h1 : ∀ c ∈ "~!@#$%^&*-=+|;:,<.>/?'".toList, c ∈ punctChars := by decide +kernel
    have h2 : ∀ c ∈ punctChars, c ∈ "~!@#$%^&*-=+|;:,<.>/?'".toList := by decide +kernel
    exact ⟨h1 c, h2 c⟩
  constructor
  · rintro ⟨sm, texts, src, ts, sp, span, h, hr, hok, hs⟩
    obtain ⟨e, -, -, -, hb⟩ := h.fromStr hr
    rw [e, fromStrAt_ok_iff hb] at hok
    exact ⟨sp, (C33_punct_new c sp).1 (hc.mpr (wf_punct_sub hs hok.wf))⟩
  · rintro ⟨sp, h⟩
    have hm : c ∈ punctChars := by
      rw [← hc]
      apply Classical.byContradiction
      intro hn
      rw [(C33_punct_new c sp).2 hn] at h
      simp at h
    -- any well-formed stream with the punct in it will do
    have key : ∀ ts sp0, WF ts → .punct c sp0 ⟨0, 0⟩ ∈ ts → (display ts).length < 100 →
        ∃ sm texts src ts sp span, History sm texts ∧ Room texts src ∧
          (TokenStream.fromStr sm src).2 = .ok ts ∧ Sub (.punct c sp span) ts := by
      intro ts sp0 hw hmem hlen
      have hr : Room [] (display ts) := by
        unfold Room base
        simp; omega
      obtain ⟨ts', h1, h2⟩ := C03_lossless hw .init hr
      have hm2 : .punct c sp0 ⟨0, 0⟩ ∈ erase ts' := by
        rw [h2]
        unfold erase
        rw [mapSpan_eq_map]
        exact List.mem_map.mpr ⟨_, hmem, rfl⟩
      unfold erase at hm2
      rw [mapSpan_eq_map] at hm2
      obtain ⟨tok, g1, g2⟩ := List.mem_map.mp hm2
      cases tok with
      | punct c' sp' s' =>
        simp [mapSpanTree] at g2
        obtain ⟨rfl, rfl, -⟩ := g2
        exact ⟨_, _, _, _, _, _, .init, hr, h1, .here g1⟩
      | _ => simp [mapSpanTree] at g2
    by_cases hq : c = '\''
    · subst hq
      refine key [.punct '\'' .joint ⟨0, 0⟩, .ident ['d', 'o', 'c'] false ⟨0, 0⟩] .joint ?_ (by simp)
        (by simp [display, displayLoop, displayTree, displayIdent, jointAfter])
      exact .quote (.inl ⟨_, _, _, _, rfl⟩) (.ident doc_valid (by simp) .nil)
    · refine key [.punct c .alone ⟨0, 0⟩] .alone ?_ (by simp)
        (by simp [display, displayLoop, displayTree])
      exact .punct hm hq (by simp) .nil

/-! ### C61 -/

/-- **C61.** Parsing a text that parses on its own, followed by a line feed and another text, gives the
tokens of the first followed by the tokens of the second, the latter moved; it fails exactly when the
second text fails, with the same error, moved. (The second text may not start with a byte order mark,
which would be skipped only at the start of a text.) -/
theorem C61_concat {sm : SourceMap} {texts : List (List Char)} (h : History sm texts)
    {a b : List Char} (hr : Room texts (a ++ '\n' :: b)) (hbom : b.head? ≠ some '\ufeff')
    {ts : List TokenTree} (hok : (TokenStream.fromStr sm a).2 = .ok ts) :
    (∀ tb, (TokenStream.fromStr sm b).2 = .ok tb →
      (TokenStream.fromStr sm (a ++ '\n' :: b)).2 = .ok (ts ++ shift (a.length + 1) tb)) ∧
    (∀ e, (TokenStream.fromStr sm b).2 = .err e →
      (TokenStream.fromStr sm (a ++ '\n' :: b)).2 =
        .err ⟨e.lo + (a.length + 1), e.hi + (a.length + 1)⟩) := by
  have hra : Room texts a := by unfold Room at *; simp at hr; omega
  have hrb : Room texts b := by unfold Room at *; simp at hr; omega
  obtain ⟨ea, -, -, -, hba⟩ := h.fromStr hra
  obtain ⟨eb, -, -, -, hbb⟩ := h.fromStr hrb
  obtain ⟨ec, -, -, -, hbc⟩ := h.fromStr hr
  rw [ea, fromStrAt_ok_iff hba] at hok
  have hB : P.stripBom b = b := by
    unfold P.stripBom
    rw [if_neg]
    intro hp
    obtain ⟨v, rfl⟩ := startsWith_iff.mp hp
    simp at hbom
  have hA : P.stripBom (a ++ '\n' :: b) = P.stripBom a ++ '\n' :: b :=
    stripBom_append (fun _ w' e => by simp at e)
  rw [eb, ec, fromStrAt_eq hbb, fromStrAt_eq hbc, hA, hB]
  generalize base texts texts.length = off at *
  generalize hk : a.length + 1 = k
  -- the run through the first text
  obtain ⟨f, hsteps, hf⟩ := hok.steps [] []
  have hline : LineEnd ('\n' :: b) := .inr ⟨b, rfl⟩
  have hsep : P.Sep (P.stripBom a) ('\n' :: b) := by
    refine ⟨bd_ws (by decide) _, fun _ w' e => by simp at e, ?_⟩
    intro u v e hu hv _ hp
    cases v with
    | nil => exact hv rfl
    | cons c v =>
      simp at hp
      have : '\n' ∈ errorText := by rw [errorText_eq, e, hp.1]; simp
      exact absurd this (by decide)
  have hrep := P.Steps.replace (a := P.stripBom a) (w1 := []) (w := '\n' :: b)
    (E' := off + (a ++ '\n' :: b).length) sep_nil hsep (fun _ => ⟨hline, by simp⟩)
    (by simp; omega) hsteps (s := P.stripBom a) (f := f) (by simp) (by simp) (List.suffix_refl _)
  simp only [List.nil_append] at hrep
  obtain ⟨fuel, hfuel, hrun⟩ := hrep.run ((P.stripBom a ++ '\n' :: b).length + 1) (by simp)
  rw [hrun]
  -- what is left of it is trivia
  have hskip : P.skipWs (f ++ '\n' :: b) = P.skipWs b := by
    obtain ⟨t, e1, ht⟩ := P.skipWs_spec f
    rw [hf, List.append_nil] at e1
    rw [hf] at ht
    rw [← e1] at ht
    have ht' : Trivia f ('\n' :: b) := ht.replace (fun _ => hline)
    rw [P.skipWs_trivia ht', P.skipWs_eq, P.triv1_ws (by decide)]
  rw [← P.run_skip (s := f ++ '\n' :: b), hskip]
  have hbl := (P.skipWs_suffix b).length_le
  simp only [List.length_append, List.length_cons] at hfuel
  rw [P.run_fuel (fuel := fuel) (fuel' := b.length + 1) (by simp only; omega) (by simp only; omega), P.run_skip]
  have hpre := P.run_pre (E := off + (a ++ '\n' :: b).length) ts (b.length + 1) ⟨b, [], []⟩
  simp only [P.St.pre, if_true, List.append_nil, preStack] at hpre
  rw [hpre]
  have hsh := P.run_shift (E := off + b.length) k (b.length + 1) ⟨b, [], []⟩ (by simp)
  have : P.St.shift k ⟨b, [], []⟩ = ⟨b, [], []⟩ := rfl
  rw [this] at hsh
  rw [show off + (a ++ '\n' :: b).length = off + b.length + k by simp; omega, hsh]
  constructor
  · intro tb htb; rw [htb]; rfl
  · intro e he; rw [he]; rfl

end

/-! ### Examples -/

section Examples
attribute [local instance] sampleTables sampleTables_lawful

/-- `'a: foo /= {r#fn('x')}`, made by hand -/
def sampleStream : List TokenTree :=
  [.punct '\'' .joint ⟨0, 0⟩, .ident ['a'] false ⟨0, 0⟩, .punct ':' .alone ⟨0, 0⟩,
    .ident "foo".toList false ⟨0, 0⟩, .punct '/' .joint ⟨0, 0⟩, .punct '=' .alone ⟨0, 0⟩,
    .group .brace [.ident "fn".toList true ⟨0, 0⟩,
      .group .parenthesis [.literal "'x'".toList ⟨0, 0⟩] ⟨0, 0⟩] ⟨0, 0⟩]

theorem sampleStream_wf : WF sampleStream := by
  refine .quote (.inl ⟨_, _, _, _, rfl⟩) (.ident ⟨'a', [], rfl, by decide +kernel, by simp⟩ (by simp)
    (.punct (by decide +kernel) (by decide) (by simp) (.ident ⟨'f', ['o', 'o'], by decide +kernel, by decide +kernel,
      by decide +kernel⟩ (by simp) (.punct (by decide +kernel) (by decide)
        (fun _ => .inl ⟨_, _, _, _, rfl, by decide⟩) (.punct (by decide +kernel) (by decide) (by simp)
          (.group (by simp) (.ident ⟨'f', ['n'], by decide +kernel, by decide +kernel, by decide +kernel⟩
            (fun _ => by decide +kernel)
            (.group (by simp) (.literal ?_ .nil) .nil)) .nil))))))
  exact .inr (.inl ⟨"'x'".toList, [], by simp, .char (e := ['x']) (.char (by decide)), .inl ⟨rfl, by simp⟩⟩)

/-- C03 -/
example : display sampleStream = "'a : foo /= { r#fn ('x') }".toList ∧
    (TokenStream.fromStr SourceMap.init (display sampleStream)).2 = .ok
      [.punct '\'' .joint ⟨1, 2⟩, .ident ['a'] false ⟨2, 3⟩, .punct ':' .alone ⟨4, 5⟩,
       .ident "foo".toList false ⟨6, 9⟩, .punct '/' .joint ⟨10, 11⟩, .punct '=' .alone ⟨11, 12⟩,
       .group .brace [.ident "fn".toList true ⟨15, 19⟩,
         .group .parenthesis [.literal "'x'".toList ⟨21, 24⟩] ⟨20, 25⟩] ⟨13, 27⟩] := by
  decide +kernel

/-- C03: a stream that is not well-formed is not given back: a `Joint` punct before an identifier -/
example : ¬ WF [.punct '+' .joint ⟨0, 0⟩, .ident ['a'] false ⟨0, 0⟩] := by
  intro h
  cases h with
  | punct _ _ hj _ =>
    rcases hj rfl with ⟨_, _, _, _, h, -⟩ | ⟨_, _, _, h, -⟩ <;> simp at h

/-- C04: doc comments print as attributes -/
example : ∃ ts, (TokenStream.fromStr SourceMap.init "/// x\nfn".toList).2 = .ok ts ∧
    display ts = "# [doc = \" x\"] fn".toList := by
  refine ⟨_, rfl, by decide +kernel⟩

/-- C05: `a` and `(b)`, written with comments between and inside -/
example : Spaced [.ident ['a'] false ⟨0, 0⟩, .group .parenthesis [.ident ['b'] false ⟨0, 0⟩] ⟨0, 0⟩]
    "a/*x*/( b// y\n)\t".toList [] := by
  have e : "a/*x*/( b// y\n)\t".toList = ['a'] ++ (['/', '*', 'x', '*', '/'] ++
      '(' :: ([' '] ++ (['b'] ++ (['/', '/', ' ', 'y', '\n'] ++ [])) ++ ')' :: (['\t'] ++ []))) := by
    decide +kernel
  rw [e]
  refine .leaf .ident ⟨by simp, by simp [IsJoint], fun _ _ _ _ => .inl (by simp)⟩ ?_
    (.group rfl (.ws (by decide) .nil)
      (.leaf .ident ⟨by simp, by simp [IsJoint], by simp⟩ ?_ .nil)
      (fun _ => by decide) ⟨by simp, by simp [IsJoint], by simp⟩ (.ws (by decide) .nil) .nil)
  · have : ['/', '*', 'x', '*', '/'] = ['/', '*', 'x', '*', '/'] ++ [] := rfl
    rw [this]
    exact .block ⟨_, rfl, .char (by decide) (by decide) .last⟩ (by simp [DocBlockStart]) .nil
  · have : ['/', '/', ' ', 'y', '\n'] = '/' :: '/' :: [' ', 'y'] ++ ['\n'] := rfl
    rw [this]
    exact .line (by decide) (by simp [DocLineStart]) (.inr ⟨_, rfl⟩) (.ws (by decide) .nil)

/-- C61: the first text ends inside a comment -/
example : (TokenStream.fromStr SourceMap.init "a // b".toList).2 = .ok [.ident ['a'] false ⟨1, 2⟩] ∧
    (TokenStream.fromStr SourceMap.init "c".toList).2 = .ok [.ident ['c'] false ⟨1, 2⟩] ∧
    (TokenStream.fromStr SourceMap.init "a // b\nc".toList).2 =
      .ok [.ident ['a'] false ⟨1, 2⟩, .ident ['c'] false ⟨8, 9⟩] := by decide +kernel

end Examples
end PM2.Props
