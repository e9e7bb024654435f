import Verif.Proof.NoSpan
import Verif.Props.RoundTrip
import Verif.Props.Grammar
/-! # C69, C70, C71: without `span_locations`, for texts of any length -/

namespace PM2.Props
open Spec

section
variable [UnicodeTables] [LawfulUnicode]

theorem noSpan_ok_iff {src : List Char} (E : Nat) {ts : List TokenTree} :
    NoSpan.fromStr src = .ok ts ↔ ∃ ts', P.Lex E (P.stripBom src) ts' [] ∧ ts = erase ts' := by
  rw [NoSpan.fromStr_eq E]
  have hrun : ∀ ts', P.run E ((P.stripBom src).length + 1) ⟨P.stripBom src, [], []⟩ = .ok ts' ↔ _ :=
    fun ts' => P.run_ok_iff (Nat.lt_succ_self _)
  constructor
  · intro h
    cases hr : P.run E ((P.stripBom src).length + 1) ⟨P.stripBom src, [], []⟩ with
    | ok ts' =>
      rw [hr] at h
      simp only [eraseRes, Res.ok.injEq] at h
      exact ⟨ts', (hrun ts').mp hr, h.symm⟩
    | err e => rw [hr] at h; simp [eraseRes] at h
    | panic => rw [hr] at h; simp [eraseRes] at h
    | diverge => rw [hr] at h; simp [eraseRes] at h
  · rintro ⟨ts', hl, rfl⟩
    rw [(hrun ts').mpr hl]
    rfl

/-- **C69.** Without positions, parsing any text, however long, succeeds or fails; it neither panics nor
runs forever. -/
theorem C69_total (src : List Char) :
    (∃ ts, NoSpan.fromStr src = .ok ts) ∨ NoSpan.fromStr src = .err Span.callSite := by
  rw [NoSpan.fromStr_eq 0]
  rcases P.run_total 0 ((P.stripBom src).length + 1) ⟨P.stripBom src, [], []⟩ (Nat.lt_succ_self _) with
    ⟨ts, h⟩ | ⟨e, h⟩
  · exact .inl ⟨erase ts, by rw [h]; rfl⟩
  · exact .inr (by rw [h]; rfl)

/-- **C69**, grammar: the result is the stream that the lexical grammar derives from the text, without
spans. -/
theorem C69_grammar {src : List Char} {ts : List TokenTree} :
    NoSpan.fromStr src = .ok ts ↔ ∃ ts', TextLexed 0 src ts' ∧ ts = erase ts' := by
  rw [noSpan_ok_iff (0 + src.length)]
  simp only [lex_iff_lexed]

/-- **C69**, both configurations: with and without positions the same texts are accepted, with the same
tokens. -/
theorem C69_same {sm : SourceMap} {texts : List (List Char)} (h : History sm texts)
    {src : List Char} (hr : Room texts src) :
    (∀ ts, (TokenStream.fromStr sm src).2 = .ok ts → NoSpan.fromStr src = .ok (erase ts)) ∧
    (∀ e, (TokenStream.fromStr sm src).2 = .err e → NoSpan.fromStr src = .err Span.callSite) := by
  obtain ⟨e, -, -, -, hb⟩ := h.fromStr hr
  rw [e, fromStrAt_eq hb, NoSpan.fromStr_eq (base texts texts.length + src.length)]
  exact ⟨fun ts h => by rw [h]; rfl, fun e h => by rw [h]; rfl⟩

/-- **C70.** Without positions, `Literal::from_str` accepts exactly the texts of the grammar of literals,
however long, keeps the text as it is and fails otherwise. -/
theorem C70_literal (src : List Char) :
    (WholeLiteral src → NoSpan.literalFromStr src = .ok (src, Span.callSite)) ∧
    (¬ WholeLiteral src → NoSpan.literalFromStr src = .err Span.callSite) := by
  rw [NoSpan.literalFromStr_eq, ← litAccepts_lexed]
  constructor
  · intro h; rw [if_pos h]
  · intro h; rw [if_neg h]

/-- **C71.** Without positions, printing then parsing gives back a stream exactly when it is well-formed,
however large it is. -/
theorem C71_lossless {ts : List TokenTree} :
    NoSpan.fromStr (display ts) = .ok (erase ts) ↔ WF ts := by
  rw [noSpan_ok_iff (display ts).length]
  constructor
  · rintro ⟨ts', hl, he⟩
    exact wf_iff.mpr (wfOf_erase hl.wf he.symm)
  · intro hw
    have hs := spaced_display hw.lexed [] [] (.inl rfl)
    obtain ⟨ts', hl, he⟩ := hs.lex hw.lexed (.inl rfl) (display ts).length [] .nil
    have hl : P.Lex (display ts).length (display ts) ts' [] := by simpa [display] using hl
    exact ⟨ts', by rw [hl.no_bom]; exact hl, he.symm⟩

/-- **C71**, fixed point: what was parsed prints to a text that parses to the same stream. -/
theorem C71_fixed_point {src : List Char} {ts : List TokenTree} (h : NoSpan.fromStr src = .ok ts) :
    NoSpan.fromStr (display ts) = .ok ts := by
  obtain ⟨ts', hl, rfl⟩ := (noSpan_ok_iff 0).mp h
  have ee : erase (erase ts') = erase ts' := by
    unfold erase; exact mapSpan_mapSpan _ _ _
  rw [display_erase ee]
  exact C71_lossless.mpr (wf_iff.mpr hl.wf)

/-- **C71**, spacing: however the tokens of a well-formed stream are written, with any whitespace and plain
comments between them, the stream is given back. -/
theorem C71_spaced {ts : List TokenTree} (hw : WF ts) {t0 s : List Char} (ht : Trivia t0 s)
    (hs : Spaced ts s []) : NoSpan.fromStr (t0 ++ s) = .ok (erase ts) := by
  rw [noSpan_ok_iff (t0 ++ s).length]
  obtain ⟨ts', hl, he⟩ := hs.lex hw.lexed (.inl rfl) (t0 ++ s).length t0 (by simpa using ht)
  have hl : P.Lex (t0 ++ s).length (t0 ++ s) ts' [] := by simpa using hl
  exact ⟨ts', by rw [hl.no_bom]; exact hl, he.symm⟩

end

/-! ### Examples -/

section
attribute [local instance] sampleTables sampleTables_lawful

example : NoSpan.fromStr "/// x\nfn f<'a>() { 1.0e5 }".toList = .ok
    [.punct '#' .alone ⟨0, 0⟩, .group .bracket [.ident "doc".toList false ⟨0, 0⟩, .punct '=' .alone ⟨0, 0⟩,
      .literal "\" x\"".toList ⟨0, 0⟩] ⟨0, 0⟩, .ident "fn".toList false ⟨0, 0⟩, .ident ['f'] false ⟨0, 0⟩,
      .punct '<' .joint ⟨0, 0⟩, .punct '\'' .joint ⟨0, 0⟩, .ident ['a'] false ⟨0, 0⟩,
      .punct '>' .alone ⟨0, 0⟩, .group .parenthesis [] ⟨0, 0⟩,
      .group .brace [.literal "1.0e5".toList ⟨0, 0⟩] ⟨0, 0⟩] := by decide +kernel

example : NoSpan.fromStr "(]".toList = .err ⟨0, 0⟩ := by decide +kernel

example : NoSpan.literalFromStr "-0x1f_u8".toList = .ok ("-0x1f_u8".toList, ⟨0, 0⟩) ∧
    NoSpan.literalFromStr "- 1".toList = .err ⟨0, 0⟩ := by decide +kernel

/-- `sampleStream` survives, by C71 and by evaluation. -/
example : NoSpan.fromStr (display sampleStream) = .ok (erase sampleStream) :=
  C71_lossless.mpr sampleStream_wf

end
end PM2.Props
