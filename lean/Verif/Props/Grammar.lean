import Verif.Proof.Lexed
import Verif.Props.Total
import Verif.Spec.Decide
/-! # C63, C64, C65: the parser implements the lexical grammar -/

namespace PM2.Props
open Spec

section
variable [UnicodeTables] [LawfulUnicode]

/-- **C63.** `Literal::from_str` accepts exactly the texts of the grammar of literals: a string, byte,
character or number literal with an optional suffix, or a number after a minus sign. -/
theorem C63_literals {sm : SourceMap} {texts : List (List Char)} (h : History sm texts)
    {src : List Char} (hr : Room texts src) :
    (∃ l, (Literal.fromStr sm src).2 = .ok l) ↔ WholeLiteral src := by
  obtain ⟨-, e, -, -, hb⟩ := h.fromStr hr
  rw [e, literalFromStrAt_eq hb, ← litAccepts_lexed]
  cases P.litAccepts src <;> simp

/-- The grammar is decided by the character-level lexer. -/
theorem lexed_run {off : Nat} {src : List Char} {ts : List TokenTree} :
    TextLexed off src ts ↔
      P.run (off + src.length) ((P.stripBom src).length + 1) ⟨P.stripBom src, [], []⟩ = .ok ts := by
  rw [P.run_ok_iff (by omega), lex_iff_lexed]

/-- **C64.** `TokenStream::from_str` returns exactly the streams that the lexical grammar derives from
the text, spans included. -/
theorem C64_grammar {sm : SourceMap} {texts : List (List Char)} (h : History sm texts)
    {src : List Char} (hr : Room texts src) {ts : List TokenTree} :
    (TokenStream.fromStr sm src).2 = .ok ts ↔ TextLexed (base texts texts.length) src ts := by
  obtain ⟨e, -, -, -, hb⟩ := h.fromStr hr
  rw [e, fromStrAt_lexed hb]

/-- **C64**, rejection: a text is rejected exactly when the grammar derives no stream from it. -/
theorem C64_rejected {sm : SourceMap} {texts : List (List Char)} (h : History sm texts)
    {src : List Char} (hr : Room texts src) :
    (∃ err, (TokenStream.fromStr sm src).2 = .err err) ↔
      ∀ ts, ¬ TextLexed (base texts texts.length) src ts := by
  constructor
  · rintro ⟨err, he⟩ ts ht
    rw [(C64_grammar h hr).mpr ht] at he
    simp at he
  · intro hn
    rcases C01_parse_total h hr with ⟨ts, ht⟩ | he
    · exact absurd ((C64_grammar h hr).mp ht) (hn ts)
    · exact he

omit [UnicodeTables] [LawfulUnicode] in
theorem isWhitespace_iff (c : Char) : isWhitespace c = true ↔ c ∈ whiteSpace := by
  constructor
  · intro h
    have hn : c = Char.ofNat c.toNat := (Char.ofNat_toNat c).symm
    simp only [isWhitespace, charIsWhitespace, Bool.or_eq_true, Bool.and_eq_true, beq_iff_eq, decide_eq_true_eq] at h
    have key : ∀ n ∈ [9, 10, 11, 12, 13, 0x20, 0x85, 0xa0, 0x1680, 0x2000, 0x2001, 0x2002, 0x2003, 0x2004, 0x2005, 0x2006,
        0x2007, 0x2008, 0x2009, 0x200a, 0x2028, 0x2029, 0x202f, 0x205f, 0x3000], Char.ofNat n ∈ whiteSpace := by decide
    rcases h with (h | rfl) | rfl
    · rw [hn]
      apply key
      simp only [List.mem_cons, List.not_mem_nil, or_false]
      omega
    · decide
    · decide
  · intro h
    have : ∀ c ∈ whiteSpace, isWhitespace c = true := by decide
    exact this c h

/-- **C64**, whitespace: a text of one character has no tokens exactly if the character is whitespace or the byte order
mark. -/
theorem C64_whitespace {sm : SourceMap} {texts : List (List Char)} (h : History sm texts)
    {c : Char} (hr : Room texts [c]) :
    (TokenStream.fromStr sm [c]).2 = .ok [] ↔ c ∈ whiteSpace ∨ c = '\ufeff' := by
  rw [C64_grammar h hr]
  constructor
  · rintro ⟨bom, body, e, hb, hl⟩
    rcases hb with rfl | ⟨rfl, -⟩
    · simp at e
      exact .inr e.1
    · left
      simp only [List.nil_append] at e
      subst e
      generalize hp : base texts texts.length + ([] : List Char).length = p at hl
      generalize hs : [c] = s at hl
      generalize ht : ([] : List TokenTree) = ts at hl
      generalize hq : ([] : List Char) = q at hl
      cases hl with
      | nil htr =>
        cases htr with
        | nil => simp at hs
        | ws hc => simp at hs; rw [hs.1]; exact (isWhitespace_iff _).mp hc
        | line => simp at hs
        | block hb => obtain ⟨u, rfl, hu⟩ := hb; simp at hs
      | leaf => simp at ht
      | doc => unfold docAttr at ht; split at ht <;> simp at ht
      | group => simp at ht
  · rintro (hc | rfl)
    · by_cases hb : c = '\ufeff'
      · subst hb
        exact absurd hc (by decide)
      · exact ⟨[], [c], rfl, .inr ⟨rfl, by simpa using hb⟩, .nil (.ws ((isWhitespace_iff c).mpr hc) .nil)⟩
    · exact ⟨['\ufeff'], [], rfl, .inl rfl, .nil .nil⟩

/-- **C65.** The lexical grammar is unambiguous: a text at a position denotes at most one stream. -/
theorem C65_unambiguous {p : Nat} {src : List Char} {ts ts' : List TokenTree}
    (h : TextLexed p src ts) (h' : TextLexed p src ts') : ts = ts' := by
  obtain ⟨bom, body, rfl, hb, hl⟩ := h
  obtain ⟨bom', body', e, hb', hl'⟩ := h'
  have : bom' = bom ∧ body' = body := by
    rcases hb with rfl | ⟨rfl, hn⟩
    · rcases hb' with rfl | ⟨rfl, hn'⟩
      · exact ⟨rfl, List.append_cancel_left e.symm⟩
      · exact absurd rfl hn'
    · rcases hb' with rfl | ⟨rfl, hn'⟩
      · rw [e] at hn; exact absurd rfl hn
      · exact ⟨rfl, by simpa using e.symm⟩
  obtain ⟨rfl, rfl⟩ := this
  have h1 := lex_of_lexed hl (.inl rfl) rfl
  have h2 := lex_of_lexed hl' (.inl rfl) rfl
  rw [List.append_nil] at h1 h2
  have g1 := (P.run_ok_iff (Nat.lt_succ_self _)).mpr h1
  have g2 := (P.run_ok_iff (Nat.lt_succ_self _)).mpr h2
  rw [g1] at g2
  simpa using g2

/-- **C65**, literals: the literal at the beginning of a text is determined by the text. -/
theorem C65_literal {x r x' r' : List Char} (h : LiteralText x r) (h' : LiteralText x' r')
    (e : x ++ r = x' ++ r') : x = x' ∧ r = r' := by
  have h1 := P.literal_iff.mpr ⟨x, rfl, h⟩
  have h2 := P.literal_iff.mpr ⟨x', rfl, h'⟩
  rw [← e, h1] at h2
  simp at h2
  subst h2
  exact ⟨List.append_cancel_right e, rfl⟩

end

/-! ### Derivations -/

section
attribute [local instance] sampleTables
attribute [local instance] sampleTables_lawful

/-- `1e+5_0f64` is a float. -/
example : NumberLit "1e+5_0f64".toList [] := by
  refine .inl ⟨"1e+5_0".toList, "f64".toList, rfl, ?_, .inr ⟨'f', ['6', '4'], rfl, by decide, by decide⟩,
    by intro c h; simp at h⟩
  refine .exp (m := ['1']) (e := 'e') (u := "+5_0".toList) (r := "f64".toList)
    (.inl ⟨⟨'1', [], rfl, by unfold DecDigit; decide, digitsUs_nil⟩, ?_, by decide⟩) (by simp) ?_ ?_
  · intro c h; simp at h; subst h; unfold DecDigit; decide
  · exact ⟨[], ['+'], [], '5', ['_', '0'], rfl, by simp, by simp, by simp, by unfold DecDigit; decide,
      by intro c h; simp at h; rcases h with rfl | rfl <;> (unfold DecDigit; decide)⟩
  · intro c h; simp at h; subst h; unfold DecDigit; decide

/-- `b` at position 7 followed by a group. -/
example : Lexed 7 "b (+)".toList
    [.ident ['b'] false ⟨7, 8⟩, .group .parenthesis [.punct '+' .alone ⟨10, 11⟩] ⟨9, 12⟩] [] := by
  refine .leaf (t := []) (x := ['b']) (s := " (+)".toList) .nil
    (.ident (.plain ⟨'b', [], rfl, by decide, by simp⟩ ?_ (by decide)) (by decide)) rfl ?_
  · intro c h; simp at h; subst h; decide
  refine .group (p := 8) (t := [' ']) (o := '(') (c := ')') (body := ['+']) (s := [])
    (.ws (by decide) .nil) rfl (by decide) ?_ (.nil .nil)
  refine .leaf (p := 10) (t := []) (x := ['+']) (s := []) .nil (.punct ?_ (by decide) ?_) rfl (.nil .nil)
  · exact ⟨⟨'+', [')'], rfl, by decide⟩, by decide, by decide⟩
  · constructor
    · intro h; simp at h
    · rintro ⟨⟨c, r, h1, h2⟩, -⟩
      simp at h1
      rw [← h1.1] at h2
      revert h2; decide

/-- The left-to-right mark is whitespace, the zero width space is not. -/
example : '\u200e' ∈ whiteSpace ∧ '\u200b' ∉ whiteSpace := by decide
example : (TokenStream.fromStr SourceMap.init ['\u200e']).2 = .ok [] ∧
    (TokenStream.fromStr SourceMap.init ['\u200b']).2 ≠ .ok [] := by decide +kernel

/-- By C63, what is and is not a literal. -/
example : WholeLiteral "-1.5".toList := by
  rw [← litAccepts_lexed]; decide +kernel
example : ¬ WholeLiteral "--1".toList := by
  rw [← litAccepts_lexed]; decide +kernel
example : ¬ WholeLiteral "0b12".toList := by
  rw [← litAccepts_lexed]; decide +kernel

end

end PM2.Props
