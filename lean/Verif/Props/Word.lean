import Verif.Proof.Item
import Verif.Props.Grammar
import Verif.Spec.Panics
/-! # C64: which texts are identifiers -/

namespace PM2.Props
open Spec

section
variable [UnicodeTables] [LawfulUnicode]

/-- **C64**, identifiers: a text is read as the identifier that is written like it exactly if it begins with an
underscore or a character of `XID_Start` and goes on with characters of `XID_Continue`. -/
theorem C64_word {sm : SourceMap} {texts : List (List Char)} (h : History sm texts)
    {s : List Char} (hr : Room texts s) :
    (TokenStream.fromStr sm s).2 =
      .ok [.ident s false ⟨base texts texts.length, base texts texts.length + s.length⟩] ↔ IdentText s := by
  have hv : ValidIdent s ↔ IdentText s := by
    unfold ValidIdent IdentText
    simp only [isIdentStart, isIdentContinue, Bool.or_eq_true, beq_iff_eq]
  rw [C64_grammar h hr, ← hv]
  constructor
  · rintro ⟨bom, body, e, hb, hl⟩
    have := (lex_of_lexed hl (.inl rfl) rfl).wf
    cases this with
    | ident h1 _ _ => exact h1
  · intro hs
    have h1 := leaf_written_ident (w := []) (raw := false) hs (by simp) bd_nil.identEnd
    simp only [Bool.false_eq_true, if_false, List.nil_append, List.append_nil] at h1
    obtain ⟨x, e, ht⟩ := P.leaf_iff.mp ⟨_, h1, (rfl : TokenTree.ident s false
      ⟨base texts texts.length, base texts texts.length + s.length⟩ = _)⟩
    simp only [List.append_nil] at e
    subst e
    have hl := Lexed.leaf (p := base texts texts.length) (t := []) (s := []) (r := []) (ts := []) .nil
      (by simpa using ht) rfl (.nil .nil)
    refine Lexed.text (by simpa using hl) ?_
    intro hb
    have hc := ValidIdent.continue hs
    obtain ⟨c, u, rfl, -, -⟩ := hs
    simp at hb
    subst hb
    have := hc '\ufeff' (by simp)
    rw [show isIdentContinue '\ufeff' = false from LawfulUnicode.continue_not_bom] at this
    cases this

end

/-! ### Concrete cases -/
section Examples
attribute [local instance] sampleTables sampleTables_lawful

/-- `_` and `a1` are identifiers, `1a` is not -/
example : IdentText ['_'] ∧ IdentText ['a', '1'] ∧ ¬ IdentText ['1', 'a'] ∧
    (TokenStream.fromStr SourceMap.init ['_']).2 = .ok [.ident ['_'] false ⟨1, 2⟩] ∧
    (TokenStream.fromStr SourceMap.init ['1', 'a']).2 = .ok [.literal ['1', 'a'] ⟨1, 3⟩] := by
  refine ⟨⟨_, _, rfl, by decide, by decide⟩, ⟨_, _, rfl, by decide, by decide⟩, ?_, by decide +kernel, by decide +kernel⟩
  rintro ⟨c, t, e, h, -⟩
  simp at e
  rw [← e.1] at h
  exact absurd h (by decide)

end Examples
end PM2.Props
