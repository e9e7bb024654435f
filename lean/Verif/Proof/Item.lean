import Verif.Proof.Lexed
import Verif.Proof.Sub
import Verif.Proof.Print
/-! # Every token of a text, with the text after it, and the token on its own -/

set_option linter.unusedSectionVars false

namespace PM2
open Spec

/-- `Item tok x r`: the text `x`, followed by `r`, is read as the token `tok`, or as a doc comment one of whose
tokens is `tok`. -/
inductive Item [UnicodeTables] : TokenTree → List Char → List Char → Prop
  | leaf {tok x r} : Token tok x r → Item tok x r
  | group {d inner span o c body r} : delimChars d = some (o, c) → ¬ errorText <+: o :: body ++ c :: r →
      Lexed (span.lo + 1) body inner (c :: r) → Item (.group d inner span) (o :: body ++ [c]) r
  | doc {tok x r inner content} : DocText x r inner content → NoBareCr content →
      Sub tok (docAttr content inner tok.span) → Item tok x r

section
variable [UnicodeTables]

theorem Spec.Token.not_group {d : Delimiter} {inner : List TokenTree} {span : Span} {x r : List Char}
    (h : Token (.group d inner span) x r) : False := by cases h

theorem Spec.Lexed.sub {p : Nat} {s r : List Char} {ts : List TokenTree} (h : Lexed p s ts r) :
    ∀ {tok}, Sub tok ts → ∃ a x b, s = a ++ x ++ b ∧
      tok.span = ⟨p + a.length, p + a.length + x.length⟩ ∧ Item tok x (b ++ r) := by
  induction h with
  | nil _ => intro tok h; exact h.nil.elim
  | @leaf p t x s r tok' ts ht hx hsp _ ih =>
    intro tok h
    rcases h.cons with rfl | ⟨_, _, _, rfl, _⟩ | h
    · exact ⟨t, x, s, rfl, hsp, .leaf hx⟩
    · exact hx.not_group.elim
    · obtain ⟨a, x', b, rfl, h2, h3⟩ := ih h
      exact ⟨t ++ x ++ a, x', b, by simp, by rw [h2]; simp; omega, h3⟩
  | @doc p t x s r inner content ts ht hd hn _ ih =>
    intro tok h
    rcases h.append with h | h
    · have hsp := h.docAttr_span
      exact ⟨t, x, s, rfl, hsp, .doc hd hn (by rw [hsp]; exact h)⟩
    · obtain ⟨a, x', b, rfl, h2, h3⟩ := ih h
      exact ⟨t ++ x ++ a, x', b, by simp, by rw [h2]; simp; omega, h3⟩
  | @group p t o c body s r d inner ts ht hd he hb _ ih1 ih2 =>
    intro tok h
    rcases h.cons with rfl | ⟨d', i', sp', h', hs⟩ | h
    · refine ⟨t, o :: body ++ [c], s, by simp, ?_, .group hd (by simpa using he) hb⟩
      simp [TokenTree.span]; omega
    · cases h'
      obtain ⟨a, x', b, rfl, h2, h3⟩ := ih1 hs
      exact ⟨t ++ o :: a, x', b ++ c :: s, by simp, by rw [h2]; simp; omega, by simpa using h3⟩
    · obtain ⟨a, x', b, rfl, h2, h3⟩ := ih2 h
      exact ⟨t ++ o :: body ++ c :: a, x', b, by simp, by rw [h2]; simp; omega, h3⟩

/-- The error literal goes on after no closing delimiter. -/
theorem error_close {c1 c : Char} (hc1 : ∃ d, P.closeD c1 = some d) {u s r r' : List Char}
    (h : ¬ errorText <+: u ++ c1 :: s ++ c :: r) : ¬ errorText <+: u ++ c1 :: s ++ c :: r' := by
  intro hp
  rcases List.prefix_or_prefix_of_prefix hp (List.prefix_append (u ++ c1 :: s) (c :: r')) with h1 | h1
  · exact h (h1.trans (List.prefix_append _ _))
  · obtain ⟨v, hv⟩ := h1
    by_cases hv' : v = []
    · subst hv'
      simp only [List.append_nil] at hv
      exact h (hv ▸ List.prefix_append _ _)
    · have h2 : c1 ∈ errorText.dropLast := by
        rw [← hv, List.dropLast_append_of_ne_nil hv']
        simp
      obtain ⟨d, hd⟩ := hc1
      rcases P.closeD_cases hd with ⟨rfl, -⟩ | ⟨rfl, -⟩ | ⟨rfl, -⟩ <;> exact absurd h2 (by decide)

end

section
variable [UnicodeTables] [LawfulUnicode]

/-- A text before a closing delimiter denotes the same tokens whatever follows the delimiter. -/
theorem Spec.Lexed.before_close {p : Nat} {s r : List Char} {ts : List TokenTree} (h : Lexed p s ts r) :
    ∀ {c r0 r1}, r = c :: r0 → (∃ d, P.closeD c = some d) → Lexed p s ts (c :: r1) := by
  have hend : ∀ {u : List Char} {c : Char} {r0 r1 : List Char}, (∃ d, P.closeD c = some d) →
      LineEnd (u ++ c :: r0) → LineEnd (u ++ c :: r1) ∧ (u ++ c :: r1 = [] → u ++ c :: r0 = []) := by
    rintro u c r0 r1 ⟨d, hd⟩ (h | ⟨r', h⟩)
    · simp at h
    · refine ⟨.inr ?_, by simp⟩
      cases u with
      | nil =>
        simp at h
        rw [h.1] at hd
        rcases P.closeD_cases hd with ⟨h, -⟩ | ⟨h, -⟩ | ⟨h, -⟩ <;> exact absurd h (by decide)
      | cons a u => simp at h ⊢; exact h.1
  induction h with
  | @nil p t r ht =>
    rintro c r0 r1 rfl hc
    exact .nil (ht.replace fun h => (hend (u := []) hc h).1)
  | @leaf p t x s r tok ts ht hx hsp _ ih =>
    rintro c r0 r1 rfl hc
    refine .leaf (ht.replace fun h => (hend hc h).1) ?_ hsp (ih rfl hc)
    obtain ⟨l, hl, htok⟩ := P.leaf_iff.mpr ⟨x, rfl, hx⟩
    have hcl := closeD_closers.mpr hc
    have hs : ∀ w : List Char, (x ++ s).getLast? = some '/' → ∀ w', c :: w ≠ '/' :: w' := by
      rintro w - w' e
      simp at e
      rw [e.1] at hcl
      exact absurd hcl (by decide)
    rw [← List.append_assoc] at hl
    have h2 := P.leaf_ext (bd_close hcl r1) (hs r1) (P.leaf_trunc (bd_close hcl r0) (hs r0) hl)
    obtain ⟨x', e, h3⟩ := P.leaf_iff.mp ⟨l, h2, htok⟩
    rw [List.append_assoc] at e
    rwa [← List.append_cancel_right e] at h3
  | @doc p t x s r inner content ts ht hd hn _ ih =>
    rintro c r0 r1 rfl hc
    exact .doc (ht.replace fun h => (hend hc h).1) (DocText.replace hd hn (hend hc)) hn (ih rfl hc)
  | @group p t o c' body s r d inner ts ht hd he _ _ ih1 ih2 =>
    rintro c r0 r1 rfl hc
    refine .group (ht.replace fun h => ?_) hd ?_ ?_ (ih2 rfl hc)
    · have := (hend (u := o :: body ++ c' :: s) (r1 := r1) hc (by simpa using h)).1
      simpa using this
    · have := error_close (u := o :: body) (s := s) (r' := r1) ⟨d, closeD_of hd⟩ (by simpa using he)
      simpa using this
    · exact ih1 rfl ⟨d, closeD_of hd⟩

/-- Identifiers and literals are read back from their own text. -/
theorem Spec.Token.alone {tok : TokenTree} {x r : List Char} (h : Token tok x r)
    (hp : ∀ c sp span, tok ≠ .punct c sp span) : Token tok x [] := by
  obtain ⟨l, hl, htok⟩ := P.leaf_iff.mpr ⟨x, rfl, h⟩
  have key : ∀ {l : P.Leaf}, P.leaf x = some (l, []) → tok = l.tok tok.span → Token tok x [] := by
    intro l h1 h2
    obtain ⟨x', e, h3⟩ := P.leaf_iff.mp ⟨l, h1, h2⟩
    simp at e
    rwa [← e] at h3
  cases l with
  | ident sym raw =>
    obtain ⟨h1, h2, h3⟩ := P.leaf_ident_valid hl
    refine key (l := .ident sym raw) ?_ htok
    rw [List.append_cancel_right h3]
    have := leaf_written_ident (w := []) h1 h2 (bd_nil.identEnd)
    simpa using this
  | literal y =>
    have h1 := P.leaf_literal_valid hl
    have h2 := leaf_written_literal (w := []) h1 bd_nil.lit
    have : y = x := by
      rw [htok] at h
      cases h <;> rfl
    subst this
    exact key (l := .literal y) (by simpa using h2) htok
  | punct c sp => exact absurd htok (hp _ _ _)

end

section
variable [UnicodeTables]

theorem Spec.Lexed.text {p : Nat} {x : List Char} {ts : List TokenTree} (h : Lexed p x ts [])
    (hb : x.head? ≠ some '﻿') : TextLexed p x ts :=
  ⟨[], x, rfl, .inr ⟨rfl, hb⟩, h⟩

/-- A group stands for itself. -/
theorem Item.group_alone [LawfulUnicode] {d : Delimiter} {inner : List TokenTree} {span : Span} {o c : Char}
    {body r : List Char} (hd : delimChars d = some (o, c)) (he : ¬ errorText <+: o :: body ++ c :: r)
    (hl : Lexed (span.lo + 1) body inner (c :: r)) (hsp : span.hi = span.lo + (o :: body ++ [c]).length) :
    Lexed span.lo (o :: body ++ [c]) [.group d inner span] [] := by
  have h1 : Lexed (span.lo + ([] : List Char).length + 1) body inner (c :: [] ++ []) :=
    hl.before_close rfl ⟨d, closeD_of hd⟩
  have h2 : ¬ errorText <+: o :: body ++ c :: [] ++ [] := fun h => he (by
    have : o :: body ++ c :: [] ++ [] <+: o :: body ++ c :: r := ⟨r, by simp⟩
    exact h.trans this)
  have := Lexed.group (t := []) (s := []) (r := []) (ts := []) .nil hd h2 h1 (.nil .nil)
  have e : (⟨span.lo + ([] : List Char).length, span.lo + ([] : List Char).length + 1 + body.length + 1⟩ : Span) = span := by
    obtain ⟨lo, hi⟩ := span
    simp at hsp ⊢
    omega
  rw [e] at this
  simpa using this

end
end PM2
