import Verif.Proof.Sub
import Verif.Proof.Lit
/-! # Facts about the single tokens of an accepted text -/

set_option linter.unusedSectionVars false

namespace PM2
open Spec

section
variable [UnicodeTables]

theorem Spec.DocText.isDoc {x r content : List Char} {inner : Bool} (h : DocText x r inner content) :
    IsDoc x := by
  cases h with
  | innerLine h1 h2 h3 => exact .inl (.inl ⟨_, rfl⟩)
  | @outerLine u cr r h1 h2 h3 h4 =>
    refine .inl (.inr ⟨⟨_, rfl⟩, ?_⟩)
    rintro ⟨w, hw⟩
    simp at hw
    cases content with
    | nil =>
      rcases h4 with ⟨rfl, -⟩ | ⟨rfl, -⟩ <;> simp at hw
    | cons c u => simp at hw; rw [← hw.1] at h3; simp at h3
  | innerBlock h1 => exact .inr (.inl ⟨_, rfl⟩)
  | @outerBlock u r h1 h2 h3 =>
    refine .inr (.inr ⟨⟨_, rfl⟩, ?_, ?_⟩)
    · rintro ⟨w, hw⟩
      simp at hw
      rw [← hw] at h2; simp at h2
    · rintro ⟨w, hw⟩
      simp at hw
      rw [← hw] at h3; simp at h3

/-- Every token of a lexed text is a leaf recognised at its position, a group, or from a doc
comment. -/
theorem P.Lex.leaves {E : Nat} {s q : List Char} {ts : List TokenTree} (h : P.Lex E s ts q) :
    ∀ {tok}, Sub tok ts → (∃ s1 l r, s1 <:+ s ∧ P.leaf s1 = some (l, r) ∧ r <:+ s1 ∧
        tok = l.tok ⟨E - s1.length, E - r.length⟩) ∨
      (∃ d inner span, tok = .group d inner span) ∨
      (∃ content inner x r, x ++ r <:+ s ∧ DocText x r inner content ∧ NoBareCr content ∧
        Sub tok (docAttr content inner tok.span) ∧ tok.span = ⟨E - (x ++ r).length, E - r.length⟩) := by
  induction h with
  | eof => intro tok ht; exact ht.nil.elim
  | cls => intro tok ht; exact ht.nil.elim
  | @doc s content inner s1 r ts q hn hl ih =>
    intro tok ht
    have hf := P.next_facts s
    rw [hn] at hf
    rcases ht.append with ht | ht
    · rw [P.docTokens_eq] at ht
      have hd := P.next_doc hn
      obtain ⟨x, e, h1, h2⟩ := P.doc_spec (by rw [hf.1]; exact P.triv1_none_doc (P.triv1_skipWs s)) hd
      refine .inr (.inr ⟨content, inner, x, r, ?_, h1, h2, ?_, ?_⟩)
      · rw [← e, hf.1]; exact P.skipWs_suffix s
      · rw [ht.docAttr_span]; exact ht
      · rw [← e]; exact ht.docAttr_span
    · rcases ih ht with ⟨s2, l, r2, h1, h2⟩ | h | ⟨c, i, s2, r2, h1, h2⟩
      · exact .inl ⟨s2, l, r2, h1.trans hf.2.1, h2⟩
      · exact .inr (.inl h)
      · exact .inr (.inr ⟨c, i, s2, r2, h1.trans hf.2.1, h2⟩)
  | @leaf s l s1 r ts q hn hl ih =>
    intro tok ht
    have hf := P.next_facts s
    rw [hn] at hf
    obtain ⟨h1, -, -⟩ := P.next_leaf hn
    rcases ht.cons with rfl | ⟨_, _, _, e, _⟩ | ht
    · exact .inl ⟨s1, l, r, by rw [hf.1]; exact P.skipWs_suffix s, h1, (P.leaf_suffix h1).1, rfl⟩
    · cases l <;> simp [P.Leaf.tok] at e
    · rcases ih ht with ⟨s2, l, r2, h1, h2⟩ | h | ⟨c, i, s2, r2, h1, h2⟩
      · exact .inl ⟨s2, l, r2, h1.trans hf.2.1, h2⟩
      · exact .inr (.inl h)
      · exact .inr (.inr ⟨c, i, s2, r2, h1.trans hf.2.1, h2⟩)
  | @group s d s1 r inner c r1 ts q hn h1 hc h2 ih1 ih2 =>
    intro tok ht
    have hf := P.next_facts s
    rw [hn] at hf
    have hs1 := h1.suffix
    rcases ht.cons with rfl | ⟨_, _, _, e, ht⟩ | ht
    · exact .inr (.inl ⟨_, _, _, rfl⟩)
    · cases e
      rcases ih1 ht with ⟨s2, l, r2, h1, h2⟩ | h | ⟨c, i, s2, r2, h1, h2⟩
      · exact .inl ⟨s2, l, r2, h1.trans hf.2.1, h2⟩
      · exact .inr (.inl h)
      · exact .inr (.inr ⟨c, i, s2, r2, h1.trans hf.2.1, h2⟩)
    · rcases ih2 ht with ⟨s2, l, r2, h1, h2⟩ | h | ⟨c, i, s2, r2, h1, h2⟩
      · exact .inl ⟨s2, l, r2, (h1.trans ((List.suffix_cons _ _).trans hs1)).trans hf.2.1, h2⟩
      · exact .inr (.inl h)
      · exact .inr (.inr ⟨c, i, s2, r2, (h1.trans ((List.suffix_cons _ _).trans hs1)).trans hf.2.1,
          h2⟩)

theorem P.leaf_punct {s r : List Char} {c : Char} {sp : Spacing}
    (h : P.leaf s = some (.punct c sp, r)) : P.literal s = none ∧ P.punct s = some (c, sp, r) := by
  unfold P.leaf at h
  split at h
  · simp at h
  · split at h
    · rename_i _ h1 _ _ _ _ h2
      simp at h
      obtain ⟨⟨rfl, rfl⟩, rfl⟩ := h
      exact ⟨h1, h2⟩
    · split at h
      · simp at h
      · split at h <;> simp at h

theorem P.leaf_ident {s r sym : List Char} {raw : Bool}
    (h : P.leaf s = some (.ident sym raw, r)) : P.literal s = none ∧ P.punct s = none ∧
      P.ident s = some (sym, raw, r) := by
  unfold P.leaf at h
  split at h
  · simp at h
  · split at h
    · simp at h
    · split at h
      · rename_i _ h0 _ h1 _ _ _ _ h2
        simp at h
        obtain ⟨⟨rfl, rfl⟩, rfl⟩ := h
        exact ⟨h0, h1, h2⟩
      · split at h <;> simp at h

theorem P.leaf_literal {s r repr : List Char}
    (h : P.leaf s = some (.literal repr, r)) :
    (P.literal s = some r ∧ s = repr ++ r) ∨ (repr = errorRepr ∧ s = errorRepr ++ r) := by
  obtain ⟨x, e, hx⟩ := P.leaf_spec h Span.callSite
  cases hx
  unfold P.leaf at h
  split at h
  · rename_i h1
    simp at h
    obtain ⟨-, rfl⟩ := h
    exact .inl ⟨h1, e⟩
  · split at h
    · simp at h
    · split at h
      · simp at h
      · split at h
        · simp at h
          obtain ⟨rfl, rfl⟩ := h
          exact .inr ⟨rfl, e⟩
        · simp at h

theorem P.punctChar_spec {s r : List Char} {c : Char} : P.punctChar s = some (c, r) ↔
    s = c :: r ∧ c ∈ recognizedPunct ∧ ¬ ['/', '/'] <+: s ∧ ¬ ['/', '*'] <+: s := by
  unfold P.punctChar
  split
  · rename_i h
    simp only [Bool.or_eq_true, startsWith_iff_prefix] at h
    simp only [reduceCtorEq, false_iff]
    rintro ⟨-, -, h1, h2⟩
    rcases h with h | h <;> contradiction
  · rename_i h
    simp only [Bool.or_eq_true, startsWith_iff_prefix, not_or] at h
    cases s with
    | nil => simp
    | cons c' r' =>
      simp only
      split
      · rename_i hc
        simp at hc
        simp only [Option.some.injEq, Prod.mk.injEq, List.cons.injEq]
        constructor
        · rintro ⟨rfl, rfl⟩; exact ⟨⟨rfl, rfl⟩, hc, h⟩
        · rintro ⟨⟨rfl, rfl⟩, -⟩; exact ⟨rfl, rfl⟩
      · rename_i hc
        simp at hc
        simp only [reduceCtorEq, false_iff]
        rintro ⟨e, h1, -⟩
        simp at e
        obtain ⟨rfl, rfl⟩ := e
        exact hc h1

theorem P.punctChar_isSome {s : List Char} : (P.punctChar s).isSome = true ↔
    (∃ c r, s = c :: r ∧ c ∈ recognizedPunct) ∧ ¬ ['/', '/'] <+: s ∧ ¬ ['/', '*'] <+: s := by
  rw [Option.isSome_iff_exists]
  constructor
  · rintro ⟨⟨c, r⟩, h⟩
    obtain ⟨h1, h2, h3⟩ := P.punctChar_spec.mp h
    exact ⟨⟨c, r, h1, h2⟩, h3⟩
  · rintro ⟨⟨c, r, h1, h2⟩, h3⟩
    exact ⟨(c, r), P.punctChar_spec.mpr ⟨h1, h2, h3⟩⟩

theorem P.punct_spec {s r : List Char} {c : Char} {sp : Spacing} (h : P.punct s = some (c, sp, r)) :
    s = c :: r ∧ c ∈ recognizedPunct ∧
    (c ≠ '\'' → (sp = .joint ↔ (P.punctChar r).isSome = true)) ∧
    (c = '\'' → sp = .joint ∧ ∃ sym raw after, P.identAny r = some (sym, raw, after) ∧
      startsWithChar after '\'' = false) := by
  unfold P.punct at h
  split at h
  · simp at h
  · rename_i ch r' hp
    obtain ⟨h1, h2, h3⟩ := P.punctChar_spec.mp hp
    split at h
    · rename_i hq
      split at h
      · simp at h
      · rename_i sym raw after hi
        split at h
        · simp at h
        · rename_i hcond
          simp at h hcond
          obtain ⟨rfl, rfl, rfl⟩ := h
          subst hq
          exact ⟨h1, h2, fun hne => absurd rfl hne, fun _ => ⟨rfl, sym, raw, after, hi, hcond.1⟩⟩
    · rename_i hq
      simp at h
      obtain ⟨rfl, rfl, rfl⟩ := h
      refine ⟨h1, h2, fun _ => ?_, fun e => absurd e hq⟩
      split <;> simp_all

end
end PM2
