import Verif.Spec.Session
import Verif.Props.Total
import Verif.Props.Moves
import Verif.Props.Tiling
import Verif.Spec.Decide
/-! # C53: spans can be used until they are invalidated -/

set_option linter.unusedSectionVars false

namespace PM2.Props
open Spec

section
variable [UnicodeTables] [LawfulUnicode]

theorem Session.hist {sm : SourceMap} {texts : List (List Char)} {K : Span → Prop} (h : Session sm texts K) :
    History sm texts := by
  induction h with
  | init => exact .init
  | parse src _ hl ih => exact .parse src ih hl
  | literal src _ hl ih => exact .literal src ih hl
  | byteRange _ _ he ih => exact .byteRange _ ih he
  | sourceText _ _ he ih => exact .sourceText _ ih he
  | join _ _ _ _ ih => exact ih
  | subspan _ _ _ _ _ ih => exact ih
  | open_ _ _ ih => exact ih
  | close _ _ ih => exact ih
  | resolvedAt _ _ _ ih => exact ih
  | locatedAt _ _ _ ih => exact ih
  | invalidate _ ih => exact .invalidate ih

/-- The span is the call site or lies in a text. -/
def Placed (texts : List (List Char)) (s : Span) : Prop :=
  s = Span.callSite ∨ ∃ i t, InText texts i t s

theorem Placed.append {texts : List (List Char)} {s : Span} (h : Placed texts s) (src : List Char) :
    Placed (texts ++ [src]) s := by
  rcases h with h | ⟨i, t, h⟩
  · exact .inl h
  · have hi : i < texts.length := (List.getElem?_eq_some_iff.mp h.text).1
    have hb := base_prefix (List.prefix_append texts [src]) (Nat.le_of_lt hi)
    exact .inr ⟨i, t, by rw [List.getElem?_append_left hi]; exact h.text, by rw [hb]; exact h.lo, h.le,
      by rw [hb]; exact h.hi⟩

theorem bound_of {sm : SourceMap} {texts : List (List Char)} (h : History sm texts) {i : Nat} {t : List Char}
    {s : Span} (hs : InText texts i t s) : base texts i + t.length < u32Size := by
  obtain ⟨f, h1, h2, hw⟩ := h.holds.2.within hs
  have := (h.wf.files.good hw.file).bound
  rw [h2] at this
  exact this

/-- **C53.** Every span that a thread has obtained since the last invalidation lies in one of the texts
parsed since then, or is the call site. -/
theorem C53_placed {sm : SourceMap} {texts : List (List Char)} {K : Span → Prop} (h : Session sm texts K) :
    ∀ s, K s → Placed texts s := by
  induction h with
  | init => rintro s rfl; exact .inl rfl
  | @parse sm texts K src h hl ih =>
    rintro s (hs | hs)
    · split
      · exact (ih s hs).append src
      · exact ih s hs
    · have hh := Session.hist h
      split
      · rename_i hr
        generalize hres : (TokenStream.fromStr sm src).2 = res at hs
        cases hs with
        | token ht => exact .inr ⟨_, _, (token_at hh hr hres (List.prefix_refl _) ht).1⟩
        | error => exact .inr ⟨_, _, (C17_error_span hh hr hres).1⟩
      · rename_i hr
        rw [C01_exhausted hh hl hr] at hs
        cases hs
  | @literal sm texts K src h hl ih =>
    rintro s (hs | hs)
    · split
      · exact (ih s hs).append src
      · exact ih s hs
    · have hh := Session.hist h
      split
      · rename_i hr
        obtain ⟨-, e, -, -, hb⟩ := hh.fromStr hr
        rw [e, literalFromStrAt_eq hb] at hs
        split at hs
        · cases hs
          have hbase : base (texts ++ [src]) texts.length = base texts texts.length := by simp [base]
          exact .inr ⟨texts.length, src, by simp, by rw [hbase]; exact Nat.le_refl _, by simp,
            by rw [hbase]; exact Nat.le_refl _⟩
        · cases hs; exact .inl rfl
      · rename_i hr
        have hn := hh.holds.2.nextPos
        rw [(getCursor_panic hh.wf hl (by rw [hn]; exact hr)).2] at hs
        cases hs
  | byteRange _ _ _ ih => exact ih
  | sourceText _ _ _ ih => exact ih
  | @join sm texts K a b c h ha hb hj ih =>
    rintro s (hs | rfl)
    · exact ih s hs
    · have hh := Session.hist h
      rcases ih a ha with rfl | ⟨i, t, hia⟩ <;> rcases ih b hb with rfl | ⟨j, u, hjb⟩
      · unfold Span.join at hj
        simp only [bind, Res.bind] at hj
        split at hj <;> try cases hj
        split at hj <;> cases hj
        exact .inl rfl
      · rw [(C46_join_callSite hh hjb).2.1] at hj; cases hj
      · rw [(C46_join_callSite hh hia).1] at hj; cases hj
      · by_cases hij : i = j
        · subst hij
          have : t = u := by have h1 := hia.text; rw [hjb.text] at h1; cases h1; rfl
          subst this
          obtain ⟨k, e, hk, -⟩ := C46_join_same (ε := Unit) hh hia hjb
          rw [e] at hj
          cases hj
          exact .inr ⟨i, t, hk⟩
        · rw [C46_join_diff hh hia hjb hij] at hj; cases hj
  | @subspan sm texts K a c lo hi h ha hc ih =>
    rintro s (hs | rfl)
    · exact ih s hs
    · rcases ih a ha with rfl | ⟨i, t, hia⟩
      · obtain ⟨h1, h2, rfl⟩ := (C47_subspan (s := Span.callSite) (by decide) (by decide) lo hi _).mp hc
        simp only [Span.callSite, Nat.sub_self] at h1 h2 ⊢
        refine .inl ?_
        simp only [Span.callSite, Span.mk.injEq]
        omega
      · have hb := bound_of (Session.hist h) hia
        have h4 := hia.hi; have h5 := hia.lo; have h6 := hia.le
        obtain ⟨h1, h2, rfl⟩ := (C47_subspan h6 (by unfold u32Size at hb; omega) lo hi _).mp hc
        exact .inr ⟨i, t, hia.text, by simp only; omega, by simp only; omega, by simp only; omega⟩
  | @open_ sm texts K a h ha ih =>
    rintro s (hs | rfl)
    · exact ih s hs
    · rcases ih a ha with rfl | ⟨i, t, hia⟩
      · exact .inl rfl
      · exact .inr ⟨i, t, (C45_inside hia (bound_of (Session.hist h) hia)).1.1⟩
  | @close sm texts K a h ha ih =>
    rintro s (hs | rfl)
    · exact ih s hs
    · rcases ih a ha with rfl | ⟨i, t, hia⟩
      · exact .inl rfl
      · exact .inr ⟨i, t, (C45_inside hia (bound_of (Session.hist h) hia)).2.1⟩
  | @resolvedAt sm texts K a b h ha hb ih =>
    rintro s (hs | rfl)
    · exact ih s hs
    · exact ih _ ha
  | @locatedAt sm texts K a b h ha hb ih =>
    rintro s (hs | rfl)
    · exact ih s hs
    · exact ih _ hb
  | invalidate _ _ => rintro s rfl; exact .inl rfl

theorem join_callSite {ε : Type} {sm : SourceMap} {texts : List (List Char)} (h : History sm texts) :
    Span.callSite.join (ε := ε) sm Span.callSite = .ok (some Span.callSite) := by
  obtain ⟨rest, hr, -⟩ := h.wf
  have hd : Within sm 0 dummyFile Span.callSite :=
    ⟨by rw [hr]; rfl, Nat.le_refl _, Nat.le_refl _, Nat.le_refl _⟩
  unfold Span.join
  rw [fileinfo_eq h.wf hd]
  rfl

/-- **C53.** No method panics on spans that a thread obtained since the last invalidation. -/
theorem C53_no_panic {ε : Type} {sm : SourceMap} {texts : List (List Char)} {K : Span → Prop}
    (h : Session sm texts K) {s : Span} (hs : K s) :
    (∃ lc, s.start (ε := ε) sm = .ok lc) ∧ (∃ lc, s.end_ (ε := ε) sm = .ok lc) ∧
    (∃ r, s.byteRange (ε := ε) sm = .ok r) ∧ (∃ r, s.sourceText (ε := ε) sm = .ok r) ∧
    (∃ f, s.file (ε := ε) sm = .ok f) ∧ ∀ s', K s' → ∃ j, s.join (ε := ε) sm s' = .ok j := by
  have hh := Session.hist h
  refine ⟨?_, ?_, ?_, ?_, ?_, fun s' hs' => ?_⟩
  all_goals rcases C53_placed h s hs with rfl | ⟨i, t, hi⟩
  · exact ⟨_, (C48_call_site hh).2.2.1⟩
  · exact ⟨_, (C41_line_column hh hi).1⟩
  · exact ⟨_, (C48_call_site hh).2.2.2.1⟩
  · exact ⟨_, (C41_line_column hh hi).2⟩
  · exact ⟨_, (C48_call_site hh).2.1⟩
  · obtain ⟨sm', e⟩ := C42_byte_range (ε := ε) hh hi; exact ⟨_, e⟩
  · exact ⟨_, (C48_call_site hh).1⟩
  · obtain ⟨sm', e⟩ := C42_source_text (ε := ε) hh hi; exact ⟨_, e⟩
  · exact ⟨_, (C48_call_site hh).2.2.2.2⟩
  · exact ⟨_, C49_file hh hi⟩
  · rcases C53_placed h s' hs' with rfl | ⟨j, u, hj⟩
    · exact ⟨_, join_callSite hh⟩
    · exact ⟨_, (C46_join_callSite hh hj).2.1⟩
  · rcases C53_placed h s' hs' with rfl | ⟨j, u, hj⟩
    · exact ⟨_, (C46_join_callSite hh hi).1⟩
    · by_cases hij : i = j
      · subst hij
        have : t = u := by have h1 := hi.text; rw [hj.text] at h1; cases h1; rfl
        subst this
        obtain ⟨k, e, -⟩ := C46_join_same (ε := ε) hh hi hj
        exact ⟨_, e⟩
      · exact ⟨_, C46_join_diff hh hi hj hij⟩

end

section Examples
attribute [local instance] sampleTables sampleTables_lawful

/-- Two parses, the second of which fails; the spans of two tokens of the first are joined, and the
opening delimiter of the group is taken. -/
example : ∃ sm texts K, Session sm texts K ∧ K ⟨1, 7⟩ ∧ K ⟨3, 4⟩ ∧ K ⟨3, 3⟩ := by
  have h1 := Session.parse "a (b c)".toList Session.init (by decide)
  have h2 := Session.parse "[".toList h1 (by decide)
  have k1 : SpanOf (TokenStream.fromStr SourceMap.init "a (b c)".toList).2 ⟨1, 2⟩ := by
    have : (TokenStream.fromStr SourceMap.init "a (b c)".toList).2 = .ok
      [.ident ['a'] false ⟨1, 2⟩, .group .parenthesis [.ident ['b'] false ⟨4, 5⟩, .ident ['c'] false ⟨6, 7⟩]
        ⟨3, 8⟩] := by decide +kernel
    rw [this]
    exact .token (tok := .ident ['a'] false ⟨1, 2⟩) (.here (by simp))
  have k2 : SpanOf (TokenStream.fromStr SourceMap.init "a (b c)".toList).2 ⟨6, 7⟩ := by
    have : (TokenStream.fromStr SourceMap.init "a (b c)".toList).2 = .ok
      [.ident ['a'] false ⟨1, 2⟩, .group .parenthesis [.ident ['b'] false ⟨4, 5⟩, .ident ['c'] false ⟨6, 7⟩]
        ⟨3, 8⟩] := by decide +kernel
    rw [this]
    exact .token (tok := .ident ['c'] false ⟨6, 7⟩) (.inside (.tail _ (.head _)) (.here (by simp)))
  have k3 : SpanOf (TokenStream.fromStr SourceMap.init "a (b c)".toList).2 ⟨3, 8⟩ := by
    have : (TokenStream.fromStr SourceMap.init "a (b c)".toList).2 = .ok
      [.ident ['a'] false ⟨1, 2⟩, .group .parenthesis [.ident ['b'] false ⟨4, 5⟩, .ident ['c'] false ⟨6, 7⟩]
        ⟨3, 8⟩] := by decide +kernel
    rw [this]
    exact .token (tok := .group .parenthesis _ ⟨3, 8⟩) (.here (.tail _ (.head _)))
  have h3 := Session.join (c := ⟨1, 7⟩) h2 (.inl (.inr k1)) (.inl (.inr k2)) (by decide +kernel)
  have h4 := Session.open_ h3 (.inl (.inl (.inr k3)))
  have h5 := Session.open_ h4 (a := ⟨3, 8⟩) (.inl (.inl (.inl (.inr k3))))
  have h6 := Session.subspan (c := ⟨3, 3⟩) (.included 0) (.excluded 0) h5 (a := ⟨3, 8⟩)
    (.inl (.inl (.inl (.inl (.inr k3))))) (by decide)
  exact ⟨_, _, _, h6, .inl (.inl (.inl (.inr rfl))), .inl (.inr rfl), .inr rfl⟩

end Examples

end PM2.Props
