import Verif.Spec.Tokens
import Verif.Proof.Tile
/-! # Consequences of a tiling for the single tokens -/

set_option linter.unusedSectionVars false

namespace PM2.Spec

theorem Sub.nil {tok : TokenTree} (h : Sub tok []) : False := by
  cases h with
  | here h => simp at h
  | inside h _ => simp at h

theorem Sub.cons {tok t : TokenTree} {ts : List TokenTree} (h : Sub tok (t :: ts)) :
    tok = t ∨ (∃ d inner span, t = .group d inner span ∧ Sub tok inner) ∨ Sub tok ts := by
  cases h with
  | here h =>
    rcases List.mem_cons.mp h with h | h
    · exact .inl h
    · exact .inr (.inr (.here h))
  | @inside _ d inner span h hs =>
    rcases List.mem_cons.mp h with h | h
    · exact .inr (.inl ⟨d, inner, span, h.symm, hs⟩)
    · exact .inr (.inr (.inside h hs))

theorem Sub.append {tok : TokenTree} {a b : List TokenTree} (h : Sub tok (a ++ b)) :
    Sub tok a ∨ Sub tok b := by
  cases h with
  | here h =>
    rcases List.mem_append.mp h with h | h
    · exact .inl (.here h)
    · exact .inr (.here h)
  | inside h hs =>
    rcases List.mem_append.mp h with h | h
    · exact .inl (.inside h hs)
    · exact .inr (.inside h hs)

theorem Sub.tail {tok t : TokenTree} {ts : List TokenTree} (h : Sub tok ts) : Sub tok (t :: ts) := by
  cases h with
  | here h => exact .here (List.mem_cons_of_mem _ h)
  | inside h hs => exact .inside (List.mem_cons_of_mem _ h) hs

section
variable [UnicodeTables]

theorem Sub.docAttr_span {tok : TokenTree} {content : List Char} {inner : Bool} {span : Span}
    (h : Sub tok (docAttr content inner span)) : tok.span = span := by
  have hin : ∀ {tok}, Sub tok [.ident ['d', 'o', 'c'] false span, .punct '=' .alone span,
      .literal (litString content) span] → tok.span = span := by
    intro tok h
    rcases h.cons with rfl | ⟨_, _, _, h, _⟩ | h
    · rfl
    · cases h
    rcases h.cons with rfl | ⟨_, _, _, h, _⟩ | h
    · rfl
    · cases h
    rcases h.cons with rfl | ⟨_, _, _, h, _⟩ | h
    · rfl
    · cases h
    exact h.nil.elim
  have hg : ∀ {tok}, Sub tok [.group .bracket [.ident ['d', 'o', 'c'] false span,
      .punct '=' .alone span, .literal (litString content) span] span] → tok.span = span := by
    intro tok h
    rcases h.cons with rfl | ⟨d, i, sp, h, hs⟩ | h
    · rfl
    · cases h; exact hin hs
    exact h.nil.elim
  unfold docAttr at h
  cases inner with
  | true =>
    simp only [if_true] at h
    rcases h.cons with rfl | ⟨_, _, _, h, _⟩ | h
    · rfl
    · cases h
    rcases h.cons with rfl | ⟨_, _, _, h, _⟩ | h
    · rfl
    · cases h
    exact hg h
  | false =>
    simp only [Bool.false_eq_true, if_false] at h
    rcases h.cons with rfl | ⟨_, _, _, h, _⟩ | h
    · rfl
    · cases h
    exact hg h

theorem Sub.docAttr_group {d : Delimiter} {ts : List TokenTree} {sp : Span} {content : List Char}
    {inner : Bool} {span : Span}
    (h : Sub (.group d ts sp) (docAttr content inner span)) :
    d = .bracket ∧ ts = [.ident ['d', 'o', 'c'] false span, .punct '=' .alone span,
      .literal (litString content) span] ∧ sp = span := by
  have hin : ¬ Sub (.group d ts sp) [.ident ['d', 'o', 'c'] false span, .punct '=' .alone span,
      .literal (litString content) span] := by
    intro h
    rcases h.cons with h | ⟨_, _, _, h, _⟩ | h
    · cases h
    · cases h
    rcases h.cons with h | ⟨_, _, _, h, _⟩ | h
    · cases h
    · cases h
    rcases h.cons with h | ⟨_, _, _, h, _⟩ | h
    · cases h
    · cases h
    exact h.nil.elim
  have hg : Sub (.group d ts sp) [.group .bracket [.ident ['d', 'o', 'c'] false span,
      .punct '=' .alone span, .literal (litString content) span] span] → d = .bracket ∧
      ts = [.ident ['d', 'o', 'c'] false span, .punct '=' .alone span,
        .literal (litString content) span] ∧ sp = span := by
    intro h
    rcases h.cons with h | ⟨d, i, sp, h, hs⟩ | h
    · exact TokenTree.group.inj h
    · cases h; exact absurd hs hin
    exact h.nil.elim
  unfold docAttr at h
  cases inner with
  | true =>
    simp only [if_true] at h
    rcases h.cons with h | ⟨_, _, _, h, _⟩ | h
    · cases h
    · cases h
    rcases h.cons with h | ⟨_, _, _, h, _⟩ | h
    · cases h
    · cases h
    exact hg h
  | false =>
    simp only [Bool.false_eq_true, if_false] at h
    rcases h.cons with h | ⟨_, _, _, h, _⟩ | h
    · cases h
    · cases h
    exact hg h

theorem DocText.length {x r content : List Char} {inner : Bool} (h : DocText x r inner content) :
    2 < x.length := by
  cases h <;> simp <;> omega

/-- In a tiling every token stands at its span, with a text that is written as the token. -/
theorem Tile.sub {p : Nat} {s r : List Char} {ts : List TokenTree} (h : Tile p s ts r) :
    ∀ {tok}, Sub tok ts → ∃ a x b, s = a ++ x ++ b ∧ x ≠ [] ∧
      tok.span = ⟨p + a.length, p + a.length + x.length⟩ ∧ TokText tok x := by
  induction h with
  | nil _ => intro tok h; exact h.nil.elim
  | @leaf p t x s r tok' ts ht hx hl hsp _ ih =>
    intro tok h
    rcases h.cons with rfl | ⟨_, _, _, rfl, _⟩ | h
    · exact ⟨t, x, s, rfl, hx, hsp, .leaf hl⟩
    · cases hl
    · obtain ⟨a, x', b, rfl, h1, h2, h3⟩ := ih h
      exact ⟨t ++ x ++ a, x', b, by simp, h1, by rw [h2]; simp; omega, h3⟩
  | @doc p t x s r inner content ts ht hd hn _ ih =>
    intro tok h
    rcases h.append with h | h
    · have hsp := h.docAttr_span
      refine ⟨t, x, s, rfl, ?_, hsp, .doc hd hn (by rw [hsp]; exact h)⟩
      have := hd.length
      rintro rfl; simp at this
    · obtain ⟨a, x', b, rfl, h1, h2, h3⟩ := ih h
      exact ⟨t ++ x ++ a, x', b, by simp, h1, by rw [h2]; simp; omega, h3⟩
  | @group p t o c body s r d inner ts ht hd hb _ ih1 ih2 =>
    intro tok h
    rcases h.cons with rfl | ⟨d', i', sp', h', hs⟩ | h
    · refine ⟨t, o :: body ++ [c], s, by simp, by simp, ?_, .group hd hb⟩
      simp [TokenTree.span]; omega
    · cases h'
      obtain ⟨a, x', b, rfl, h1, h2, h3⟩ := ih1 hs
      exact ⟨t ++ o :: a, x', b ++ c :: s, by simp, h1, by rw [h2]; simp; omega, h3⟩
    · obtain ⟨a, x', b, rfl, h1, h2, h3⟩ := ih2 h
      exact ⟨t ++ o :: body ++ c :: a, x', b, by simp, h1, by rw [h2]; simp; omega, h3⟩

theorem Tile.nested {p : Nat} {s r : List Char} {ts : List TokenTree} (h : Tile p s ts r) :
    ∀ {hi}, p + s.length ≤ hi → Nested p hi ts := by
  induction h with
  | nil _ => intro hi hh; exact .nil (by omega)
  | @leaf p t x s r tok' ts ht hx hl hsp _ ih =>
    intro hi hh
    have hx' : 0 < x.length := List.length_pos_iff.mpr hx
    simp at hh
    refine .leaf ?_ ?_ ?_ ?_
    · rintro d inner span rfl; cases hl
    · rw [hsp]; simp
    · rw [hsp]; simp; omega
    · rw [hsp]; exact ih (by omega)
  | @doc p t x s r inner content ts ht hd hn _ ih =>
    intro hi hh
    have := hd.length
    simp at hh
    exact .doc (by simp) (by simp; omega) (ih (by omega))
  | @group p t o c body s r d inner ts ht hd hb _ ih1 ih2 =>
    intro hi hh
    simp at hh
    exact .group (by simp) (by simp) (ih1 (by simp)) (ih2 (by omega))

end
end PM2.Spec
