import Verif.Proof.Lit
/-! # C01, C02, C25: parsing is total; `Literal::from_str` is verbatim -/

namespace PM2.Props
open Spec

section
variable [UnicodeTables]

/-- **C01.** After any history of the thread, parsing any text for which the position space has room
returns `Ok` or `Err`: it neither panics nor diverges. -/
theorem C01_parse_total {sm : SourceMap} {texts : List (List Char)} (h : History sm texts)
    {src : List Char} (hr : Room texts src) :
    (∃ ts, (TokenStream.fromStr sm src).2 = .ok ts) ∨
      (∃ e, (TokenStream.fromStr sm src).2 = .err e) := by
  obtain ⟨e, -, -, -, hb⟩ := h.fromStr hr
  rw [e, fromStrAt_eq hb]
  exact P.run_total _ _ _ (by simp)

/-- The room hypothesis of C01 is necessary: without it the (checked) position arithmetic panics. -/
theorem C01_exhausted {sm : SourceMap} {texts : List (List Char)} (h : History sm texts)
    {src : List Char} (hl : src.length < 2 ^ 32) (hr : ¬ Room texts src) :
    TokenStream.fromStr sm src = (sm, .panic) := by
  have hn := h.holds.2.nextPos
  exact (getCursor_panic h.wf hl (by rw [hn]; exact hr)).1

/-- **C02.** `Literal::from_str` returns `Ok` or `Err` on every text. -/
theorem C02_literal_total {sm : SourceMap} {texts : List (List Char)} (h : History sm texts)
    {src : List Char} (hr : Room texts src) :
    (∃ l, (Literal.fromStr sm src).2 = .ok l) ∨ (∃ e, (Literal.fromStr sm src).2 = .err e) := by
  obtain ⟨-, e, -, -, hb⟩ := h.fromStr hr
  rw [e, literalFromStrAt_eq hb]
  split
  · exact .inl ⟨_, rfl⟩
  · exact .inr ⟨_, rfl⟩

/-- **C25**, the result: an accepted literal prints back as the text, and its span is the text. -/
theorem C25_verbatim {sm : SourceMap} {texts : List (List Char)} (h : History sm texts)
    {src : List Char} (hr : Room texts src) {repr : List Char} {span : Span}
    (hok : (Literal.fromStr sm src).2 = .ok (repr, span)) :
    repr = src ∧ span = ⟨base texts texts.length, base texts texts.length + src.length⟩ := by
  obtain ⟨-, e, -, -, hb⟩ := h.fromStr hr
  rw [e, literalFromStrAt_eq hb] at hok
  split at hok
  · simp at hok; exact ⟨hok.1.symm, hok.2.symm⟩
  · simp at hok

theorem litAccepts_iff (src : List Char) : P.litAccepts src = true ↔
    P.literal src = some [] ∨
      ∃ d u, src = '-' :: d :: u ∧ ('0' ≤ d ∧ d ≤ '9') ∧ P.literal (d :: u) = some [] := by
  unfold P.litAccepts
  split
  · rename_i d u
    rw [P.literal_minus]
    simp only [isDecDigit, Bool.and_eq_true, decide_eq_true_eq, beq_iff_eq]
    constructor
    · rintro ⟨h1, h2⟩; exact .inr ⟨d, u, rfl, h1, h2⟩
    · rintro (h | ⟨d', u', h, h1, h2⟩)
      · simp at h
      · simp at h; obtain ⟨rfl, rfl⟩ := h; exact ⟨h1, h2⟩
  · rename_i hne
    simp only [beq_iff_eq]
    constructor
    · exact .inl
    · rintro (h | ⟨d, u, rfl, -⟩)
      · exact h
      · exact absurd rfl (hne d u)

end

section
variable [UnicodeTables] [LawfulUnicode]

theorem literal_one_iff {src : List Char} {off : Nat} (hb : off + src.length < u32Size)
    (hne : src ≠ errorRepr) :
    P.literal src = some [] ↔
      fromStrAt src off = .ok [.literal src ⟨off, off + src.length⟩] := by
  rw [fromStrAt_ok_iff hb]
  have hE : off + src.length - src.length = off := by omega
  constructor
  · intro h
    have hl : P.leaf src = some (.literal src, []) := by
      unfold P.leaf; rw [h]; simp [P.eaten]
    have hbom : P.stripBom src = src := by
      unfold P.stripBom
      rw [if_neg]
      obtain ⟨c, u, rfl, hc⟩ := P.literal_head h
      intro hp
      obtain ⟨v, hv⟩ := startsWith_iff.mp hp
      simp at hv
      obtain ⟨rfl, -⟩ := hv
      exact absurd hc (by decide)
    rw [hbom]
    have := P.lex_single (E := off + src.length) hl
    rw [hE] at this
    exact this
  · intro h
    generalize hts : [TokenTree.literal src ⟨off, off + src.length⟩] = ts at h
    cases h with
    | eof => simp at hts
    | cls => simp at hts
    | @doc _ content inner s1 r ts' _ hn h' =>
      cases inner <;> simp [P.docTokens] at hts
    | @group _ d s1 r inner c r1 ts' _ hn h1 hc h2 => simp at hts
    | @leaf _ l s1 r ts' _ hn h' =>
      simp only [List.cons.injEq] at hts
      obtain ⟨h1, rfl⟩ := hts
      have hl := (P.next_leaf hn).1
      have hf := P.next_facts (P.stripBom src)
      rw [hn] at hf
      have hlen1 : s1.length ≤ src.length := by
        rw [hf.1]
        have h1 := (P.skipWs_suffix (P.stripBom src)).length_le
        have h2 : (P.stripBom src).length ≤ src.length := by
          unfold P.stripBom; split <;> simp
        omega
      cases l with
      | ident => simp [P.Leaf.tok] at h1
      | punct => simp [P.Leaf.tok] at h1
      | literal repr =>
        simp [P.Leaf.tok] at h1
        obtain ⟨rfl, -⟩ := h1
        obtain ⟨x, e, hx⟩ := P.leaf_spec hl ⟨0, 0⟩
        cases hx
        have hlen2 : s1.length = src.length + r.length := by rw [e]; simp
        have hr : r = [] := List.eq_nil_of_length_eq_zero (by omega)
        subst hr
        simp at e
        subst e
        unfold P.leaf at hl
        cases h1 : P.literal s1 with
        | some v => rw [h1] at hl; simp at hl; rw [hl.2]
        | none =>
          exfalso
          rw [h1] at hl
          simp only at hl
          cases h2 : P.punct s1 with
          | some v => rw [h2] at hl; simp at hl
          | none =>
            cases h3 : P.ident s1 with
            | some v => rw [h2, h3] at hl; simp at hl
            | none =>
              rw [h2, h3] at hl
              simp at hl
              exact hne hl.2.1.symm

/-- **C25**, acceptance: `Literal::from_str` accepts a text exactly when parsing the text as a token
stream gives one literal token whose text is the whole text, or the text is `-` directly before a
digit at which such a literal token starts. (The compiler's `(/*ERROR*/)` placeholder is a literal
token but not a literal.) -/
theorem C25_accepts_iff {sm : SourceMap} {texts : List (List Char)} (h : History sm texts)
    {src : List Char} (hr : Room texts src) (hne : src ≠ "(/*ERROR*/)".toList) :
    (∃ l, (Literal.fromStr sm src).2 = .ok l) ↔
      (∃ span, (TokenStream.fromStr sm src).2 = .ok [.literal src span]) ∨
      (∃ d u span, src = '-' :: d :: u ∧ ('0' ≤ d ∧ d ≤ '9') ∧
        (TokenStream.fromStr sm (d :: u)).2 = .ok [.literal (d :: u) span]) := by
  obtain ⟨e1, e2, -, -, hb⟩ := h.fromStr hr
  have hacc : (∃ l, (Literal.fromStr sm src).2 = .ok l) ↔ P.litAccepts src = true := by
    rw [e2, literalFromStrAt_eq hb]
    cases P.litAccepts src <;> simp
  have honly : ∀ (s : List Char) (sp : Span), base texts texts.length + s.length < u32Size →
      fromStrAt s (base texts texts.length) = .ok [.literal s sp] →
      sp = ⟨base texts texts.length, base texts texts.length + s.length⟩ := by
    intro s sp hb' hf
    rw [fromStrAt_ok_iff hb'] at hf
    generalize hts : [TokenTree.literal s sp] = ts at hf
    cases hf with
    | eof => simp at hts
    | cls => simp at hts
    | @doc _ content inner s1 r ts' _ hn h' => cases inner <;> simp [P.docTokens] at hts
    | @group _ d s1 r inner c r1 ts' _ hn h1 hc h2 => simp at hts
    | @leaf _ l s1 r ts' _ hn h' =>
      simp only [List.cons.injEq] at hts
      obtain ⟨h1, rfl⟩ := hts
      have hf := P.next_facts (P.stripBom s)
      rw [hn] at hf
      have hlen1 : s1.length ≤ s.length := by
        rw [hf.1]
        have h1 := (P.skipWs_suffix (P.stripBom s)).length_le
        have h2 : (P.stripBom s).length ≤ s.length := by
          unfold P.stripBom; split <;> simp
        omega
      cases l with
      | ident => simp [P.Leaf.tok] at h1
      | punct => simp [P.Leaf.tok] at h1
      | literal repr =>
        simp [P.Leaf.tok] at h1
        obtain ⟨rfl, rfl⟩ := h1
        obtain ⟨x, e, hx⟩ := P.leaf_spec (P.next_leaf hn).1 ⟨0, 0⟩
        cases hx
        have hlen2 : s1.length = s.length + r.length := by rw [e]; simp
        congr 1 <;> omega
  rw [hacc, litAccepts_iff, e1]
  have hone : P.literal src = some [] ↔
      ∃ span, fromStrAt src (base texts texts.length) = .ok [.literal src span] := by
    rw [literal_one_iff hb hne]
    constructor
    · exact fun h => ⟨_, h⟩
    · rintro ⟨sp, hsp⟩
      rw [honly src sp hb hsp] at hsp
      exact hsp
  rw [hone]
  apply or_congr Iff.rfl
  constructor
  · rintro ⟨d, u, e, hd, hl⟩
    have hlen : src.length = (d :: u).length + 1 := by rw [e]; rfl
    have hr' : Room texts (d :: u) := by unfold Room at hr ⊢; omega
    obtain ⟨e1', -, -, -, hb'⟩ := h.fromStr hr'
    refine ⟨d, u, ⟨base texts texts.length, base texts texts.length + (d :: u).length⟩, e, hd, ?_⟩
    rw [e1']
    refine (literal_one_iff hb' ?_).mp hl
    rintro heq
    simp [errorRepr] at heq
    rw [heq.1] at hd
    exact absurd hd (by decide)
  · rintro ⟨d, u, sp, e, hd, hl⟩
    have hlen : src.length = (d :: u).length + 1 := by rw [e]; rfl
    have hr' : Room texts (d :: u) := by unfold Room at hr ⊢; omega
    obtain ⟨e1', -, -, -, hb'⟩ := h.fromStr hr'
    refine ⟨d, u, e, hd, ?_⟩
    rw [e1'] at hl
    rw [honly _ sp hb' hl] at hl
    refine (literal_one_iff hb' ?_).mpr hl
    rintro heq
    simp [errorRepr] at heq
    rw [heq.1] at hd
    exact absurd hd (by decide)

end

/-! ### The hypotheses are satisfiable -/

section
attribute [local instance] sampleTables
attribute [local instance] sampleTables_lawful

/-- A thread that has parsed `a` and the ill-formed `(`. -/
example : History
    (TokenStream.fromStr (TokenStream.fromStr SourceMap.init "a".toList).1 "(".toList).1
    ["a".toList, "(".toList] := by
  have h1 := History.parse "a".toList History.init (by decide)
  rw [if_pos (by decide)] at h1
  have h2 := History.parse "(".toList h1 (by decide)
  rw [if_pos (by decide)] at h2
  exact h2

example : Room ["a".toList, "(".toList] "b+1".toList := by decide

example : (Literal.fromStr SourceMap.init "-1u8".toList).2 = .ok ("-1u8".toList, ⟨1, 5⟩) := by rfl
example : (Literal.fromStr SourceMap.init " 1".toList).2 = .err ⟨0, 0⟩ := by rfl
example : (Literal.fromStr SourceMap.init "1 ".toList).2 = .err ⟨0, 0⟩ := by rfl

end

end PM2.Props
