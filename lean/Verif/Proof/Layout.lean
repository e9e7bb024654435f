import Verif.Proof.Trunc
import Verif.Proof.Context
import Verif.Spec.Layout
/-!
# Written token streams are lexed back
-/

set_option linter.unusedSectionVars false

namespace PM2
open Spec

section
variable [UnicodeTables] [LawfulUnicode]

theorem punctChars_eq : ∀ c, c ∈ punctChars ↔ c ∈ recognizedPunct := by
  have h1 : ∀ c ∈ punctChars, c ∈ recognizedPunct := by decide +kernel
  have h2 : ∀ c ∈ recognizedPunct, c ∈ punctChars := by decide +kernel
  exact fun c => ⟨h1 c, h2 c⟩

theorem punct_not_continue {c : Char} (h : c ∈ recognizedPunct) : isIdentContinue c = false := by
  have : ∀ c ∈ recognizedPunct, c.toNat < 128 ∧ (c.isAlphanum || c == '_') = false := by decide
  exact continue_not (this c h).1 (this c h).2

/-! ### Identifiers -/

/-- the text ends an identifier and does not make it something else -/
def IdentEnd (w : List Char) : Prop := ∀ c w', w = c :: w' →
  isIdentContinue c = false ∧ c ≠ '"' ∧ c ≠ '\'' ∧ c ≠ '#'

theorem P.Bd.identEnd {w : List Char} (h : P.Bd w) : IdentEnd w := by
  rintro c w' rfl
  exact ⟨h.head.1, h.ne (.inr (.inl rfl)), h.ne (.inr (.inr (by decide))),
    h.ne (.inr (.inr (by decide)))⟩

/-- the first character of a text that does not continue a word -/
theorem word_unique {l l' u u' : List Char} {q q' : Char} (hl : ∀ d ∈ l, isIdentContinue d = true)
    (hl' : ∀ d ∈ l', isIdentContinue d = true) (hq : isIdentContinue q = false)
    (hq' : isIdentContinue q' = false) (h : l ++ q :: u = l' ++ q' :: u') : l = l' ∧ q = q' ∧ u = u' := by
  induction l generalizing l' with
  | nil =>
    cases l' with
    | nil => simpa using h
    | cons c l' => simp at h; rw [h.1, hl' c (by simp)] at hq; simp at hq
  | cons c l ih =>
    cases l' with
    | nil => simp at h; rw [← h.1, hl c (by simp)] at hq'; simp at hq'
    | cons c' l' =>
      simp at h
      obtain ⟨h1, h2, h3⟩ := ih (fun d hd => hl d (by simp [hd])) (fun d hd => hl' d (by simp [hd])) h.2
      exact ⟨by rw [h.1, h1], h2, h3⟩

theorem Spec.ValidIdent.continue {sym : List Char} (h : ValidIdent sym) :
    ∀ d ∈ sym, isIdentContinue d = true := by
  obtain ⟨c, t, rfl, h1, h2⟩ := h
  intro d hd
  rcases List.mem_cons.mp hd with rfl | hd
  · exact identStart_continue h1
  · exact h2 d hd

/-- a word that is followed by nothing that could belong to it does not begin like anything with a
quote or a hash -/
theorem ident_no_prefix {sym w p : List Char} {q : Char} (h : ValidIdent sym) (hw : IdentEnd w)
    (hp : ∀ d ∈ p, isIdentContinue d = true) (hq : q = '"' ∨ q = '\'' ∨ q = '#') :
    ¬ p ++ [q] <+: sym ++ w := by
  rintro ⟨u, hu⟩
  have hqc : isIdentContinue q = false := by
    rcases hq with rfl | rfl | rfl <;> exact continue_not (by decide) (by decide)
  cases w with
  | nil =>
    have : q ∈ sym := by
      rw [List.append_nil] at hu; rw [← hu]; simp
    rw [h.continue q this] at hqc
    simp at hqc
  | cons c w =>
    obtain ⟨h1, h2, h3, h4⟩ := hw c w rfl
    have := word_unique (l := p) (l' := sym) (q := q) (q' := c) (u := u) (u' := w) hp h.continue hqc h1
      (by simpa using hu)
    rcases hq with rfl | rfl | rfl
    · exact h2 this.2.1.symm
    · exact h3 this.2.1.symm
    · exact h4 this.2.1.symm

theorem identStart_not_digit {c : Char} (h : isIdentStart c = true) : ¬ ('0' ≤ c ∧ c ≤ '9') := by
  rintro ⟨h1, h2⟩
  have h1 := charLe.mp h1
  have h2 := charLe.mp h2
  have h48 : 48 ≤ c.toNat := h1
  have h57 : c.toNat ≤ 57 := h2
  rcases (identStart_facts h).2 (by omega) with h3 | h3
  · have := isAlpha_nat h3; omega
  · subst h3; simp at h57

theorem strStart_cases {k : StrKind} {s : List Char} (h : StrStart k s) :
    ∃ p q, p ++ [q] <+: s ∧ p ∈ [[], ['r'], ['b'], ['c'], ['b', 'r'], ['c', 'r']] ∧ (q = '"' ∨ q = '#') := by
  rcases h with h | h | h <;> cases k
  · exact ⟨[], '"', h, by simp, by simp⟩
  · exact ⟨['b'], '"', h, by simp, by simp⟩
  · exact ⟨['c'], '"', h, by simp, by simp⟩
  · exact ⟨['r'], '"', h, by simp, by simp⟩
  · exact ⟨['b', 'r'], '"', h, by simp, by simp⟩
  · exact ⟨['c', 'r'], '"', h, by simp, by simp⟩
  · exact ⟨['r'], '#', h, by simp, by simp⟩
  · exact ⟨['b', 'r'], '#', h, by simp, by simp⟩
  · exact ⟨['c', 'r'], '#', h, by simp, by simp⟩

theorem letters_continue {p : List Char} (h : p ∈ [[], ['r'], ['b'], ['c'], ['b', 'r'], ['c', 'r']]) :
    ∀ d ∈ p, isIdentContinue d = true := by
  have : ∀ p ∈ [[], ['r'], ['b'], ['c'], ['b', 'r'], ['c', 'r']], ∀ d ∈ p,
      d = 'r' ∨ d = 'b' ∨ d = 'c' := by decide
  intro d hd
  rcases this p h d hd with rfl | rfl | rfl <;> exact continue_of_nat (by decide)

/-- an identifier is not a literal -/
theorem ident_not_literal {sym w : List Char} (h : ValidIdent sym) (hw : IdentEnd w) :
    P.literal (sym ++ w) = none := by
  cases hl : P.literal (sym ++ w) with
  | none => rfl
  | some r =>
    exfalso
    rcases literal_shape' hl with ⟨x, m, e, hq, -⟩ | ⟨d, u, e, hd⟩
    · cases hq with
      | @str k x hx =>
        have hs := StrText.start hx m
        rw [← e] at hs
        obtain ⟨p, q, h1, h2, h3⟩ := strStart_cases hs
        refine ident_no_prefix h hw (letters_continue h2) ?_ h1
        rcases h3 with h3 | h3 <;> simp [h3]
      | byte he =>
        refine ident_no_prefix (p := ['b']) (q := '\'') h hw (letters_continue (by simp)) (by simp) ?_
        rw [e]
        exact ⟨_, by simp; rfl⟩
      | char he =>
        refine ident_no_prefix (p := []) (q := '\'') h hw (letters_continue (by simp)) (by simp) ?_
        rw [e]
        exact ⟨_, by simp; rfl⟩
    · obtain ⟨c, t, rfl, hc, -⟩ := h
      simp at e
      rw [← e.1] at hd
      exact identStart_not_digit hc hd

theorem raw_not_literal {sym w : List Char} (h : ValidIdent sym) :
    P.literal ('r' :: '#' :: (sym ++ w)) = none := by
  obtain ⟨c, t, rfl, hc, -⟩ := h
  have hne : c ≠ '"' ∧ c ≠ '#' := by
    have := (identStart_facts hc).2
    constructor <;> (rintro rfl; revert this; decide)
  cases hl : P.literal ('r' :: '#' :: (c :: t ++ w)) with
  | none => rfl
  | some r =>
    exfalso
    rcases literal_shape' hl with ⟨x, m, e, hq, -⟩ | ⟨d, u, e, hd⟩
    · cases hq with
      | @str k x hx =>
        cases hx with
        | cooked hb => cases k <;> simp [kindPrefix] at e
        | @raw n b hn hb =>
          cases k with
          | str =>
            match n, e with
            | 0, e => simp [kindPrefix] at e
            | 1, e => simp [kindPrefix] at e; exact hne.1 e.1
            | n + 2, e => simp [kindPrefix, List.replicate_succ] at e; exact hne.2 e.1
          | byte => simp [kindPrefix] at e
          | c => simp [kindPrefix] at e
      | byte he => simp at e
      | char he => simp at e
    · simp at e
      rw [← e.1] at hd
      exact absurd hd (by decide)

theorem identStart_not_punct {c : Char} (h : isIdentStart c = true) : c ∉ recognizedPunct := by
  intro hc
  have := punct_not_continue hc
  rw [identStart_continue h] at this
  simp at this

theorem ident_not_punct {c : Char} {s : List Char} (h : isIdentStart c = true) :
    P.punct (c :: s) = none ∧ P.punctChar (c :: s) = none := by
  have h2 : P.punctChar (c :: s) = none := by
    cases hp : P.punctChar (c :: s) with
    | none => rfl
    | some y =>
      obtain ⟨c', r⟩ := y
      obtain ⟨e, h1, -⟩ := P.punctChar_spec.mp hp
      simp at e
      rw [← e.1] at h1
      exact absurd h1 (identStart_not_punct h)
  refine ⟨?_, h2⟩
  unfold P.punct
  rw [h2]

theorem stop_of_identEnd {w : List Char} (h : IdentEnd w) : P.Stop w := fun c w' e => (h c w' e).1

theorem identAny_plain {sym w : List Char} (h : ValidIdent sym) (hw : P.Stop w)
    (hr : ¬ ['r', '#'] <+: sym ++ w) : P.identAny (sym ++ w) = some (sym, false, w) := by
  unfold P.identAny
  rw [if_neg (fun hh => hr (startsWith_iff_prefix.mp hh)), P.identNotRaw_stop h hw]

theorem nonRawable_iff {sym : List Char} : isNonRawable sym = true ↔ sym ∈ neverRaw := by
  unfold isNonRawable
  have : neverRaw = [['_'], ['s', 'e', 'l', 'f'], ['S', 'e', 'l', 'f'], ['s', 'u', 'p', 'e', 'r'],
    ['c', 'r', 'a', 't', 'e']] := by decide +kernel
  rw [this]
  simp only [Bool.or_eq_true, beq_iff_eq, List.mem_cons, List.not_mem_nil, or_false]
  constructor
  · rintro ((((h | h) | h) | h) | h) <;> simp [h]
  · rintro (h | h | h | h | h) <;> simp [h]

theorem identAny_raw {sym w : List Char} (h : ValidIdent sym) (hw : P.Stop w) (hr : sym ∉ neverRaw) :
    P.identAny ('r' :: '#' :: (sym ++ w)) = some (sym, true, w) := by
  unfold P.identAny
  rw [if_pos (startsWith_iff_prefix.mpr (show ['r', '#'] <+: 'r' :: '#' :: (sym ++ w) from ⟨_, rfl⟩))]
  simp only [List.drop_succ_cons, List.drop_zero]
  rw [P.identNotRaw_stop h hw]
  simp only
  rw [if_neg (fun hh => hr (nonRawable_iff.mp hh))]

/-- A written identifier is lexed back. -/
theorem leaf_written_ident {sym w : List Char} {raw : Bool} (h : ValidIdent sym)
    (hr : raw = true → sym ∉ neverRaw) (hw : IdentEnd w) :
    P.leaf ((if raw then ['r', '#'] else []) ++ sym ++ w) = some (.ident sym raw, w) := by
  cases raw with
  | false =>
    simp only [Bool.false_eq_true, if_false, List.nil_append]
    have hp : P.punct (sym ++ w) = none := by
      obtain ⟨c, t, rfl, hc, -⟩ := h
      exact (ident_not_punct hc).1
    have hi : P.ident (sym ++ w) = some (sym, false, w) := by
      unfold P.ident
      rw [if_neg, identAny_plain h (stop_of_identEnd hw)
        (ident_no_prefix (p := ['r']) (q := '#') h hw (letters_continue (by simp)) (by simp))]
      rw [List.any_eq_true]
      rintro ⟨p, hp, h1⟩
      have h1 := startsWith_iff_prefix.mp h1
      have : ∀ p ∈ identRejectPrefixes, ∃ l q u, p = l ++ [q] ++ u ∧
          l ∈ [[], ['r'], ['b'], ['c'], ['b', 'r'], ['c', 'r']] ∧ (q = '"' ∨ q = '\'' ∨ q = '#') := by
        intro p hp
        simp [identRejectPrefixes] at hp
        rcases hp with rfl | rfl | rfl | rfl | rfl | rfl | rfl | rfl | rfl | rfl
        · exact ⟨['r'], '"', [], rfl, by simp, by simp⟩
        · exact ⟨['r'], '#', ['"'], rfl, by simp, by simp⟩
        · exact ⟨['r'], '#', ['#'], rfl, by simp, by simp⟩
        · exact ⟨['b'], '"', [], rfl, by simp, by simp⟩
        · exact ⟨['b'], '\'', [], rfl, by simp, by simp⟩
        · exact ⟨['b', 'r'], '"', [], rfl, by simp, by simp⟩
        · exact ⟨['b', 'r'], '#', [], rfl, by simp, by simp⟩
        · exact ⟨['c'], '"', [], rfl, by simp, by simp⟩
        · exact ⟨['c', 'r'], '"', [], rfl, by simp, by simp⟩
        · exact ⟨['c', 'r'], '#', [], rfl, by simp, by simp⟩
      obtain ⟨l, q, u, rfl, hl, hq⟩ := this p hp
      exact ident_no_prefix h hw (letters_continue hl) hq ((List.prefix_append _ u).trans h1)
    unfold P.leaf
    rw [ident_not_literal h hw, hp, hi]
  | true =>
    simp only [if_true, List.cons_append, List.nil_append]
    have hp : P.punct ('r' :: '#' :: (sym ++ w)) = none := (ident_not_punct (by
      show isIdentStart 'r' = true
      simp only [isIdentStart, Bool.or_eq_true]
      right
      show xidStart 'r' = true
      rw [LawfulUnicode.start_ascii _ (by decide)]; decide)).1
    have hi : P.ident ('r' :: '#' :: (sym ++ w)) = some (sym, true, w) := by
      unfold P.ident
      rw [if_neg, identAny_raw h (stop_of_identEnd hw) (hr rfl)]
      rw [List.any_eq_true]
      rintro ⟨p, hpm, h1⟩
      have h1 := startsWith_iff_prefix.mp h1
      obtain ⟨c, t, rfl, hc, -⟩ := h
      have hne : c ≠ '"' ∧ c ≠ '#' := by
        have := (identStart_facts hc).2
        constructor <;> (rintro rfl; revert this; decide)
      simp only [identRejectPrefixes, List.mem_cons, List.not_mem_nil, or_false] at hpm
      rcases hpm with rfl | rfl | rfl | rfl | rfl | rfl | rfl | rfl | rfl | rfl <;> simp at h1
      · exact hne.1 h1.symm
      · exact hne.2 h1.symm
    unfold P.leaf
    rw [raw_not_literal h, hp, hi]

/-! ### Literals -/

/-- the texts lexed as one literal -/
def LitLex (x : List Char) : Prop := x = errorText ∨ P.literal x = some []

/-- well-formed streams, with the literals described by the lexer -/
abbrev WFL (ts : List TokenTree) : Prop := WFOf LitLex ts

theorem Spec.WFOf.mono {L L' : List Char → Prop} (hL : ∀ x, L x → L' x) {ts : List TokenTree}
    (h : WFOf L ts) : WFOf L' ts := by
  induction h with
  | nil => exact .nil
  | ident h1 h2 _ ih => exact .ident h1 h2 ih
  | literal h1 _ ih => exact .literal (hL _ h1) ih
  | group h1 _ _ ih1 ih2 => exact .group h1 ih1 ih2
  | punct h1 h2 h3 _ ih => exact .punct h1 h2 h3 ih
  | quote h1 _ ih => exact .quote h1 ih

theorem leaf_written_literal {x w : List Char} (h : LitLex x) (hw : P.BdL w) :
    P.leaf (x ++ w) = some (.literal x, w) := by
  rcases h with rfl | hl
  · rw [errorText_eq]
    have h1 : P.literal (errorRepr ++ w) = none := by
      cases hl : P.literal (errorRepr ++ w) with
      | none => rfl
      | some r =>
        obtain ⟨c, u, e, hc⟩ := P.literal_head hl
        simp [errorRepr] at e
        rw [← e.1] at hc
        exact absurd hc (by decide)
    have h2 : P.punct (errorRepr ++ w) = none := by
      cases hp : P.punct (errorRepr ++ w) with
      | none => rfl
      | some y =>
        obtain ⟨c, sp, r⟩ := y
        obtain ⟨e, hc, -⟩ := P.punct_spec hp
        simp [errorRepr] at e
        rw [← e.1] at hc
        exact absurd hc (by decide)
    have h3 : P.ident (errorRepr ++ w) = none := by
      cases hp : P.ident (errorRepr ++ w) with
      | none => rfl
      | some y =>
        exfalso
        obtain ⟨sym, raw, r⟩ := y
        unfold P.ident at hp
        split at hp
        · simp at hp
        · obtain ⟨e, ⟨c, t, rfl, hc, -⟩, -⟩ := identAny_spec hp
          have hne : c ≠ '(' := (tokStart_ident hc).1.2.1
          cases raw
          · simp [errorRepr] at e; exact hne e.1.symm
          · simp [errorRepr] at e
    unfold P.leaf
    rw [h1, h2, h3]
    simp only
    rw [if_pos (startsWith_iff.mpr ⟨w, rfl⟩)]
    simp
  · unfold P.leaf
    rw [P.literal_ext hw hl]
    simp [P.eaten]

/-! ### Puncts -/

theorem punct_not_literal {c : Char} {w : List Char} (h : c ∈ recognizedPunct) (hc : c ≠ '\'') :
    P.literal (c :: w) = none := by
  cases hl : P.literal (c :: w) with
  | none => rfl
  | some r =>
    obtain ⟨d, u, e, hd⟩ := P.literal_head hl
    simp at e
    rw [← e.1] at hd
    have : ∀ c ∈ recognizedPunct, c ≠ '\'' → ¬ (c = '"' ∨ c = 'r' ∨ c = 'b' ∨ c = 'c' ∨ c = '\'' ∨
      isDecDigit c = true) := by decide
    exact absurd hd (this c h hc)

theorem punctChar_written {c : Char} {w : List Char} (h : c ∈ recognizedPunct)
    (hs : c = '/' → w.head? ≠ some '/' ∧ w.head? ≠ some '*') : P.punctChar (c :: w) = some (c, w) := by
  refine P.punctChar_spec.mpr ⟨rfl, h, ?_, ?_⟩
  · rintro ⟨u, hu⟩
    simp at hu
    exact (hs hu.1.symm).1 (by rw [← hu.2]; rfl)
  · rintro ⟨u, hu⟩
    simp at hu
    exact (hs hu.1.symm).2 (by rw [← hu.2]; rfl)

theorem leaf_written_punct {c : Char} {w : List Char} (h : c ∈ recognizedPunct) (hc : c ≠ '\'')
    (hs : c = '/' → w.head? ≠ some '/' ∧ w.head? ≠ some '*') :
    P.leaf (c :: w) = some (.punct c (if (P.punctChar w).isSome then .joint else .alone), w) := by
  unfold P.leaf
  rw [punct_not_literal h hc]
  unfold P.punct
  rw [punctChar_written h hs]
  simp [hc]

/-- A quote in front of an identifier. -/
theorem leaf_written_quote {s sym after : List Char} {raw : Bool} (hi : P.identAny s = some (sym, raw, after))
    (h1 : after.head? ≠ some '\'') (h2 : raw = false → after.head? ≠ some '#') :
    P.leaf ('\'' :: s) = some (.punct '\'' .joint, s) := by
  obtain ⟨e, ⟨c, t, rfl, hc, ht⟩, hst, -, hraw⟩ := identAny_spec hi
  have hsw : ∀ {l : List Char} {d : Char}, l.head? ≠ some d → startsWithChar l d = false := by
    intro l d hh
    cases l with
    | nil => rfl
    | cons a l => simp at hh; simp [startsWithChar, hh]
  have hlit : P.literal ('\'' :: s) = none := by
    cases hl : P.literal ('\'' :: s) with
    | none => rfl
    | some r =>
      exfalso
      rcases literal_shape' hl with ⟨x, m, e', hq, -⟩ | ⟨d, u, e', hd⟩
      · cases hq with
        | @str k x hx =>
          have hs := StrText.start hx m
          rw [← e'] at hs
          exact (StrStart.not_digit hs).2.1 rfl
        | byte he => simp at e'
        | @char el he =>
          simp at e'
          have hc2 : c ≠ '\\' := by
            have := (identStart_facts hc).2
            rintro rfl; revert this; decide
          cases raw with
          | true =>
            rw [e] at e'
            cases he <;> simp at e'
          | false =>
            simp at e
            rw [e] at e'
            cases he with
            | char =>
              simp at e'
              cases t with
              | nil => simp at e'; rw [e'.2] at h1; simp at h1
              | cons d t =>
                simp at e'
                have := ht d (by simp)
                rw [e'.2.1, continue_not (by decide) (by decide)] at this
                simp at this
            | simple => simp at e'; exact hc2 e'.1
            | hex => simp at e'; exact hc2 e'.1
            | uni => simp at e'; exact hc2 e'.1
      · simp at e'
        rw [← e'.1] at hd
        exact absurd hd (by decide)
  unfold P.leaf
  rw [hlit]
  unfold P.punct
  rw [punctChar_written (by decide) (fun h => absurd h (by decide))]
  simp only [if_true, hi]
  rw [if_neg]
  simp only [Bool.or_eq_true, Bool.and_eq_true, not_or, Bool.not_eq_true]
  refine ⟨hsw h1, ?_⟩
  rintro ⟨h3, h4⟩
  cases raw with
  | false => rw [hsw (h2 rfl)] at h3; simp at h3
  | true =>
    rw [e] at h4
    simp [startsWith] at h4

/-! ### Streams -/

/-- what can follow the tokens of one level: the end of the text or a closing delimiter -/
def Follow (r : List Char) : Prop := r = [] ∨ ∃ c r', r = c :: r' ∧ c ∈ closers

theorem Follow.bd {r : List Char} (h : Follow r) : P.Bd r := by
  rcases h with rfl | ⟨c, r', rfl, h⟩
  · exact bd_nil
  · exact bd_close h _

theorem bd_open {c : Char} (h : c ∈ ['(', '[', '{']) (w : List Char) : P.Bd (c :: w) := by
  rintro d w' e
  simp at e
  obtain ⟨rfl, -⟩ := e
  simp at h
  rcases h with rfl | rfl | rfl <;>
    exact ⟨continue_not (by decide) (by decide), by decide, .inl (by decide)⟩

theorem delimChars_cases {d : Delimiter} {o c : Char} (h : delimChars d = some (o, c)) :
    o ∈ ['(', '[', '{'] ∧ c ∈ closers ∧ P.closeD c = some d ∧
      (d = .parenthesis → o = '(') ∧ ∀ s, (d = .parenthesis → startsWith s errorRepr = false) →
        P.openD s o = some d := by
  cases d <;> simp [delimChars] at h <;> obtain ⟨rfl, rfl⟩ := h <;>
    refine ⟨by decide, by decide, by decide, by decide, fun s hs => ?_⟩
  · simp [P.openD, hs rfl]
  · simp [P.openD]
  · simp [P.openD]

/-- the first token of a written stream -/
theorem Spec.Spaced.first {ts : List TokenTree} {s r : List Char} (h : Spaced ts s r) :
    (ts = [] ∧ s = []) ∨
    (∃ d inner span ts' o s', ts = .group d inner span :: ts' ∧ s = o :: s' ∧ o ∈ ['(', '[', '{']) ∨
    (∃ tok x t s' ts', ts = tok :: ts' ∧ s = x ++ (t ++ s') ∧ LeafText tok x ∧ Gap tok t ts' ∧
      Trivia t (s' ++ r) ∧ Spaced ts' s' r) := by
  cases h with
  | nil => exact .inl ⟨rfl, rfl⟩
  | leaf h1 h2 h3 h4 => exact .inr (.inr ⟨_, _, _, _, _, rfl, rfl, h1, h2, h3, h4⟩)
  | group h1 => exact .inr (.inl ⟨_, _, _, _, _, _, rfl, rfl, (delimChars_cases h1).1⟩)

theorem Spec.LeafText.inv {tok : TokenTree} {x : List Char} (h : LeafText tok x) :
    (∃ sym raw span, tok = .ident sym raw span ∧ x = (if raw then ['r', '#'] else []) ++ sym) ∨
    (∃ c sp span, tok = .punct c sp span ∧ x = [c]) ∨
    (∃ span, tok = .literal x span) := by
  cases h with
  | ident => exact .inl ⟨_, false, _, rfl, by simp⟩
  | raw => exact .inl ⟨_, true, _, rfl, by simp⟩
  | punct => exact .inr (.inl ⟨_, _, _, rfl, rfl⟩)
  | literal => exact .inr (.inr ⟨_, rfl⟩)

/-- what follows a token that has a gap behind it, or is the last one, or is followed by a group -/
theorem gap_bd {t s r : List Char} {ts : List TokenTree} (h : Spaced ts s r) (ht : Trivia t (s ++ r))
    (hr : Follow r) (hc : ts = [] ∨ t ≠ [] ∨ ∃ d inner span ts', ts = .group d inner span :: ts') :
    P.Bd (t ++ (s ++ r)) := by
  by_cases hn : t = []
  · subst hn
    rcases h.first with ⟨rfl, rfl⟩ | ⟨d, inner, span, ts', o, s', rfl, rfl, ho⟩ |
      ⟨tok, x, t, s', ts', rfl, rfl, h1, -⟩
    · exact hr.bd
    · exact bd_open ho _
    · rcases hc with hc | hc | ⟨d, inner, span, ts'', e⟩
      · simp at hc
      · exact absurd rfl hc
      · simp at e
        rw [e.1] at h1
        cases h1
  · exact bd_trivia ht hn

theorem Spec.Gap.cases {tok : TokenTree} {t : List Char} {ts : List TokenTree} (h : Gap tok t ts)
    (hj : ¬ IsJoint tok) : ts = [] ∨ t ≠ [] ∨ (t = [] ∧ ∃ tok' ts', ts = tok' :: ts' ∧ MayTouch tok tok') := by
  cases ts with
  | nil => exact .inl rfl
  | cons tok' ts' =>
    by_cases ht : t = []
    · rcases h.apart hj tok' ts' rfl with h1 | h1
      · exact absurd ht h1
      · exact .inr (.inr ⟨ht, tok', ts', rfl, h1⟩)
    · exact .inr (.inl ht)

/-- an identifier in a written stream ends -/
theorem ident_end {sym t s r : List Char} {raw : Bool} {span : Span} {ts : List TokenTree}
    (hw : WFL ts) (hg : Gap (.ident sym raw span) t ts) (ht : Trivia t (s ++ r)) (h : Spaced ts s r)
    (hr : Follow r) : IdentEnd (t ++ (s ++ r)) := by
  rcases hg.cases (by simp [IsJoint]) with h1 | h1 | ⟨rfl, tok', ts', rfl, h1⟩
  · exact (gap_bd h ht hr (.inl h1)).identEnd
  · exact (gap_bd h ht hr (.inr (.inl h1))).identEnd
  · cases h1 with
    | beforeGroup => exact (gap_bd h ht hr (.inr (.inr ⟨_, _, _, _, rfl⟩))).identEnd
    | identPunct hc1 hc2 =>
      cases h with
      | leaf hx =>
        cases hx
        have hc : ∀ {c sp span ts}, WFL (.punct c sp span :: ts) → c ∈ recognizedPunct := by
          intro c sp span ts hw
          cases hw with
          | punct h1 => exact (punctChars_eq _).mp h1
          | quote => decide
        have hc := hc hw
        rintro d w' e
        simp at e
        obtain ⟨rfl, -⟩ := e
        refine ⟨punct_not_continue hc, ?_, hc1, hc2⟩
        rintro rfl
        exact absurd hc (by decide)

theorem wf_punct {c : Char} {sp : Spacing} {span : Span} {ts : List TokenTree}
    (h : WFL (.punct c sp span :: ts)) : c ∈ recognizedPunct := by
  cases h with
  | punct h1 => exact (punctChars_eq _).mp h1
  | quote => decide

theorem literal_end {x t s r : List Char} {span : Span} {ts : List TokenTree}
    (hw : WFL ts) (hg : Gap (.literal x span) t ts) (ht : Trivia t (s ++ r)) (h : Spaced ts s r)
    (hr : Follow r) : P.BdL (t ++ (s ++ r)) := by
  rcases hg.cases (by simp [IsJoint]) with h1 | h1 | ⟨rfl, tok', ts', rfl, h1⟩
  · exact (gap_bd h ht hr (.inl h1)).lit
  · exact (gap_bd h ht hr (.inr (.inl h1))).lit
  · cases h1 with
    | beforeGroup => exact (gap_bd h ht hr (.inr (.inr ⟨_, _, _, _, rfl⟩))).lit
    | literalPunct hc1 hc2 hc3 =>
      cases h with
      | leaf hx =>
        cases hx
        have hc := wf_punct hw
        rintro d w' e
        simp at e
        obtain ⟨rfl, -⟩ := e
        refine ⟨punct_not_continue hc, ?_, by simp [hc1, hc2, hc3]⟩
        rintro rfl
        exact absurd hc (by decide)

theorem identText_head {sym : List Char} {raw : Bool} (h : ValidIdent sym) (w : List Char) :
    ∃ c u, (if raw then ['r', '#'] else []) ++ sym ++ w = c :: u ∧ isIdentStart c = true := by
  cases raw with
  | true =>
    refine ⟨'r', '#' :: (sym ++ w), by simp, ?_⟩
    simp only [isIdentStart, Bool.or_eq_true]
    right
    show xidStart 'r' = true
    rw [LawfulUnicode.start_ascii _ (by decide)]; decide
  | false =>
    obtain ⟨c, t, rfl, hc, -⟩ := h
    exact ⟨c, t ++ w, by simp, hc⟩

theorem litOk_head {x : List Char} (h : LitLex x) : ∃ c u, x = c :: u ∧
    (c ∈ recognizedPunct → c = '\'') := by
  rcases h with rfl | hl
  · exact ⟨'(', _, rfl, by decide⟩
  · obtain ⟨c, u, e, hc⟩ := P.literal_head hl
    refine ⟨c, u, e, fun hp => ?_⟩
    rcases hc with rfl | rfl | rfl | rfl | rfl | hc
    · exact absurd hp (by decide)
    · exact absurd hp (by decide)
    · exact absurd hp (by decide)
    · exact absurd hp (by decide)
    · rfl
    · have := punct_not_continue hp
      rw [continue_of_nat (.inl (isDecDigit_nat hc))] at this
      simp at this

/-- what follows an `Alone` punct -/
theorem alone_end {c : Char} {t s r : List Char} {span : Span} {ts : List TokenTree}
    (hw : WFL ts) (hg : Gap (.punct c .alone span) t ts) (ht : Trivia t (s ++ r)) (h : Spaced ts s r)
    (hr : Follow r) : P.punctChar (t ++ (s ++ r)) = none ∧
      (c = '/' → (t ++ (s ++ r)).head? ≠ some '/' ∧ (t ++ (s ++ r)).head? ≠ some '*') := by
  have hbd : P.Bd (t ++ (s ++ r)) → P.punctChar (t ++ (s ++ r)) = none ∧
      (c = '/' → (t ++ (s ++ r)).head? ≠ some '/' ∧ (t ++ (s ++ r)).head? ≠ some '*') := by
    intro hb
    refine ⟨P.punctChar_bd hb, ?_⟩
    rintro rfl
    constructor
    · intro hh
      cases t with
      | cons d t => exact hg.slash _ _ rfl (by simpa using hh)
      | nil =>
        rcases h.first with ⟨rfl, rfl⟩ | ⟨d, inner, span, ts', o, s', rfl, rfl, ho⟩ |
          ⟨tok, x, t, s', ts', rfl, rfl, h1, -⟩
        · rcases hr with rfl | ⟨e, r', rfl, he⟩
          · simp at hh
          · simp at hh; rw [hh] at he; exact absurd he (by decide)
        · simp at hh; rw [hh] at ho; exact absurd ho (by decide)
        · rcases hg.cases (by simp [IsJoint]) with h2 | h2 | ⟨-, tok', ts'', e, h2⟩
          · simp at h2
          · exact absurd rfl h2
          · simp at e
            obtain ⟨rfl, rfl⟩ := e
            rcases h1.inv with ⟨sym, raw, sp, rfl, rfl⟩ | ⟨c, sp, sp', rfl, rfl⟩ | ⟨sp, rfl⟩
            · cases hw with
              | ident hv =>
                obtain ⟨e, u, e1, he⟩ := identText_head (raw := raw) hv (t ++ s' ++ r)
                simp only [List.nil_append, List.append_assoc] at hh e1
                rw [e1] at hh
                simp at hh
                rw [hh] at he
                exact absurd he (by
                  intro he
                  exact identStart_not_punct he (by decide))
            · cases h2
            · cases hw with
              | literal hl =>
                obtain ⟨e, u, rfl, he⟩ := litOk_head hl
                simp at hh
                rw [hh] at he
                exact absurd (he (by decide)) (by decide)
    · intro hh
      cases hw' : t ++ (s ++ r) with
      | nil => rw [hw'] at hh; simp at hh
      | cons d w =>
        rw [hw'] at hh hb
        simp at hh
        subst hh
        exact hb.ne (.inr (.inr (by decide))) rfl
  have hstart : ∀ d w, t ++ (s ++ r) = d :: w → d ∉ recognizedPunct →
      P.punctChar (t ++ (s ++ r)) = none ∧
      (c = '/' → (t ++ (s ++ r)).head? ≠ some '/' ∧ (t ++ (s ++ r)).head? ≠ some '*') := by
    intro d w e hd
    rw [e]
    constructor
    · cases hp : P.punctChar (d :: w) with
      | none => rfl
      | some y =>
        obtain ⟨c', r⟩ := y
        obtain ⟨e', h1, -⟩ := P.punctChar_spec.mp hp
        simp at e'
        rw [← e'.1] at h1
        exact absurd h1 hd
    · intro _
      simp only [List.head?_cons, ne_eq, Option.some.injEq]
      constructor <;> (rintro rfl; exact hd (by decide))
  rcases hg.cases (by simp [IsJoint]) with h1 | h1 | ⟨rfl, tok', ts', rfl, h1⟩
  · exact hbd (gap_bd h ht hr (.inl h1))
  · exact hbd (gap_bd h ht hr (.inr (.inl h1)))
  · cases h1 with
    | beforeGroup => exact hbd (gap_bd h ht hr (.inr (.inr ⟨_, _, _, _, rfl⟩)))
    | @punctIdent _ _ _ sym0 raw0 _ =>
      rcases h.first with ⟨e, -⟩ | ⟨d, inner, span, ts'', o, s', e, -⟩ |
          ⟨tok, x, t', s', ts'', e, rfl, hx, -⟩
      · simp at e
      · simp at e
      · simp at e
        obtain ⟨rfl, rfl⟩ := e
        rcases hx.inv with ⟨sym, raw, sp, e', rfl⟩ | ⟨c, sp, sp', e', rfl⟩ | ⟨sp, e'⟩
        · simp at e'
          obtain ⟨rfl, rfl, rfl⟩ := e'
          cases hw with
          | ident hv =>
            obtain ⟨d, u, e1, hd⟩ := identText_head (raw := raw0) hv (t' ++ s' ++ r)
            exact hstart d u (by rw [← e1]; simp) (identStart_not_punct hd)
        · cases e'
        · cases e'
    | punctLiteral hne =>
      rcases h.first with ⟨e, -⟩ | ⟨d, inner, span, ts'', o, s', e, -⟩ |
          ⟨tok, x, t', s', ts'', e, rfl, hx, -⟩
      · simp at e
      · simp at e
      · simp at e
        obtain ⟨rfl, rfl⟩ := e
        cases hx
        cases hw with
        | literal hl =>
          obtain ⟨d, u, rfl, hd⟩ := litOk_head hl
          refine hstart d _ rfl (fun hp => ?_)
          rw [hd hp] at hne
          simp at hne

/-- a slash of a written stream does not begin a comment -/
theorem slash_end {sp : Spacing} {t s r : List Char} {span : Span} {ts : List TokenTree}
    (hw : WFL (.punct '/' sp span :: ts)) (hg : Gap (.punct '/' sp span) t ts) (ht : Trivia t (s ++ r))
    (h : Spaced ts s r) (hr : Follow r) :
    (t ++ (s ++ r)).head? ≠ some '/' ∧ (t ++ (s ++ r)).head? ≠ some '*' := by
  cases hw with
  | punct h1 h2 h3 hw =>
    cases sp with
    | alone => exact (alone_end hw hg ht h hr).2 rfl
    | joint =>
      have := hg.joint trivial
      subst this
      rcases h3 rfl with ⟨c', sp', span', ts', rfl, hno⟩ | ⟨x, span', ts', rfl, hx⟩
      · cases h with
        | leaf hl =>
          cases hl
          simp only [List.nil_append, List.cons_append, List.head?_cons, ne_eq, Option.some.injEq]
          constructor <;> (rintro rfl; simp at hno)
      · cases h with
        | leaf hl =>
          cases hl
          cases x with
          | nil => simp at hx
          | cons d x =>
            simp at hx
            subst hx
            simp

theorem P.next_trivia {t s : List Char} (h : Trivia t s) : P.next (t ++ s) = P.next s := by
  rw [← P.next_skipWs, P.skipWs_trivia h, P.next_skipWs]

/-- the first token of a written stream is lexed back -/
theorem leaf_written {tok : TokenTree} {x t s r : List Char} {ts : List TokenTree}
    (hx : LeafText tok x) (hw : WFL (tok :: ts)) (hg : Gap tok t ts) (ht : Trivia t (s ++ r))
    (h : Spaced ts s r) (hr : Follow r) :
    ∃ l, P.leaf (x ++ (t ++ (s ++ r))) = some (l, t ++ (s ++ r)) ∧
      ∀ span, erase [l.tok span] = erase [tok] := by
  rcases hx.inv with ⟨sym, raw, sp, rfl, rfl⟩ | ⟨c, sp, sp', rfl, rfl⟩ | ⟨sp, rfl⟩
  · cases hw with
    | ident hv hraw hw =>
      exact ⟨_, leaf_written_ident hv hraw (ident_end hw hg ht h hr), fun span => rfl⟩
  · have hc := wf_punct hw
    have hslash : c = '/' → (t ++ (s ++ r)).head? ≠ some '/' ∧ (t ++ (s ++ r)).head? ≠ some '*' := by
      rintro rfl
      exact slash_end hw hg ht h hr
    cases hw with
    | punct h1 h2 h3 hw =>
      refine ⟨.punct c (if (P.punctChar (t ++ (s ++ r))).isSome then .joint else .alone),
        leaf_written_punct hc h2 hslash, fun span => ?_⟩
      cases sp with
      | alone => rw [(alone_end hw hg ht h hr).1]; rfl
      | joint =>
        have := hg.joint trivial
        subst this
        have hsome : (P.punctChar ([] ++ (s ++ r))).isSome = true := by
          rcases h3 rfl with ⟨c', sp', span', ts', rfl, hno⟩ | ⟨x, span', ts', rfl, hx⟩
          · have hc' := wf_punct hw
            rcases h.first with ⟨e, -⟩ | ⟨d, inner, span, ts'', o, s', e, -⟩ |
              ⟨tok, x, t', s', ts'', e, rfl, hx, hg', ht', h'⟩
            · simp at e
            · simp at e
            · simp at e
              obtain ⟨rfl, rfl⟩ := e
              cases hx
              simp only [List.nil_append, List.cons_append, List.append_assoc]
              rw [punctChar_written hc']
              · rfl
              · rintro rfl
                exact slash_end hw hg' ht' h' hr
          · cases h with
            | leaf hl =>
              cases hl
              cases x with
              | nil => simp at hx
              | cons d x =>
                simp at hx
                subst hx
                simp only [List.nil_append, List.cons_append]
                rw [punctChar_written (by decide) (fun h => absurd h (by decide))]
                rfl
        rw [hsome]
        rfl
    | quote hq hw =>
      have := hg.joint trivial
      subst this
      refine ⟨.punct '\'' .joint, ?_, fun span => rfl⟩
      rcases h.first with ⟨rfl, -⟩ | ⟨d, inner, span, ts'', o, s', rfl, -⟩ |
          ⟨tok, x, t', s', ts'', rfl, rfl, hx, hg', ht', h'⟩
      · rcases hq with ⟨sym, raw, span, ts', e⟩ | ⟨x, span, ts', p, e, -⟩ <;> simp at e
      · rcases hq with ⟨sym, raw, span, ts', e⟩ | ⟨x, span, ts', p, e, -⟩ <;> simp at e
      · rcases hq with ⟨sym, raw, span, ts', e⟩ | ⟨y, span, ts', p, e, hp, hpx⟩
        · simp at e
          obtain ⟨rfl, rfl⟩ := e
          rcases hx.inv with ⟨sym', raw', sp, e, rfl⟩ | ⟨c, sp, sp', e, rfl⟩ | ⟨sp, e⟩
          · cases e
            cases hw with
            | ident hv hraw hw =>
              have hend := ident_end hw hg' ht' h' hr
              have hi : P.identAny ((if raw then ['r', '#'] else []) ++ sym ++ (t' ++ (s' ++ r))) =
                  some (sym, raw, t' ++ (s' ++ r)) := by
                cases raw with
                | true =>
                  have := identAny_raw hv (stop_of_identEnd hend) (hraw rfl)
                  simpa using this
                | false =>
                  have := identAny_plain hv (stop_of_identEnd hend)
                    (ident_no_prefix (p := ['r']) (q := '#') hv hend (letters_continue (by simp)) (by simp))
                  simpa using this
              have hh : ∀ d, (d = '\'' ∨ d = '#') → (t' ++ (s' ++ r)).head? ≠ some d := by
                intro d hd hh
                cases hw' : t' ++ (s' ++ r) with
                | nil => rw [hw'] at hh; simp at hh
                | cons e w =>
                  rw [hw'] at hh
                  simp at hh
                  obtain ⟨-, -, h3, h4⟩ := hend e w hw'
                  rw [hh] at h3 h4
                  rcases hd with rfl | rfl
                  · exact h3 rfl
                  · exact h4 rfl
              have := leaf_written_quote hi (hh _ (.inl rfl)) (fun _ => hh _ (.inr rfl))
              simpa using this
          · cases e
          · cases e
        · simp at e
          obtain ⟨rfl, rfl⟩ := e
          cases hx
          obtain ⟨u, rfl⟩ := hpx
          have hp' : ∀ p ∈ [['r'], ['b'], ['c'], ['b', 'r'], ['c', 'r']],
              p ∈ [[], ['r'], ['b'], ['c'], ['b', 'r'], ['c', 'r']] ∧ p ≠ [] ∧
              ∀ d ∈ p, d = 'r' ∨ d = 'b' ∨ d = 'c' := by decide
          obtain ⟨hp1, hp2, hp3⟩ := hp' p hp
          have hv : ValidIdent p := by
            cases p with
            | nil => exact absurd rfl hp2
            | cons d p =>
              refine ⟨d, p, rfl, ?_, fun e he => letters_continue hp1 e (by simp [he])⟩
              simp only [isIdentStart, Bool.or_eq_true]
              right
              show xidStart d = true
              rcases hp3 d (by simp) with rfl | rfl | rfl <;>
                (rw [LawfulUnicode.start_ascii _ (by decide)]; decide)
          have hst : P.Stop ('"' :: (u ++ (t' ++ (s' ++ r)))) := by
            intro d w e
            simp at e
            rw [← e.1]
            exact continue_not (by decide) (by decide)
          have hno : ¬ ['r', '#'] <+: p ++ ('"' :: (u ++ (t' ++ (s' ++ r)))) := by
            rintro ⟨v, hv'⟩
            have := word_unique (l := ['r']) (l' := p) (q := '#') (q' := '"') (u := v)
              (letters_continue (by simp)) (letters_continue hp1) (continue_not (by decide) (by decide))
              (continue_not (by decide) (by decide)) (by simpa using hv')
            exact absurd this.2.1 (by decide)
          have hi := identAny_plain hv hst hno
          have := leaf_written_quote hi (by simp) (fun _ => by simp)
          simpa using this
  · cases hw with
    | literal hl hw => exact ⟨_, leaf_written_literal hl (literal_end hw hg ht h hr), fun span => rfl⟩

theorem erase_cons_congr {a b : TokenTree} {as bs : List TokenTree} (h1 : erase [a] = erase [b])
    (h2 : erase as = erase bs) : erase (a :: as) = erase (b :: bs) := by
  rw [← List.singleton_append, ← List.singleton_append (l := bs), erase_append, erase_append, h1, h2]

/-- Written streams are lexed back, modulo spans. -/
theorem Spec.Spaced.lex {ts : List TokenTree} {s r : List Char} (h : Spaced ts s r) :
    WFL ts → Follow r → ∀ (E : Nat) (t0 : List Char), Trivia t0 (s ++ r) →
    ∃ ts', P.Lex E (t0 ++ (s ++ r)) ts' r ∧ erase ts' = erase ts := by
  induction h with
  | @nil r =>
    intro _ hr E t0 ht0
    refine ⟨[], ?_, rfl⟩
    have hn := P.next_trivia ht0
    rw [List.nil_append] at hn ⊢
    rcases hr with rfl | ⟨c, r', rfl, hc⟩
    · rw [P.next_nil] at hn
      exact .eof hn
    · have : ∃ d, P.closeD c = some d := by
        simp [closers] at hc
        rcases hc with rfl | rfl | rfl <;> exact ⟨_, rfl⟩
      obtain ⟨d, hd⟩ := this
      rw [P.next_of_close hd] at hn
      exact .cls hn
  | @leaf tok x t s ts r hx hg ht h ih =>
    intro hw hr E t0 ht0
    have hwt : WFL ts := by cases hw <;> assumption
    obtain ⟨l, hl, hle⟩ := leaf_written hx hw hg ht h hr
    obtain ⟨ts', h1, h2⟩ := ih hwt hr E t ht
    have e : x ++ (t ++ s) ++ r = x ++ (t ++ (s ++ r)) := by simp
    have hn := P.next_trivia ht0
    rw [e] at hn ⊢
    rw [P.next_of_leaf hl] at hn
    exact ⟨_, .leaf hn h1, erase_cons_congr (hle _) h2⟩
  | @group d o c t0' body t s inner span ts r hd ht0' hin herr hg ht h ihin ih =>
    intro hw hr E t0 ht0
    obtain ⟨ho, hc, hclose, hpar, hopen⟩ := delimChars_cases hd
    cases hw with
    | group hdn hwin hwt =>
      obtain ⟨ts1, l1, e1⟩ := ihin hwin (.inr ⟨c, _, rfl, hc⟩) E t0' ht0'
      obtain ⟨ts2, l2, e2⟩ := ih hwt hr E t ht
      have e : o :: (t0' ++ body ++ c :: (t ++ s)) ++ r = o :: (t0' ++ (body ++ c :: (t ++ s ++ r))) := by simp
      have hn := P.next_trivia ht0
      rw [e] at hn ⊢
      have hop : P.openD (o :: (t0' ++ (body ++ c :: (t ++ s ++ r)))) o = some d := by
        refine hopen _ (fun hp => ?_)
        rw [startsWith_false_iff]
        intro hpre
        have h3 := herr hp
        have hpre2 : o :: (t0' ++ body ++ [c]) <+: o :: (t0' ++ (body ++ c :: (t ++ s ++ r))) :=
          ⟨t ++ s ++ r, by simp⟩
        rcases List.prefix_or_prefix_of_prefix hpre hpre2 with h4 | h4
        · exact h3 (errorText_eq ▸ h4)
        · obtain ⟨v, hv⟩ := h4
          have hcp : c = ')' := by
            subst hp; simp [delimChars] at hd; exact hd.2.symm
          subst hcp
          by_cases hvn : v = []
          · subst hvn
            exact h3 ⟨[], by rw [errorText_eq, ← hv]; simp⟩
          · have : ∀ a b : List Char, a ++ ')' :: b = errorRepr → b = [] := by
              intro a b hab
              have hmem : ')' ∈ errorRepr.dropLast ∨ b = [] := by
                cases b with
                | nil => exact .inr rfl
                | cons x b =>
                  left
                  rw [← hab]
                  have : (a ++ ')' :: x :: b).dropLast = a ++ ')' :: (x :: b).dropLast := by
                    rw [List.dropLast_append_of_ne_nil (by simp)]
                    rfl
                  rw [this]; simp
              rcases hmem with hmem | hmem
              · exact absurd hmem (by decide)
              · exact hmem
            exact hvn (this (o :: (t0' ++ body)) v (by rw [← hv]; simp))
      rw [P.next_of_open hop] at hn
      have l2' : P.Lex E (t ++ s ++ r) ts2 r := by simpa using l2
      exact ⟨_, .group hn l1 hclose l2', erase_cons_congr (erase_group d e1 _ _) e2⟩

end
end PM2
