import Verif.Proof.NumGrammar
import Verif.Proof.Leaves
import Verif.Proof.Trivia
/-! # The lexer implements the lexical grammar -/

set_option linter.unusedSectionVars false

namespace PM2
open Spec

section
variable [UnicodeTables]

/-! ### Literals -/

/-- literals in quotes, without suffix -/
def P.quoted (s : List Char) : Option (List Char) :=
  P.strBody .str s <|> P.strBody .byte s <|> P.strBody .c s <|> P.byteBody s <|> P.charBody s

theorem P.literal_eq (s : List Char) :
    P.literal s = ((P.quoted s).map P.literalSuffix <|> (P.float s <|> P.int s)) := by
  unfold P.literal P.quoted P.strLit P.byteLit P.charLit
  cases P.strBody .str s <;> cases P.strBody .byte s <;> cases P.strBody .c s <;>
    cases P.byteBody s <;> cases P.charBody s <;> rfl

theorem P.quoted_iff {s r : List Char} : P.quoted s = some r ↔ ∃ x, s = x ++ r ∧ QuotedText x := by
  have orElse_some : ∀ {a b : Option (List Char)}, (a <|> b) = some r ↔ a = some r ∨ a = none ∧ b = some r := by
    intro a b; cases a <;> simp
  have none_b : ∀ t, P.strBody .str ('b' :: t) = none := fun t => by simp [P.strBody, P.kpre]
  have none_c : ∀ t, P.strBody .str ('c' :: t) = none := fun t => by simp [P.strBody, P.kpre]
  have none_c2 : ∀ t, P.strBody .byte ('c' :: t) = none := fun t => by simp [P.strBody, P.kpre]
  have none_q : ∀ k t, P.strBody k ('b' :: '\'' :: t) = none := fun k t => by
    cases k <;> simp [P.strBody, P.kpre]
  have none_q2 : ∀ k t, P.strBody k ('\'' :: t) = none := fun k t => by
    cases k <;> simp [P.strBody, P.kpre]
  have none_q3 : ∀ t, P.byteBody ('\'' :: t) = none := fun t => by simp [P.byteBody]
  unfold P.quoted
  simp only [orElse_some]
  constructor
  · rintro (h | ⟨-, h | ⟨-, h | ⟨-, h | ⟨-, h⟩⟩⟩⟩)
    · obtain ⟨x, e, hx⟩ := P.strBody_iff.mp h; exact ⟨x, e, .str hx⟩
    · obtain ⟨x, e, hx⟩ := P.strBody_iff.mp h; exact ⟨x, e, .str hx⟩
    · obtain ⟨x, e, hx⟩ := P.strBody_iff.mp h; exact ⟨x, e, .str hx⟩
    · obtain ⟨x, e, hx⟩ := P.byteBody_iff.mp h; exact ⟨_, by rw [e]; simp, .byte hx⟩
    · obtain ⟨x, e, hx⟩ := P.charBody_iff.mp h; exact ⟨_, by rw [e]; simp, .char hx⟩
  · rintro ⟨x, rfl, hx⟩
    cases hx with
    | @str k _ hx =>
      have h : P.strBody k (x ++ r) = some r := P.strBody_iff.mpr ⟨x, rfl, hx⟩
      cases k with
      | str => exact .inl h
      | byte =>
        have : ∃ t, x ++ r = 'b' :: t := by cases hx <;> exact ⟨_, rfl⟩
        obtain ⟨t, e⟩ := this
        exact .inr ⟨by rw [e, none_b], .inl h⟩
      | c =>
        have : ∃ t, x ++ r = 'c' :: t := by cases hx <;> exact ⟨_, rfl⟩
        obtain ⟨t, e⟩ := this
        exact .inr ⟨by rw [e, none_c], .inr ⟨by rw [e, none_c2], .inl h⟩⟩
    | byte he =>
      exact .inr ⟨none_q _ _, .inr ⟨none_q _ _, .inr ⟨none_q _ _, .inl
        (P.byteBody_iff.mpr ⟨_, by simp, he⟩)⟩⟩⟩
    | char he =>
      exact .inr ⟨none_q2 _ _, .inr ⟨none_q2 _ _, .inr ⟨none_q2 _ _, .inr ⟨none_q3 _,
        P.charBody_iff.mpr ⟨_, by simp, he⟩⟩⟩⟩⟩

theorem P.literalSuffix_iff {s r : List Char} : P.literalSuffix s = r ↔
    ∃ suf, s = suf ++ r ∧ QuotedSuffix suf r := by
  unfold P.literalSuffix
  cases h : P.identNotRaw s with
  | some x =>
    obtain ⟨sym, r'⟩ := x
    obtain ⟨e, h1, h2⟩ := P.identNotRaw_iff.mp h
    simp only
    constructor
    · rintro rfl; exact ⟨sym, e, .inr ⟨h1, h2⟩⟩
    · rintro ⟨suf, e', ⟨rfl, h3⟩ | ⟨h3, h4⟩⟩
      · obtain ⟨c, t, rfl, hc, -⟩ := h1
        simp at e'
        subst e'
        have := h3 c (by rw [e]; rfl)
        rw [hc] at this; simp at this
      · have := P.identNotRaw_iff.mpr ⟨e', h3, h4⟩
        rw [h] at this; simp at this
        exact this.2
  | none =>
    simp only
    constructor
    · rintro rfl
      refine ⟨[], rfl, .inl ⟨rfl, ?_⟩⟩
      intro c hc
      cases s with
      | nil => simp at hc
      | cons d s =>
        simp at hc; subst hc
        cases hi : isIdentStart d with
        | false => rfl
        | true => simp [P.identNotRaw, hi] at h
    · rintro ⟨suf, e', ⟨rfl, h3⟩ | ⟨h3, h4⟩⟩
      · exact e'
      · have := P.identNotRaw_iff.mpr ⟨e', h3, h4⟩
        rw [h] at this; simp at this

/-- The prefixes of literals in quotes. -/
theorem quoted_start {x : List Char} (h : QuotedText x) :
    (∃ p ∈ literalPrefixes, p <+: x) ∨ x.head? = some '"' ∨ x.head? = some '\'' := by
  have e : literalPrefixes = [['r', '"'], ['r', '#', '"'], ['r', '#', '#'], ['b', '"'], ['b', '\''],
      ['b', 'r', '"'], ['b', 'r', '#'], ['c', '"'], ['c', 'r', '"'], ['c', 'r', '#']] := by decide
  rw [e]
  cases h with
  | @str k _ h =>
    cases h with
    | cooked => cases k <;> simp [kindPrefix]
    | @raw n =>
      cases k
      · match n with
        | 0 => simp [kindPrefix]
        | 1 => simp [kindPrefix]
        | n + 2 => simp [kindPrefix, List.replicate_succ]
      · cases n <;> simp [kindPrefix, List.replicate_succ]
      · cases n <;> simp [kindPrefix, List.replicate_succ]
  | byte => simp
  | char => simp

theorem number_start {x r : List Char} (h : NumberLit x r) : ∃ d t, x = d :: t ∧ DecDigit d := by
  rcases h with ⟨b, suf, rfl, h, -⟩ | ⟨-, b, suf, rfl, h, -⟩
  · cases h with
    | exp hm =>
      rcases hm with ⟨⟨d, u, rfl, hd, -⟩, -⟩ | ⟨⟨d, u, v, rfl, hd, -⟩, -⟩ <;> exact ⟨d, _, rfl, hd⟩
    | dot hm =>
      obtain ⟨⟨d, u, v, rfl, hd, -⟩, -⟩ := hm
      exact ⟨d, _, rfl, hd⟩
  · cases h with
    | dec hd => exact ⟨_, _, rfl, hd⟩
    | based => exact ⟨'0', _, rfl, by decide⟩

end

section
variable [UnicodeTables] [LawfulUnicode]

theorem quoted_not_digit {q r1 u : List Char} {d : Char} (hq : QuotedText q) (e : q ++ r1 = d :: u) :
    ¬ DecDigit d := by
  intro hd
  have hp : ∀ p, p <+: q → p <+: d :: u := fun p h => by
    rw [← e]; exact h.trans ⟨r1, rfl⟩
  have hh : ∀ c, q.head? = some c → c = d := by
    intro c hc
    cases q with
    | nil => simp at hc
    | cons c' q => simp at hc e; rw [← hc]; exact e.1
  have hn := dig_nat hd
  rcases quoted_start hq with ⟨p, h1, h2⟩ | h1 | h1
  · have h2 := hp p h2
    revert h1 h2
    have : ∀ c t', c :: t' ∈ literalPrefixes → ¬ (48 ≤ c.toNat ∧ c.toNat ≤ 57) := by
      intro c t' h
      have : ∀ p ∈ literalPrefixes, ∀ c ∈ p.head?, ¬ (48 ≤ c.toNat ∧ c.toNat ≤ 57) := by decide
      exact this _ h c rfl
    cases p with
    | nil => intro h; exact absurd h (by decide)
    | cons c p =>
      intro h1 h2
      simp at h2
      exact this c p h1 (by rw [h2.1]; exact hn)
  · have := hh _ h1; subst this; revert hn; decide
  · have := hh _ h1; subst this; revert hn; decide

theorem P.literal_iff {s r : List Char} : P.literal s = some r ↔ ∃ x, s = x ++ r ∧ LiteralText x r := by
  rw [P.literal_eq]
  constructor
  · intro h
    cases hq : P.quoted s with
    | some r1 =>
      rw [hq] at h
      simp at h
      obtain ⟨q, rfl, hx⟩ := P.quoted_iff.mp hq
      obtain ⟨suf, rfl, hs⟩ := P.literalSuffix_iff.mp h
      exact ⟨q ++ suf, by simp, .inl ⟨q, suf, rfl, hx, hs⟩⟩
    | none =>
      rw [hq] at h
      obtain ⟨x, e, hx⟩ := P.number_iff.mp (by simpa using h)
      exact ⟨x, e, .inr hx⟩
  · rintro ⟨x, rfl, ⟨q, suf, rfl, hq, hs⟩ | hx⟩
    · rw [P.quoted_iff.mpr ⟨q, by rw [List.append_assoc], hq⟩]
      simp only [Option.map_some]
      rw [P.literalSuffix_iff.mpr ⟨suf, rfl, hs⟩]
      rfl
    · have : P.quoted (x ++ r) = none := by
        cases h : P.quoted (x ++ r) with
        | none => rfl
        | some r1 =>
          exfalso
          obtain ⟨q, e, hq⟩ := P.quoted_iff.mp h
          obtain ⟨d, t, rfl, hd⟩ := number_start hx
          exact quoted_not_digit hq e.symm hd
      rw [this]
      simpa using P.number_iff.mpr ⟨x, rfl, hx⟩

/-! ### Leaves -/

theorem P.identAny_iff {s sym r : List Char} {raw : Bool} :
    P.identAny s = some (sym, raw, r) ↔ IdentAt s sym raw r := by
  constructor
  · intro h
    unfold P.identAny at h
    split at h
    · rename_i hp
      obtain ⟨u, rfl⟩ := startsWith_iff.mp hp
      cases hi : P.identNotRaw u with
      | none => simp [hi] at h
      | some v =>
        obtain ⟨a, b⟩ := v
        obtain ⟨e, h1, h2⟩ := P.identNotRaw_iff.mp hi
        simp [hi] at h
        obtain ⟨hn, rfl, rfl, rfl⟩ := h
        subst e
        exact .raw h1 h2 (fun h => by rw [nonRawable_iff.mpr h] at hn; simp at hn)
    · rename_i hp
      cases hi : P.identNotRaw s with
      | none => simp [hi] at h
      | some v =>
        obtain ⟨a, b⟩ := v
        obtain ⟨e, h1, h2⟩ := P.identNotRaw_iff.mp hi
        simp [hi] at h
        obtain ⟨rfl, rfl, rfl⟩ := h
        subst e
        exact .plain h1 h2 (by rw [startsWith_iff_prefix] at hp; exact hp)
  · intro h
    unfold P.identAny
    cases h with
    | plain h1 h2 h3 =>
      rw [if_neg (by rw [startsWith_iff_prefix]; exact h3), P.identNotRaw_iff.mpr ⟨rfl, h1, h2⟩]
    | raw h1 h2 h3 =>
      rw [if_pos (by simp)]
      simp only [List.cons_append, List.drop_succ_cons, List.drop_zero]
      rw [P.identNotRaw_iff.mpr ⟨rfl, h1, h2⟩]
      simp only
      rw [if_neg (by rw [nonRawable_iff]; exact h3)]

theorem punct_mem {c : Char} : c ∈ recognizedPunct ↔ c ∈ punctChars := by
  have h1 : ∀ c ∈ recognizedPunct, c ∈ punctChars := by decide
  have h2 : ∀ c ∈ punctChars, c ∈ recognizedPunct := by decide
  exact ⟨h1 c, h2 c⟩

theorem P.punctChar_at {s : List Char} : (P.punctChar s).isSome = true ↔ PunctAt s := by
  rw [P.punctChar_isSome]
  unfold PunctAt
  simp only [punct_mem]

theorem P.punct_iff {s r : List Char} {c : Char} {sp : Spacing} : P.punct s = some (c, sp, r) ↔
    s = c :: r ∧ PunctAt s ∧ (c ≠ '\'' ∧ (sp = .joint ↔ PunctAt r) ∨
      c = '\'' ∧ sp = .joint ∧ ∃ sym raw after, IdentAt r sym raw after ∧ after.head? ≠ some '\'' ∧
        (raw = false → after.head? ≠ some '#')) := by
  unfold P.punct
  constructor
  · intro h
    split at h
    · simp at h
    · rename_i ch r' hp
      have hp' := P.punctChar_spec.mp hp
      have hpa : PunctAt s := P.punctChar_at.mp (by rw [hp]; rfl)
      split at h
      · rename_i hq
        split at h
        · simp at h
        · rename_i sym raw after hi
          split at h
          · simp at h
          · rename_i hcond
            simp only [Bool.or_eq_true, Bool.and_eq_true, not_or, Bool.not_eq_true',
              startsWithChar_iff] at hcond
            simp at h
            obtain ⟨rfl, rfl, rfl⟩ := h
            subst hq
            have hi' := P.identAny_iff.mp hi
            refine ⟨hp'.1, hpa, .inr ⟨rfl, rfl, sym, raw, after, hi', hcond.1, ?_⟩⟩
            rintro rfl hh
            apply hcond.2 ⟨hh, ?_⟩
            cases hi' with
            | plain _ _ h3 => exact startsWith_false_iff.mpr h3
      · rename_i hq
        simp at h
        obtain ⟨rfl, rfl, rfl⟩ := h
        refine ⟨hp'.1, hpa, .inl ⟨hq, ?_⟩⟩
        rw [← P.punctChar_at]
        split <;> simp_all
  · rintro ⟨rfl, h1, h2⟩
    obtain ⟨⟨c', r', e, hc⟩, h3⟩ := h1
    simp at e
    obtain ⟨rfl, rfl⟩ := e
    rw [P.punctChar_spec.mpr ⟨rfl, punct_mem.mpr hc, h3⟩]
    simp only
    rcases h2 with ⟨h2, h4⟩ | ⟨rfl, rfl, sym, raw, after, hi, h4, h5⟩
    · rw [if_neg h2]
      rw [← P.punctChar_at] at h4
      cases sp <;> cases hs : (P.punctChar r).isSome <;> simp_all
    · rw [if_pos rfl, P.identAny_iff.mpr hi]
      simp only
      rw [if_neg]
      simp only [Bool.or_eq_true, Bool.and_eq_true, not_or, Bool.not_eq_true', startsWithChar_iff]
      refine ⟨h4, ?_⟩
      rintro ⟨g1, g2⟩
      cases raw with
      | false => exact h5 rfl g1
      | true =>
        cases hi with
        | raw => simp at g2

theorem reject_eq : identRejectPrefixes = literalPrefixes := by decide

theorem identStart_not {c : Char} (h : isIdentStart c = true) :
    ¬ DecDigit c ∧ c ∉ punctChars ∧ c ≠ '"' ∧ c ≠ '\'' ∧ c ≠ '#' ∧ c ≠ '(' := by
  have hf := (identStart_facts h).2
  refine ⟨?_, ?_, ?_, ?_, ?_, ?_⟩
  · intro hd
    have hn := dig_nat hd
    rcases hf (by omega) with h | rfl
    · have := isAlpha_nat h; omega
    · revert hn; decide
  · intro hp
    have : ∀ c ∈ punctChars, c.toNat < 128 ∧ c.isAlpha = false ∧ c ≠ '_' := by decide
    obtain ⟨h1, h2, h3⟩ := this c hp
    rcases hf h1 with h | h
    · rw [h2] at h; simp at h
    · exact h3 h
  all_goals (rintro rfl; revert hf; decide)

theorem identAt_head {s sym after : List Char} {raw : Bool} (h : IdentAt s sym raw after) :
    ∃ c t, s = c :: t ∧ isIdentStart c = true := by
  cases h with
  | plain h1 =>
    obtain ⟨c, t, rfl, hc, -⟩ := h1
    exact ⟨c, _, rfl, hc⟩
  | raw =>
    refine ⟨'r', _, rfl, ?_⟩
    have : xidStart 'r' = true := by rw [LawfulUnicode.start_ascii 'r' (by decide)]; decide
    simp [isIdentStart, this]

theorem P.ident_iff {s sym r : List Char} {raw : Bool} : P.ident s = some (sym, raw, r) ↔
    IdentAt s sym raw r ∧ ∀ p ∈ literalPrefixes, ¬ p <+: s := by
  unfold P.ident
  rw [reject_eq]
  constructor
  · intro h
    split at h
    · simp at h
    · rename_i hn
      refine ⟨P.identAny_iff.mp h, ?_⟩
      intro p hp hps
      apply hn
      exact List.any_eq_true.mpr ⟨p, hp, startsWith_iff_prefix.mpr hps⟩
  · rintro ⟨h1, h2⟩
    rw [if_neg, P.identAny_iff.mpr h1]
    intro h
    obtain ⟨p, hp, hps⟩ := List.any_eq_true.mp h
    exact h2 p hp (startsWith_iff_prefix.mp hps)

/-- a raw identifier has none of the prefixes of literals -/
theorem raw_prefix {sym r : List Char} (h : IdentAt ('r' :: '#' :: sym ++ r) sym true r) :
    ∀ p ∈ literalPrefixes, ¬ p <+: 'r' :: '#' :: sym ++ r := by
  have : ValidIdent sym := by
    generalize e : 'r' :: '#' :: sym ++ r = s at h
    cases h with
    | raw h1 => exact h1
  obtain ⟨c, t, rfl, hc, -⟩ := this
  obtain ⟨-, -, h1, -, h2, -⟩ := identStart_not hc
  have e : literalPrefixes = [['r', '"'], ['r', '#', '"'], ['r', '#', '#'], ['b', '"'], ['b', '\''],
      ['b', 'r', '"'], ['b', 'r', '#'], ['c', '"'], ['c', 'r', '"'], ['c', 'r', '#']] := by decide
  rw [e]
  simp [Ne.symm h1, Ne.symm h2]

/-- no literal where an identifier stands -/
theorem literal_none_ident {s sym r : List Char} {raw : Bool} (h : IdentAt s sym raw r)
    (hp : ∀ p ∈ literalPrefixes, ¬ p <+: s) : P.literal s = none := by
  cases hl : P.literal s with
  | none => rfl
  | some r' =>
    exfalso
    obtain ⟨x, rfl, hx⟩ := P.literal_iff.mp hl
    obtain ⟨c, t, e, hc⟩ := identAt_head h
    obtain ⟨h1, -, h2, h3, -⟩ := identStart_not hc
    rcases hx with ⟨q, suf, rfl, hq, -⟩ | hx
    · have hh : ∀ d, q.head? = some d → d = c := by
        intro d hd
        cases q with
        | nil => simp at hd
        | cons d' q => simp at hd e; rw [← hd]; exact e.1
      rcases quoted_start hq with ⟨p, g1, g2⟩ | g | g
      · exact hp p g1 (g2.trans ⟨suf ++ r', by simp⟩)
      · exact h2 (hh _ g).symm
      · exact h3 (hh _ g).symm
    · obtain ⟨d, t', rfl, hd⟩ := number_start hx
      simp at e
      rw [e.1] at hd
      exact h1 hd

theorem punct_none_ident {s sym r : List Char} {raw : Bool} (h : IdentAt s sym raw r) :
    P.punct s = none := by
  cases hp : P.punct s with
  | none => rfl
  | some v =>
    exfalso
    obtain ⟨c, sp, r'⟩ := v
    obtain ⟨e, ⟨⟨c', r'', e', hc⟩, -⟩, -⟩ := P.punct_iff.mp hp
    obtain ⟨d, t, e2, hd⟩ := identAt_head h
    rw [e'] at e2
    simp at e2
    rw [e2.1] at hc
    exact (identStart_not hd).2.1 hc

/-- no literal where a punct stands -/
theorem literal_none_punct {c : Char} {r : List Char} (hc : c ∈ punctChars) (hq : c ≠ '\'') :
    P.literal (c :: r) = none := by
  cases hl : P.literal (c :: r) with
  | none => rfl
  | some r' =>
    exfalso
    obtain ⟨d, u, e, hd⟩ := P.literal_head hl
    simp at e
    obtain ⟨rfl, -⟩ := e
    have : ∀ c ∈ punctChars, c ≠ '"' ∧ c ≠ 'r' ∧ c ≠ 'b' ∧ c ≠ 'c' ∧ isDecDigit c = false := by decide
    obtain ⟨h1, h2, h3, h4, h5⟩ := this c hc
    rcases hd with h | h | h | h | h | h
    · exact h1 h
    · exact h2 h
    · exact h3 h
    · exact h4 h
    · exact hq h
    · rw [h5] at h; simp at h

/-- no character literal where a lifetime stands -/
theorem literal_none_quote {r sym after : List Char} {raw : Bool} (h : IdentAt r sym raw after)
    (ha : after.head? ≠ some '\'') : P.literal ('\'' :: r) = none := by
  cases hl : P.literal ('\'' :: r) with
  | none => rfl
  | some r' =>
    exfalso
    obtain ⟨x, e, hx⟩ := P.literal_iff.mp hl
    rcases hx with ⟨q, suf, rfl, hq, -⟩ | hx
    · have hchar : ∃ el, q = '\'' :: el ++ ['\''] ∧ CharElem el := by
        cases hq with
        | @str k _ hs =>
          exfalso
          cases hs <;> cases k <;> simp [kindPrefix] at e
        | byte => simp at e
        | char he => exact ⟨_, rfl, he⟩
      obtain ⟨el, rfl, he⟩ := hchar
      obtain ⟨c, t, e2, hc⟩ := identAt_head h
      have hb : c ≠ '\\' := by
        rintro rfl
        have := (identStart_facts hc).2
        revert this; decide
      have hel : el = [c] := by
        subst e2
        cases he with
        | char h => simp at e; rw [e.1]
        | _ => simp at e; exact absurd e.1 hb
      subst hel
      subst e2
      simp at e
      subst e
      generalize hs : c :: '\'' :: (suf ++ r') = s at h
      have hq : isIdentContinue '\'' = false := by
        show xidContinue '\'' = false
        rw [LawfulUnicode.continue_ascii '\'' (by decide)]; decide
      cases h with
      | plain h1 h2 =>
        obtain ⟨d, u, rfl, -, hu⟩ := h1
        cases u with
        | nil =>
          simp at hs
          rw [← hs.2] at ha
          exact ha rfl
        | cons d' u =>
          simp at hs
          have := hu '\'' (by rw [← hs.2.1]; simp)
          rw [hq] at this; simp at this
      | raw => simp at hs
    · obtain ⟨d, t', rfl, hd⟩ := number_start hx
      simp at e
      rw [← e.1] at hd
      exact absurd hd (by decide)

theorem leaf_error {r : List Char} : P.leaf (errorText ++ r) = some (.literal errorText, r) := by
  have h1 : P.literal (errorText ++ r) = none := by
    cases hl : P.literal (errorText ++ r) with
    | none => rfl
    | some r' =>
      exfalso
      obtain ⟨d, u, e, hd⟩ := P.literal_head hl
      simp [errorText] at e
      rw [← e.1] at hd
      revert hd; decide
  have h2 : P.punct (errorText ++ r) = none := by
    cases hp : P.punct (errorText ++ r) with
    | none => rfl
    | some v =>
      exfalso
      obtain ⟨c, sp, r'⟩ := v
      obtain ⟨-, ⟨⟨c', r'', e', hc⟩, -⟩, -⟩ := P.punct_iff.mp hp
      simp [errorText] at e'
      rw [← e'.1] at hc
      revert hc; decide
  have h3 : P.ident (errorText ++ r) = none := by
    cases hp : P.ident (errorText ++ r) with
    | none => rfl
    | some v =>
      exfalso
      obtain ⟨sym, raw, r'⟩ := v
      obtain ⟨c, t, e, hc⟩ := identAt_head (P.ident_iff.mp hp).1
      simp [errorText] at e
      rw [← e.1] at hc
      exact (identStart_not hc).2.2.2.2.2 rfl
  have h4 : startsWith (errorText ++ r) errorRepr = true := startsWith_iff.mpr ⟨r, rfl⟩
  unfold P.leaf
  rw [h1]
  simp only
  rw [h2]
  simp only
  rw [h3]
  simp only
  rw [if_pos h4]
  rfl

/-- The leaf lexer implements the grammar of tokens. -/
theorem P.leaf_iff {s r : List Char} {tok : TokenTree} :
    (∃ l, P.leaf s = some (l, r) ∧ tok = l.tok tok.span) ↔ ∃ x, s = x ++ r ∧ Token tok x r := by
  constructor
  · rintro ⟨l, h, ht⟩
    cases l with
    | literal repr =>
      rw [ht]
      rcases P.leaf_literal h with ⟨h1, h2⟩ | ⟨h1, h2⟩
      · obtain ⟨x, e, hx⟩ := P.literal_iff.mp h1
        have : x = repr := List.append_cancel_right (e.symm.trans h2)
        subst this
        exact ⟨x, e, .literal hx⟩
      · subst h1
        exact ⟨errorText, h2, .error⟩
    | punct c sp =>
      rw [ht]
      obtain ⟨-, h2⟩ := P.leaf_punct h
      obtain ⟨rfl, h3, h4⟩ := P.punct_iff.mp h2
      rcases h4 with ⟨h4, h5⟩ | ⟨rfl, rfl, sym, raw, after, hi, h5, h6⟩
      · exact ⟨[c], rfl, .punct h3 h4 h5⟩
      · exact ⟨['\''], rfl, .quote hi h5 h6⟩
    | ident sym raw =>
      rw [ht]
      obtain ⟨-, -, h3⟩ := P.leaf_ident h
      obtain ⟨h4, h5⟩ := P.ident_iff.mp h3
      have h4' := h4
      cases h4 with
      | plain => exact ⟨sym, rfl, .ident h4' h5⟩
      | raw => exact ⟨'r' :: '#' :: sym, rfl, .raw h4'⟩
  · rintro ⟨x, rfl, hx⟩
    cases hx with
    | literal hx =>
      refine ⟨.literal x, ?_, rfl⟩
      unfold P.leaf
      rw [P.literal_iff.mpr ⟨x, rfl, hx⟩]
      simp only [P.eaten_append]
    | error => exact ⟨.literal errorText, leaf_error, rfl⟩
    | ident hi hp =>
      refine ⟨.ident x false, ?_, rfl⟩
      unfold P.leaf
      rw [literal_none_ident hi hp]
      simp only
      rw [punct_none_ident hi]
      simp only
      rw [P.ident_iff.mpr ⟨hi, hp⟩]
    | @raw sym _ _ hi =>
      refine ⟨.ident sym true, ?_, rfl⟩
      have hp := raw_prefix hi
      unfold P.leaf
      rw [literal_none_ident hi hp]
      simp only
      rw [punct_none_ident hi]
      simp only
      rw [P.ident_iff.mpr ⟨hi, hp⟩]
    | @punct c sp _ _ h1 h2 h3 =>
      refine ⟨.punct c sp, ?_, rfl⟩
      have hc : c ∈ punctChars := by
        obtain ⟨⟨c', r', e, hc⟩, -⟩ := h1
        simp at e; rw [e.1]; exact hc
      unfold P.leaf
      rw [List.cons_append, List.nil_append, literal_none_punct hc h2]
      simp only
      rw [P.punct_iff.mpr ⟨rfl, h1, .inl ⟨h2, h3⟩⟩]
    | @quote _ sym raw after _ h1 h2 h3 =>
      refine ⟨.punct '\'' .joint, ?_, rfl⟩
      unfold P.leaf
      rw [List.cons_append, List.nil_append, literal_none_quote h1 h2]
      simp only
      rw [P.punct_iff.mpr ⟨rfl, ⟨⟨'\'', r, rfl, by decide⟩, by simp, by simp⟩,
        .inr ⟨rfl, rfl, sym, raw, after, h1, h2, h3⟩⟩]

/-! ### Token streams -/

theorem openD_of {d : Delimiter} {o c : Char} {u : List Char} (hd : delimChars d = some (o, c))
    (he : ¬ errorText <+: o :: u) : P.openD (o :: u) o = some d := by
  have : startsWith (o :: u) errorRepr = false := startsWith_false_iff.mpr he
  cases d <;> simp [delimChars] at hd <;> obtain ⟨rfl, -⟩ := hd <;> simp [P.openD, this]

theorem closeD_of {d : Delimiter} {o c : Char} (hd : delimChars d = some (o, c)) :
    P.closeD c = some d := by
  cases d <;> simp [delimChars] at hd <;> obtain ⟨-, rfl⟩ := hd <;> rfl

/-- A text derived by the grammar is lexed as its tokens. -/
theorem lex_of_lexed {p : Nat} {s r : List Char} {ts : List TokenTree} (h : Lexed p s ts r)
    (hr : r = [] ∨ ∃ c r' d, r = c :: r' ∧ P.closeD c = some d) {E : Nat}
    (hE : E = p + (s.length + r.length)) : P.Lex E (s ++ r) ts r := by
  induction h generalizing E with
  | @nil p t r ht =>
    rcases hr with rfl | ⟨c, r', d, rfl, hc⟩
    · exact .eof (by rw [P.next_trivia ht, P.next_nil])
    · exact .cls (by rw [P.next_trivia ht, P.next_of_close hc])
  | @leaf p t x s r tok ts ht hx hsp _ ih =>
    obtain ⟨l, hl, htok⟩ := P.leaf_iff.mpr ⟨x, rfl, hx⟩
    simp only [List.length_append] at hE
    have hn : P.next (t ++ x ++ s ++ r) = .leaf l (x ++ (s ++ r)) (s ++ r) := by
      have : t ++ x ++ s ++ r = t ++ (x ++ (s ++ r)) := by simp
      rw [this, P.next_trivia (by simpa using ht), P.next_of_leaf hl]
    have key := P.Lex.leaf (E := E) hn (ih hr (by omega))
    rw [htok, hsp]
    have e1 : E - (x ++ (s ++ r)).length = p + t.length := by simp only [List.length_append]; omega
    have e2 : E - (s ++ r).length = p + t.length + x.length := by simp only [List.length_append]; omega
    rw [e1, e2] at key
    exact key
  | @doc p t x s r inner content ts ht hx hb _ ih =>
    simp only [List.length_append] at hE
    have hn : P.next (t ++ x ++ s ++ r) = .doc content inner (x ++ (s ++ r)) (s ++ r) := by
      have : t ++ x ++ s ++ r = t ++ (x ++ (s ++ r)) := by simp
      rw [this, P.next_trivia (by simpa using ht), P.next_of_doc hx hb]
    have key := P.Lex.doc (E := E) hn (ih hr (by omega))
    have e1 : E - (x ++ (s ++ r)).length = p + t.length := by simp only [List.length_append]; omega
    have e2 : E - (s ++ r).length = p + t.length + x.length := by simp only [List.length_append]; omega
    rw [e1, e2, P.docTokens_eq] at key
    exact key
  | @group p t o c body s r d inner ts ht hd he _ _ ih1 ih2 =>
    simp only [List.length_append, List.length_cons] at hE
    have hn : P.next (t ++ o :: body ++ c :: s ++ r) =
        .opn d (o :: (body ++ (c :: (s ++ r)))) (body ++ (c :: (s ++ r))) := by
      have : t ++ o :: body ++ c :: s ++ r = t ++ o :: (body ++ (c :: (s ++ r))) := by simp
      rw [this, P.next_trivia (by simpa using ht), P.next_of_open (openD_of hd (by simpa using he))]
    have h1 := ih1 (.inr ⟨c, s ++ r, d, rfl, closeD_of hd⟩) (E := E)
      (by simp only [List.length_append, List.length_cons]; omega)
    have h2 := ih2 hr (E := E) (by omega)
    have key := P.Lex.group (r1 := s ++ r) hn h1 (closeD_of hd) h2
    have e1 : E - (o :: (body ++ (c :: (s ++ r)))).length = p + t.length := by
      simp only [List.length_append, List.length_cons]; omega
    have e2 : E - (s ++ r).length = p + t.length + 1 + body.length + 1 := by
      simp only [List.length_append]; omega
    rw [e1, e2] at key
    exact key

/-- Lexed texts are derived by the grammar. -/
theorem P.Lex.lexed {E : Nat} {s q : List Char} {ts : List TokenTree} (h : P.Lex E s ts q)
    (hE : s.length ≤ E) : ∃ body, s = body ++ q ∧ Lexed (E - s.length) body ts q := by
  induction h with
  | @eof s hn =>
    have hf := P.next_facts s
    rw [hn] at hf
    obtain ⟨t, e, ht⟩ := P.skipWs_spec s
    rw [show P.skipWs s = [] from hf] at e ht
    exact ⟨t, e, .nil ht⟩
  | @cls s d s1 r hn =>
    have hf := P.next_facts s
    rw [hn] at hf
    obtain ⟨t, e, ht⟩ := P.skipWs_spec s
    rw [← hf.1] at e ht
    exact ⟨t, e, .nil ht⟩
  | @doc s content inner s1 r ts q hn _ ih =>
    have hf := P.next_facts s
    rw [hn] at hf
    obtain ⟨t, e, ht⟩ := P.skipWs_spec s
    have hne := P.triv1_none_doc (P.triv1_skipWs s)
    rw [← hf.1] at e ht hne
    obtain ⟨x, e2, hx, hcr⟩ := P.doc_spec hne (P.next_doc hn)
    obtain ⟨body, e3, hb⟩ := ih (by have := hf.2.2; omega)
    subst e3 e2 e
    refine ⟨t ++ x ++ body, by simp, ?_⟩
    rw [P.docTokens_eq]
    have key := Lexed.doc (p := E - (t ++ (x ++ (body ++ q))).length) (t := t) (x := x) (s := body)
      (r := q) (inner := inner) (content := content) (ts := ts) (by simpa using ht) hx hcr
    simp only [List.length_append] at hE hb key ⊢
    have a1 : E - (t.length + (x.length + (body.length + q.length))) + t.length =
      E - (x.length + (body.length + q.length)) := by omega
    have a2 : E - (x.length + (body.length + q.length)) + x.length =
      E - (body.length + q.length) := by omega
    rw [a1, a2] at key
    exact key hb
  | @leaf s l s1 r ts q hn _ ih =>
    have hf := P.next_facts s
    rw [hn] at hf
    obtain ⟨t, e, ht⟩ := P.skipWs_spec s
    rw [← hf.1] at e ht
    have hl := (P.next_leaf hn).1
    obtain ⟨x, e2, hx⟩ := P.leaf_iff.mp ⟨l, hl, (show l.tok ⟨E - s1.length, E - r.length⟩ =
      l.tok (l.tok ⟨E - s1.length, E - r.length⟩).span by cases l <;> rfl)⟩
    obtain ⟨body, e3, hb⟩ := ih (by have := hf.2.2; omega)
    subst e3 e2 e
    refine ⟨t ++ x ++ body, by simp, ?_⟩
    have key := Lexed.leaf (p := E - (t ++ (x ++ (body ++ q))).length) (t := t) (x := x) (s := body)
      (r := q) (ts := ts) (by simpa using ht) hx
    simp only [List.length_append] at hE hb key ⊢
    have a1 : E - (t.length + (x.length + (body.length + q.length))) + t.length =
      E - (x.length + (body.length + q.length)) := by omega
    have a2 : E - (x.length + (body.length + q.length)) + x.length =
      E - (body.length + q.length) := by omega
    rw [a1, a2] at key
    exact key (by cases l <;> rfl) hb
  | @group s d s1 r inner c r1 ts q hn h1 hc h2 ih1 ih2 =>
    have hf := P.next_facts s
    rw [hn] at hf
    obtain ⟨t, e, ht⟩ := P.skipWs_spec s
    rw [← hf.1] at e ht
    obtain ⟨-, o, e2, ho⟩ := P.next_opn hn
    have hs1 := h1.suffix.length_le
    obtain ⟨body, e3, hb⟩ := ih1 (by have := hf.2.2; omega)
    obtain ⟨rest, e4, hr⟩ := ih2 (by have := hf.2.2; simp at hs1; omega)
    subst e4 e3 e2 e
    refine ⟨t ++ o :: body ++ c :: rest, by simp, ?_⟩
    have hd : delimChars d = some (o, c) := by
      rcases P.openD_cases ho with ⟨rfl, rfl⟩ | ⟨rfl, rfl⟩ | ⟨rfl, rfl⟩ <;>
      rcases P.closeD_cases hc with ⟨rfl, h⟩ | ⟨rfl, h⟩ | ⟨rfl, h⟩ <;>
      first
        | rfl
        | simp at h
    have he : ¬ errorText <+: o :: body ++ c :: rest ++ q := by
      intro hp
      have : startsWith (o :: (body ++ c :: (rest ++ q))) errorRepr = true :=
        startsWith_iff_prefix.mpr (by
          rw [List.append_assoc] at hp; exact hp)
      unfold P.openD at ho
      rw [this] at ho
      have : o = '(' := by
        obtain ⟨v, hv⟩ := hp
        simp [errorText] at hv
        exact hv.1.symm
      subst this
      simp at ho
    have key := Lexed.group (p := E - (t ++ (o :: (body ++ (c :: (rest ++ q))))).length) (t := t)
      (o := o) (c := c) (body := body) (s := rest) (r := q) (d := d) (inner := inner) (ts := ts)
      (by simpa using ht) hd he
    simp only [List.length_append, List.length_cons] at hE hb hr key ⊢
    have a1 : E - (t.length + (body.length + (rest.length + q.length + 1) + 1)) + t.length =
      E - (body.length + (rest.length + q.length + 1) + 1) := by omega
    have a2 : E - (body.length + (rest.length + q.length + 1) + 1) + 1 =
      E - (body.length + (rest.length + q.length + 1)) := by omega
    have a3 : E - (body.length + (rest.length + q.length + 1)) + body.length + 1 =
      E - (rest.length + q.length) := by omega
    rw [a1, a2, a3] at key
    exact key (by simpa using hb) hr

/-- The pure machine implements the grammar. -/
theorem lex_iff_lexed {src : List Char} {off : Nat} {ts : List TokenTree} :
    P.Lex (off + src.length) (P.stripBom src) ts [] ↔ TextLexed off src ts := by
  have hstrip : ∃ bom, src = bom ++ P.stripBom src ∧
      (bom = ['﻿'] ∨ bom = [] ∧ src.head? ≠ some '﻿') := by
    unfold P.stripBom
    split
    · rename_i h
      obtain ⟨u, rfl⟩ := startsWith_iff.mp h
      exact ⟨['﻿'], rfl, .inl rfl⟩
    · rename_i h
      refine ⟨[], rfl, .inr ⟨rfl, ?_⟩⟩
      intro hh
      apply h
      cases src with
      | nil => simp at hh
      | cons c s => simp at hh; subst hh; rfl
  obtain ⟨bom, e, hbom⟩ := hstrip
  have hlen : src.length = bom.length + (P.stripBom src).length := by
    rw [← List.length_append, ← e]
  constructor
  · intro h
    obtain ⟨body, e2, hl⟩ := h.lexed (by omega)
    refine ⟨bom, body, by rw [← List.append_nil body, ← e2]; exact e, hbom, ?_⟩
    rw [show off + src.length - (P.stripBom src).length = off + bom.length by omega] at hl
    exact hl
  · rintro ⟨bom', body, e2, hbom', hl⟩
    have : bom' = bom ∧ body = P.stripBom src := by
      rcases hbom with rfl | ⟨rfl, hn⟩
      · rcases hbom' with rfl | ⟨rfl, hn'⟩
        · exact ⟨rfl, List.append_cancel_left (e2.symm.trans e)⟩
        · rw [e] at hn'; exact absurd rfl hn'
      · rcases hbom' with rfl | ⟨rfl, hn'⟩
        · rw [e2] at hn; exact absurd rfl hn
        · exact ⟨rfl, by rw [e] at e2; simpa using e2.symm⟩
    obtain ⟨rfl, rfl⟩ := this
    have := lex_of_lexed hl (.inl rfl) (E := off + src.length) (by rw [hlen]; simp; omega)
    rwa [List.append_nil] at this

/-- The parser implements the grammar. -/
theorem fromStrAt_lexed {src : List Char} {off : Nat} (hb : off + src.length < u32Size)
    {ts : List TokenTree} : fromStrAt src off = .ok ts ↔ TextLexed off src ts := by
  rw [fromStrAt_ok_iff hb, lex_iff_lexed]

/-- `Literal::from_str` implements the grammar of literals. -/
theorem litAccepts_lexed {src : List Char} : P.litAccepts src = true ↔ WholeLiteral src := by
  have hlit : P.literal src = some [] ↔ LiteralText src [] := by
    rw [P.literal_iff]
    simp
  unfold WholeLiteral
  rw [← hlit]
  unfold P.litAccepts
  split
  · rename_i d u
    rw [P.literal_minus]
    simp only [Bool.and_eq_true, beq_iff_eq, List.cons.injEq, true_and, reduceCtorEq, false_or]
    rw [decDigit_iff, P.literal_iff]
    simp only [List.append_nil]
    constructor
    · rintro ⟨hd, x, rfl, hx⟩
      refine ⟨_, rfl, ?_⟩
      rcases hx with ⟨q, suf, e, hq, -⟩ | hx
      · exfalso
        exact quoted_not_digit hq e.symm hd
      · exact hx
    · rintro ⟨y, rfl, hy⟩
      obtain ⟨d', t, e, hd⟩ := number_start hy
      simp at e
      rw [e.1]
      exact ⟨hd, _, rfl, .inr (by rw [← e.1]; exact hy)⟩
  · rename_i hne
    simp only [beq_iff_eq]
    constructor
    · exact .inl
    · rintro (h | ⟨y, rfl, hy⟩)
      · exact h
      · obtain ⟨d', t, rfl, hd⟩ := number_start hy
        exact absurd rfl (hne d' t)

end

end PM2
