import Verif.Proof.Shape
/-!
# Tokens do not depend on what follows a separator

`P.Bd w`: the text `w` starts with something that ends any token. The lexers give the same result on
`s ++ w` as on `s`.
-/

set_option linter.unusedSectionVars false

namespace PM2
open Spec

section
variable [UnicodeTables]

/-- `w` begins with a character that cannot continue a token, or with a comment. -/
def P.Bd (w : List Char) : Prop := ∀ c w', w = c :: w' →
  isIdentContinue c = false ∧ c ≠ '"' ∧ (c ∉ recognizedPunct ∨ ['/', '/'] <+: w ∨ ['/', '*'] <+: w)

end

section
variable [UnicodeTables] [LawfulUnicode]

/-- an ASCII character that continues identifiers -/
theorem continue_of_nat {c : Char} (h : (48 ≤ c.toNat ∧ c.toNat ≤ 57) ∨ (65 ≤ c.toNat ∧ c.toNat ≤ 90) ∨
    (97 ≤ c.toNat ∧ c.toNat ≤ 122) ∨ c = '_') : isIdentContinue c = true := by
  show xidContinue c = true
  have hlt : c.toNat < 128 := by
    rcases h with h | h | h | rfl
    · omega
    · omega
    · omega
    · decide
  rw [LawfulUnicode.continue_ascii c hlt]
  simp only [Bool.or_eq_true, beq_iff_eq, Char.isAlphanum, Char.isAlpha, Char.isUpper, Char.isLower,
    Char.isDigit, Bool.and_eq_true, decide_eq_true_eq, ge_iff_le, UInt32.le_iff_toNat_le]
  rcases h with h | h | h | h
  · left; right; exact h
  · left; left; left; exact h
  · left; left; right; exact h
  · right; exact h

theorem P.Bd.head {c : Char} {w : List Char} (h : P.Bd (c :: w)) :
    isIdentContinue c = false ∧ isIdentStart c = false ∧
    ¬ (48 ≤ c.toNat ∧ c.toNat ≤ 57) ∧ ¬ (65 ≤ c.toNat ∧ c.toNat ≤ 90) ∧
    ¬ (97 ≤ c.toNat ∧ c.toNat ≤ 122) ∧ c ≠ '_' ∧ c ≠ '"' ∧ (c ∈ recognizedPunct → c = '/') := by
  obtain ⟨h1, h2, h3⟩ := h c w rfl
  have hc : ∀ {p : Prop}, (p → isIdentContinue c = true) → ¬ p := by
    intro p hp hh; rw [hp hh] at h1; simp at h1
  refine ⟨h1, ?_, hc fun h => continue_of_nat (.inl h), hc fun h => continue_of_nat (.inr (.inl h)),
    hc fun h => continue_of_nat (.inr (.inr (.inl h))),
    hc fun h => continue_of_nat (.inr (.inr (.inr h))), h2, ?_⟩
  · cases hs : isIdentStart c with
    | false => rfl
    | true => rw [identStart_continue hs] at h1; simp at h1
  · intro hm
    rcases h3 with h3 | ⟨u, h3⟩ | ⟨u, h3⟩
    · exact absurd hm h3
    · simp at h3; exact h3.1.symm
    · simp at h3; exact h3.1.symm

theorem P.Bd.digit {c : Char} {w : List Char} (h : P.Bd (c :: w)) : isDecDigit c = false := by
  obtain ⟨-, -, h, -⟩ := h.head
  cases hd : isDecDigit c with
  | false => rfl
  | true =>
    exfalso
    have := isDecDigit_nat hd
    omega

theorem P.Bd.ne {c d : Char} {w : List Char} (h : P.Bd (c :: w)) (hd : isIdentContinue d = true ∨
    d = '"' ∨ (d ∈ recognizedPunct ∧ d ≠ '/')) : c ≠ d := by
  obtain ⟨h1, -, -, -, -, -, h2, h3⟩ := h.head
  rintro rfl
  rcases hd with hd | hd | ⟨hd, hd'⟩
  · rw [hd] at h1; simp at h1
  · exact h2 hd
  · exact hd' (h3 hd)

omit [UnicodeTables] [LawfulUnicode] in
/-- a prefix none of whose characters can start `w` is a prefix of `s` already -/
theorem prefix_ext {s w p : List Char} (h : ∀ c w', w = c :: w' → c ∉ p) :
    p <+: s ++ w ↔ p <+: s := by
  constructor
  · intro hp
    induction s generalizing p with
    | nil =>
      cases p with
      | nil => exact List.nil_prefix
      | cons d p =>
        cases w with
        | nil => exact hp
        | cons c w =>
          simp at hp
          exact absurd (by simp [hp.1]) (h c w rfl)
    | cons x s ih =>
      cases p with
      | nil => exact List.nil_prefix
      | cons d p =>
        simp only [List.cons_append, List.cons_prefix_cons] at hp ⊢
        exact ⟨hp.1, ih (fun c w' e hc => h c w' e (by simp [hc])) hp.2⟩
  · intro hp; exact hp.trans (List.prefix_append _ _)

omit [LawfulUnicode] in
theorem startsWith_ext {s w p : List Char} (h : ∀ c w', w = c :: w' → c ∉ p) :
    startsWith (s ++ w) p = startsWith s p := by
  rw [Bool.eq_iff_iff, startsWith_iff_prefix, startsWith_iff_prefix, prefix_ext h]

theorem P.Bd.not_mem {w p : List Char} (h : P.Bd w)
    (hp : ∀ d ∈ p, isIdentContinue d = true ∨ d = '"' ∨ (d ∈ recognizedPunct ∧ d ≠ '/')) :
    ∀ c w', w = c :: w' → c ∉ p := by
  rintro c w' rfl hc
  exact h.ne (hp c hc) rfl

/-- `w` begins with a character that cannot continue a literal. -/
def P.BdL [UnicodeTables] (w : List Char) : Prop := ∀ c w', w = c :: w' →
  isIdentContinue c = false ∧ c ≠ '"' ∧ c ∉ ['.', '+', '-']

theorem P.Bd.lit {w : List Char} (h : P.Bd w) : P.BdL w := by
  rintro c w' rfl
  obtain ⟨h1, -, -, -, -, -, h2, h3⟩ := h.head
  refine ⟨h1, h2, fun hc => ?_⟩
  have : ∀ c ∈ ['.', '+', '-'], c ∈ recognizedPunct ∧ c ≠ '/' := by decide
  exact (this c hc).2 (h3 (this c hc).1)

theorem P.BdL.head {c : Char} {w : List Char} (h : P.BdL (c :: w)) :
    isIdentContinue c = false ∧ isIdentStart c = false ∧
    ¬ (48 ≤ c.toNat ∧ c.toNat ≤ 57) ∧ ¬ (65 ≤ c.toNat ∧ c.toNat ≤ 90) ∧
    ¬ (97 ≤ c.toNat ∧ c.toNat ≤ 122) ∧ c ≠ '_' ∧ c ≠ '"' ∧ c ∉ ['.', '+', '-'] := by
  obtain ⟨h1, h2, h3⟩ := h c w rfl
  have hc : ∀ {p : Prop}, (p → isIdentContinue c = true) → ¬ p := by
    intro p hp hh; rw [hp hh] at h1; simp at h1
  refine ⟨h1, ?_, hc fun h => continue_of_nat (.inl h), hc fun h => continue_of_nat (.inr (.inl h)),
    hc fun h => continue_of_nat (.inr (.inr (.inl h))),
    hc fun h => continue_of_nat (.inr (.inr (.inr h))), h2, h3⟩
  cases hs : isIdentStart c with
  | false => rfl
  | true => rw [identStart_continue hs] at h1; simp at h1

theorem P.BdL.digit {c : Char} {w : List Char} (h : P.BdL (c :: w)) : isDecDigit c = false := by
  obtain ⟨-, -, h, -⟩ := h.head
  cases hd : isDecDigit c with
  | false => rfl
  | true =>
    exfalso
    have := isDecDigit_nat hd
    omega

theorem P.BdL.ne {c d : Char} {w : List Char} (h : P.BdL (c :: w)) (hd : isIdentContinue d = true ∨
    d = '"' ∨ d ∈ ['.', '+', '-']) : c ≠ d := by
  obtain ⟨h1, -, -, -, -, -, h2, h3⟩ := h.head
  rintro rfl
  rcases hd with hd | hd | hd
  · rw [hd] at h1; simp at h1
  · exact h2 hd
  · exact h3 hd

theorem P.BdL.not_mem {w p : List Char} (h : P.BdL w)
    (hp : ∀ d ∈ p, isIdentContinue d = true ∨ d = '"' ∨ d ∈ ['.', '+', '-']) :
    ∀ c w', w = c :: w' → c ∉ p := by
  rintro c w' rfl hc
  exact h.ne (hp c hc) rfl

/-! ### Identifiers and suffixes -/

theorem P.identNotRaw_ext {s w : List Char} (h : P.BdL w) :
    P.identNotRaw (s ++ w) = (P.identNotRaw s).map fun x => (x.1, x.2 ++ w) := by
  have hstop : ∀ t : List Char, (t ++ w).takeWhile isIdentContinue = t.takeWhile isIdentContinue ∧
      (t ++ w).dropWhile isIdentContinue = t.dropWhile isIdentContinue ++ w := by
    intro t
    induction t with
    | nil =>
      cases w with
      | nil => simp
      | cons c w =>
        have := h.head.1
        simp [this]
    | cons c t ih =>
      simp only [List.cons_append, List.takeWhile_cons, List.dropWhile_cons]
      split
      · simp [ih]
      · simp
  cases s with
  | nil =>
    cases w with
    | nil => rfl
    | cons c w => simp [P.identNotRaw, h.head.2.1]
  | cons c s =>
    simp only [List.cons_append, P.identNotRaw]
    split
    · simp [hstop]
    · rfl

theorem P.literalSuffix_ext {s w : List Char} (h : P.BdL w) :
    P.literalSuffix (s ++ w) = P.literalSuffix s ++ w := by
  unfold P.literalSuffix
  rw [P.identNotRaw_ext h]
  cases P.identNotRaw s <;> rfl

theorem P.wordBreak_ext {s w : List Char} (h : P.BdL w) :
    P.wordBreak (s ++ w) = (P.wordBreak s).map (· ++ w) := by
  cases s with
  | nil =>
    cases w with
    | nil => rfl
    | cons c w => simp [P.wordBreak, h.head.1]
  | cons c s => simp only [List.cons_append, P.wordBreak]; split <;> rfl

theorem P.numTail_ext {s w : List Char} (h : P.BdL w) :
    P.numTail (s ++ w) = (P.numTail s).map (· ++ w) := by
  cases s with
  | nil =>
    cases w with
    | nil => rfl
    | cons c w => simp [P.numTail, h.head.2.1, P.wordBreak, h.head.1]
  | cons c s =>
    have h1 := P.identNotRaw_ext (s := c :: s) h
    have h2 := P.wordBreak_ext (s := c :: s) h
    simp only [List.cons_append] at h1 h2
    simp only [List.cons_append, P.numTail]
    split
    · rw [h1]
      cases P.identNotRaw (c :: s) with
      | none => rfl
      | some y => obtain ⟨a, b⟩ := y; exact P.wordBreak_ext h
    · exact h2

theorem P.identAny_ext {s w : List Char} (h : P.Bd w) :
    P.identAny (s ++ w) = (P.identAny s).map fun x => (x.1, x.2.1, x.2.2 ++ w) := by
  unfold P.identAny
  rw [startsWith_ext (h.not_mem (by
    intro d hd; simp at hd; rcases hd with rfl | rfl
    · exact .inl (continue_of_nat (by decide))
    · exact .inr (.inr (by decide))))]
  split
  · rename_i hp
    obtain ⟨v, rfl⟩ := startsWith_iff.mp hp
    simp only [List.cons_append, List.nil_append, List.drop_succ_cons, List.drop_zero]
    rw [P.identNotRaw_ext h.lit]
    cases P.identNotRaw v with
    | none => rfl
    | some y =>
      obtain ⟨a, b⟩ := y
      simp only [Option.map_some]
      split <;> rfl
  · rw [P.identNotRaw_ext h.lit]
    cases P.identNotRaw s <;> rfl

/-! ### Numbers -/

theorem P.mantissa_ext {s w : List Char} (h : P.BdL w) (d : Bool) :
    P.mantissa (s ++ w) d = (P.mantissa s d).map fun x => (x.1 ++ w, x.2) := by
  have hw : ∀ d, P.mantissa w d = some (w, d) := by
    intro d
    cases w with
    | nil => rfl
    | cons c w =>
      have h1 := h.digit
      have h2 : c ≠ '_' := h.head.2.2.2.2.2.1
      have h3 : c ≠ '.' := h.ne (.inr (.inr (by decide)))
      simp [P.mantissa, h1, h2, h3]
  induction s generalizing d with
  | nil => simpa [P.mantissa] using hw d
  | cons c s ih =>
    simp only [List.cons_append, P.mantissa]
    split
    · exact ih d
    · split
      · split
        · rfl
        · cases s with
          | nil =>
            cases w with
            | nil => rfl
            | cons c' w' =>
              have h2 : c' ≠ '.' := h.ne (.inr (.inr (by decide)))
              simp [h2, h.head.2.1, hw, P.mantissa]
          | cons c' s' =>
            simp only [List.cons_append]
            split
            · rfl
            · exact ih true
      · rfl

theorem P.exponent_ext {s w : List Char} (h : P.BdL w) (a b : Bool) :
    P.exponent (s ++ w) a b = (P.exponent s a b).map (· ++ w) := by
  have hw : ∀ a b, P.exponent w a b = if b then some w else none := by
    intro a b
    cases w with
    | nil => simp [P.exponent]
    | cons c w =>
      have h1 := h.digit
      have h2 : c ≠ '_' := h.head.2.2.2.2.2.1
      have h3 : ¬ (c = '+' ∨ c = '-') := by
        rintro (e | e)
        · exact h.ne (.inr (.inr (by decide))) e
        · exact h.ne (.inr (.inr (by decide))) e
      simp only [P.exponent, h1, h2, if_neg h3, if_false, Bool.false_eq_true]
  induction s generalizing a b with
  | nil =>
    rw [List.nil_append, hw]
    simp only [P.exponent]
    split <;> rfl
  | cons c s ih =>
    simp only [List.cons_append, P.exponent]
    split
    · split
      · rfl
      · split
        · rfl
        · exact ih _ _
    · split
      · exact ih _ _
      · split
        · exact ih _ _
        · split <;> rfl

theorem P.floatDigits_ext {s w : List Char} (h : P.BdL w) :
    P.floatDigits (s ++ w) = (P.floatDigits s).map (· ++ w) := by
  cases s with
  | nil =>
    cases w with
    | nil => rfl
    | cons c w => simp [P.floatDigits, h.digit]
  | cons c s =>
    simp only [List.cons_append, P.floatDigits]
    split
    · rw [P.mantissa_ext h]
      cases P.mantissa s false with
      | none => rfl
      | some y =>
        obtain ⟨r, d⟩ := y
        simp only [Option.map_some]
        cases r with
        | nil =>
          cases w with
          | nil => simp only [List.append_nil]; split <;> rfl
          | cons e w =>
            have h1 : ¬ (e = 'e' ∨ e = 'E') := by
              rintro (rfl | rfl)
              · exact h.ne (.inl (continue_of_nat (by decide))) rfl
              · exact h.ne (.inl (continue_of_nat (by decide))) rfl
            simp only [List.nil_append, if_neg h1]
            split <;> rfl
        | cons e r =>
          simp only [List.cons_append]
          split
          · rw [P.exponent_ext h]
            cases P.exponent r false false with
            | none => simp only [Option.map_none]; split <;> rfl
            | some y => rfl
          · split <;> rfl
    · rfl

theorem P.float_ext {s w : List Char} (h : P.BdL w) :
    P.float (s ++ w) = (P.float s).map (· ++ w) := by
  unfold P.float
  rw [P.floatDigits_ext h]
  cases P.floatDigits s with
  | none => rfl
  | some y => exact P.numTail_ext h

theorem P.digitsLoop_ext {base : Nat} {s w : List Char} (h : P.BdL w) (e : Bool) :
    P.digitsLoop base (s ++ w) e = (P.digitsLoop base s e).map fun x => (x.1 ++ w, x.2) := by
  induction s generalizing e with
  | nil =>
    cases w with
    | nil => rfl
    | cons c w =>
      obtain ⟨-, -, h1, h2, h3, h4, -⟩ := h.head
      have g1 : ¬ ('0' ≤ c ∧ c ≤ '9') := by
        rintro ⟨a, b⟩
        have a := charLe.mp a; have b := charLe.mp b
        exact h1 ⟨a, b⟩
      have g2 : ¬ ('a' ≤ c ∧ c ≤ 'f') := by
        rintro ⟨a, b⟩
        have a := charLe.mp a; have b := charLe.mp b
        exact h3 ⟨a, Nat.le_trans b (by decide)⟩
      have g3 : ¬ ('A' ≤ c ∧ c ≤ 'F') := by
        rintro ⟨a, b⟩
        have a := charLe.mp a; have b := charLe.mp b
        exact h2 ⟨a, Nat.le_trans b (by decide)⟩
      simp only [List.nil_append, P.digitsLoop, if_neg g1, if_neg g2, if_neg g3, if_neg h4,
        Option.map_some]
  | cons c s ih =>
    simp only [List.cons_append, P.digitsLoop]
    split
    · split
      · rfl
      · exact ih _
    · split
      · split
        · rfl
        · exact ih _
      · split
        · split
          · rfl
          · exact ih _
        · split
          · split
            · rfl
            · exact ih _
          · rfl

theorem P.digitsBase_ext {s w : List Char} (h : P.BdL w) :
    P.digitsBase (s ++ w) = ((P.digitsBase s).1 ++ w, (P.digitsBase s).2) := by
  have hp : ∀ d : Char, isIdentContinue d = true →
      startsWith (s ++ w) ['0', d] = startsWith s ['0', d] := by
    intro d hd
    refine startsWith_ext (h.not_mem ?_)
    intro e he
    simp at he
    rcases he with rfl | rfl
    · exact .inl (continue_of_nat (by decide))
    · exact .inl hd
  unfold P.digitsBase
  rw [hp 'x' (continue_of_nat (by decide)), hp 'o' (continue_of_nat (by decide)),
    hp 'b' (continue_of_nat (by decide))]
  have hdrop : ∀ d, startsWith s ['0', d] = true → (s ++ w).drop 2 = s.drop 2 ++ w := by
    intro d hd
    obtain ⟨v, rfl⟩ := startsWith_iff.mp hd
    simp
  split
  · rename_i hx; rw [hdrop _ hx]
  · split
    · rename_i hx; rw [hdrop _ hx]
    · split
      · rename_i hx; rw [hdrop _ hx]
      · rfl

theorem P.digits_ext {s w : List Char} (h : P.BdL w) :
    P.digits (s ++ w) = (P.digits s).map (· ++ w) := by
  unfold P.digits
  rw [P.digitsBase_ext h]
  simp only
  rw [P.digitsLoop_ext h]
  cases P.digitsLoop (P.digitsBase s).2 (P.digitsBase s).1 true with
  | none => rfl
  | some y =>
    obtain ⟨r, e⟩ := y
    cases e <;> rfl

theorem P.int_ext {s w : List Char} (h : P.BdL w) : P.int (s ++ w) = (P.int s).map (· ++ w) := by
  unfold P.int
  rw [P.digits_ext h]
  cases P.digits s with
  | none => rfl
  | some y => exact P.numTail_ext h

/-! ### Literals -/

/-- numbers start with a digit, other literals do not -/
theorem P.literal_digit {d : Char} {u : List Char} (hd : '0' ≤ d ∧ d ≤ '9') :
    P.literal (d :: u) = (P.float (d :: u) <|> P.int (d :: u)) := by
  have h1 : ∀ k, P.strLit k (d :: u) = none := by
    intro k
    unfold P.strLit
    cases hb : P.strBody k (d :: u) with
    | none => rfl
    | some r =>
      obtain ⟨x, e, hx⟩ := P.strBody_iff.mp hb
      have hs := StrText.start hx r
      rw [← e] at hs
      exact absurd hd (StrStart.not_digit hs).1
  have h2 : P.byteLit (d :: u) = none := by
    unfold P.byteLit
    cases hb : P.byteBody (d :: u) with
    | none => rfl
    | some r =>
      obtain ⟨x, e, hx⟩ := P.byteBody_iff.mp hb
      simp at e
      rw [e.1] at hd
      exact absurd hd (by decide)
  have h3 : P.charLit (d :: u) = none := by
    unfold P.charLit
    cases hb : P.charBody (d :: u) with
    | none => rfl
    | some r =>
      obtain ⟨x, e, hx⟩ := P.charBody_iff.mp hb
      simp at e
      rw [e.1] at hd
      exact absurd hd (by decide)
  unfold P.literal
  rw [h1, h1, h1, h2, h3]
  rfl

/-- quoted literals, with what follows -/
theorem literal_shape' {s r : List Char} (h : P.literal s = some r) :
    (∃ x m, s = x ++ m ∧ QuotedText x ∧ r = P.literalSuffix m) ∨
    ∃ d u, s = d :: u ∧ '0' ≤ d ∧ d ≤ '9' := by
  rcases P.literal_cases h with ⟨k, h⟩ | h | h | h' | h'
  · left
    obtain ⟨m, h1, rfl⟩ := Option.map_eq_some_iff.mp h
    obtain ⟨x, rfl, hx⟩ := P.strBody_iff.mp h1
    exact ⟨x, m, rfl, .str hx, rfl⟩
  · left
    obtain ⟨m, h1, rfl⟩ := Option.map_eq_some_iff.mp h
    obtain ⟨x, rfl, hx⟩ := P.byteBody_iff.mp h1
    exact ⟨_, m, by simp, .byte hx, rfl⟩
  · left
    obtain ⟨m, h1, rfl⟩ := Option.map_eq_some_iff.mp h
    obtain ⟨x, rfl, hx⟩ := P.charBody_iff.mp h1
    exact ⟨_, m, by simp, .char hx, rfl⟩
  · right
    obtain ⟨m, h1, -⟩ := Option.bind_eq_some_iff.mp h'
    unfold P.floatDigits at h1
    cases s with
    | nil => simp at h1
    | cons d u =>
      simp only at h1
      split at h1
      · rename_i hd; exact ⟨d, u, rfl, by unfold isDecDigit at hd; simpa using hd⟩
      · simp at h1
  · right
    obtain ⟨m, h1, -⟩ := Option.bind_eq_some_iff.mp h'
    obtain ⟨c, u, e, hd⟩ := P.digits_head h1
    exact ⟨c, u, e, by unfold isDecDigit at hd; simpa using hd⟩

theorem P.literal_ext {s w r : List Char} (h : P.BdL w) (hl : P.literal s = some r) :
    P.literal (s ++ w) = some (r ++ w) := by
  rcases literal_shape' hl with ⟨x, m, rfl, hq, rfl⟩ | ⟨d, u, rfl, hd⟩
  · rw [List.append_assoc, literal_quoted hq, P.literalSuffix_ext h]
  · rw [P.literal_digit hd] at hl
    rw [List.cons_append, P.literal_digit hd, ← List.cons_append, P.float_ext h, P.int_ext h]
    cases hf : P.float (d :: u) with
    | some y => rw [hf] at hl; simp at hl; subst hl; rfl
    | none => rw [hf] at hl; simp at hl; rw [hl]; rfl

/-! ### Puncts and identifiers -/

theorem P.punctChar_bd {w : List Char} (h : P.Bd w) : P.punctChar w = none := by
  cases hp : P.punctChar w with
  | none => rfl
  | some y =>
    obtain ⟨c, r⟩ := y
    obtain ⟨rfl, h1, h2, h3⟩ := P.punctChar_spec.mp hp
    rcases (h c r rfl).2.2 with h4 | h4 | h4
    · exact absurd h1 h4
    · exact absurd h4 h2
    · exact absurd h4 h3

theorem P.punctChar_ext {s w : List Char} (h : P.Bd w)
    (hs : s = ['/'] → ∀ w', w ≠ '/' :: w') :
    P.punctChar (s ++ w) = (P.punctChar s).map fun x => (x.1, x.2 ++ w) := by
  cases s with
  | nil => rw [List.nil_append, P.punctChar_bd h]; rfl
  | cons c s =>
    have key : ∀ d, (d = '/' ∨ d = '*') →
        startsWith (c :: s ++ w) ['/', d] = startsWith (c :: s) ['/', d] := by
      intro d hd
      rw [Bool.eq_iff_iff, startsWith_iff_prefix, startsWith_iff_prefix, List.cons_append,
        List.cons_prefix_cons, List.cons_prefix_cons]
      apply and_congr_right
      rintro rfl
      cases s with
      | nil =>
        cases w with
        | nil => rfl
        | cons e w =>
          have : e ≠ d := by
            rintro rfl
            rcases hd with rfl | rfl
            · exact hs rfl w rfl
            · exact h.ne (.inr (.inr (by decide))) rfl
          simp [this.symm]
      | cons e s => simp
    unfold P.punctChar
    rw [key '/' (.inl rfl), key '*' (.inr rfl)]
    split
    · rfl
    · simp only [List.cons_append]
      split <;> rfl

theorem startsWithChar_ext {s w : List Char} (h : P.Bd w) {c : Char}
    (hc : c ∈ recognizedPunct ∧ c ≠ '/') : startsWithChar (s ++ w) c = startsWithChar s c := by
  cases s with
  | nil =>
    cases w with
    | nil => rfl
    | cons d w => simp [startsWithChar, h.ne (.inr (.inr hc))]
  | cons d s => rfl

theorem P.punct_ext {s w : List Char} (h : P.Bd w)
    (hs : s.getLast? = some '/' → ∀ w', w ≠ '/' :: w') :
    P.punct (s ++ w) = (P.punct s).map fun x => (x.1, x.2.1, x.2.2 ++ w) := by
  unfold P.punct
  rw [P.punctChar_ext h (fun e => hs (by rw [e]; rfl))]
  cases hp : P.punctChar s with
  | none => rfl
  | some y =>
    obtain ⟨c, r⟩ := y
    obtain ⟨rfl, -⟩ := P.punctChar_spec.mp hp
    simp only [Option.map_some]
    split
    · rw [P.identAny_ext h]
      cases P.identAny r with
      | none => rfl
      | some z =>
        obtain ⟨sym, raw, after⟩ := z
        simp only [Option.map_some]
        rw [startsWithChar_ext h (by decide), startsWithChar_ext h (by decide),
          startsWith_ext (h.not_mem (by
            intro d hd; simp at hd; rcases hd with rfl | rfl
            · exact .inl (continue_of_nat (by decide))
            · exact .inr (.inr (by decide))))]
        split <;> rfl
    · rw [P.punctChar_ext h (fun e => hs (by rw [e]; simp))]
      simp

theorem P.ident_ext {s w : List Char} (h : P.Bd w) :
    P.ident (s ++ w) = (P.ident s).map fun x => (x.1, x.2.1, x.2.2 ++ w) := by
  have hp : identRejectPrefixes.any (startsWith (s ++ w)) = identRejectPrefixes.any (startsWith s) := by
    rw [Bool.eq_iff_iff, List.any_eq_true, List.any_eq_true]
    have : ∀ p ∈ identRejectPrefixes, startsWith (s ++ w) p = startsWith s p := by
      intro p hp
      have hall : ∀ p ∈ identRejectPrefixes, ∀ d ∈ p, (d = 'r' ∨ d = 'b' ∨ d = 'c') ∨ d = '"' ∨
          (d ∈ recognizedPunct ∧ d ≠ '/') := by decide
      refine startsWith_ext (h.not_mem fun d hd => ?_)
      rcases hall p hp d hd with hd | hd
      · left
        rcases hd with rfl | rfl | rfl <;> exact continue_of_nat (by decide)
      · exact .inr hd
    constructor
    · rintro ⟨p, hp, h1⟩; exact ⟨p, hp, by rw [← this p hp]; exact h1⟩
    · rintro ⟨p, hp, h1⟩; exact ⟨p, hp, by rw [this p hp]; exact h1⟩
  unfold P.ident
  rw [hp]
  split
  · rfl
  · exact P.identAny_ext h

/-- A text at which an identifier or punct is recognised does not become a literal by appending. -/
theorem P.literal_none_ext {s w : List Char} (h : P.Bd w) (hl : P.literal s = none)
    (hs : (∃ c sp r, P.punct s = some (c, sp, r)) ∨ (∃ sym raw r, P.ident s = some (sym, raw, r))) :
    P.literal (s ++ w) = none := by
  cases hl' : P.literal (s ++ w) with
  | none => rfl
  | some r =>
    exfalso
    -- a quoted literal would have to extend over the end of `s`
    have hne : s ≠ [] := by
      rintro rfl
      rcases hs with ⟨c, sp, r, hp⟩ | ⟨sym, raw, r, hp⟩
      · simp [P.punct, P.punctChar, startsWith] at hp
      · simp [P.ident, P.identAny, P.identNotRaw, identRejectPrefixes, startsWith] at hp
    rcases literal_shape' hl' with ⟨x, m, e, hq, -⟩ | ⟨d, u, e, hd⟩
    · cases hq with
      | @str k x hx =>
        have hst := StrText.start hx m
        rw [← e] at hst
        -- the opening of the string lies in `s`
        have hst' : StrStart k s := by
          have hm : ∀ p : List Char, (∀ d ∈ p, d = 'r' ∨ d = 'b' ∨ d = 'c' ∨ d = '"' ∨ d = '#') →
              p <+: s ++ w → p <+: s := by
            intro p hp hpre
            refine (prefix_ext (h.not_mem ?_)).mp hpre
            intro d hd
            rcases hp d hd with rfl | rfl | rfl | rfl | rfl
            · exact .inl (continue_of_nat (by decide))
            · exact .inl (continue_of_nat (by decide))
            · exact .inl (continue_of_nat (by decide))
            · exact .inr (.inl rfl)
            · exact .inr (.inr (by decide))
          rcases hst with h1 | h1 | h1
          · exact .inl (hm _ (by cases k <;> decide) h1)
          · exact .inr (.inl (hm _ (by cases k <;> decide) h1))
          · exact .inr (.inr (hm _ (by cases k <;> decide) h1))
        rcases hs with ⟨c, sp, r, hp⟩ | ⟨sym, raw, r, hp⟩
        · obtain ⟨rfl, hm, -⟩ := P.punct_spec hp
          have : c = '"' ∨ c = 'r' ∨ c = 'b' ∨ c = 'c' := by
            rcases hst' with ⟨v, hv⟩ | ⟨v, hv⟩ | ⟨v, hv⟩ <;> cases k <;> simp [kindPrefix] at hv <;>
              simp [← hv.1]
          rcases this with rfl | rfl | rfl | rfl <;> exact absurd hm (by decide)
        · unfold P.ident at hp
          split at hp
          · simp at hp
          · rename_i hrej
            have hrej : ∀ p ∈ identRejectPrefixes, ¬ p <+: s := by
              intro p hp hpre
              apply hrej
              rw [List.any_eq_true]
              exact ⟨p, hp, startsWith_iff_prefix.mpr hpre⟩
            rcases hst' with h1 | h1 | h1
            · cases k with
              | str =>
                obtain ⟨v, rfl⟩ := h1
                have := P.identAny_head hp
                obtain ⟨c, u, e1, hc⟩ := this
                simp [kindPrefix] at e1
                rw [← e1.1] at hc
                rcases hc with hc | hc
                · have := (identStart_facts hc).2 (by decide)
                  exact absurd this (by decide)
                · exact absurd hc (by decide)
              | byte => exact hrej _ (by decide) h1
              | c => exact hrej _ (by decide) h1
            · cases k <;> exact hrej _ (by decide) h1
            · cases k with
              | byte => exact hrej _ (by decide) h1
              | c => exact hrej _ (by decide) h1
              | str =>
                -- `r#` followed by an identifier: no quote follows the hashes
                obtain ⟨v, rfl⟩ := h1
                have hsp := PM2.identAny_spec hp
                have e1 := hsp.1
                obtain ⟨c, t, hsym, hc, -⟩ := hsp.2.1
                subst hsym
                cases raw with
                | false =>
                  exact hsp.2.2.2.2 rfl ⟨v, rfl⟩
                | true =>
                  simp [kindPrefix] at e1
                  subst e1
                  cases hx with
                  | cooked hb => simp [kindPrefix] at e
                  | @raw n b hn hb =>
                    simp [kindPrefix] at e
                    have hcq : c ≠ '"' ∧ c ≠ '#' := by
                      have := (identStart_facts hc).2
                      constructor <;> (rintro rfl; revert this; decide)
                    cases n with
                    | zero => simp at e
                    | succ n =>
                      simp [List.replicate_succ] at e
                      cases n with
                      | zero => simp at e; exact hcq.1 e.1
                      | succ n => simp [List.replicate_succ] at e; exact hcq.2 e.1
      | @byte el he =>
        have hpre : ['b', '\''] <+: s := by
          refine (prefix_ext (h.not_mem ?_)).mp (?_ : ['b', '\''] <+: s ++ w)
          · intro d hd
            simp at hd
            rcases hd with rfl | rfl
            · exact .inl (continue_of_nat (by decide))
            · exact .inr (.inr (by decide))
          · rw [e]; exact ⟨_, by simp; rfl⟩
        rcases hs with ⟨c, sp, r, hp⟩ | ⟨sym, raw, r, hp⟩
        · obtain ⟨rfl, hm, -⟩ := P.punct_spec hp
          obtain ⟨v, hv⟩ := hpre
          simp at hv
          rw [← hv.1] at hm
          exact absurd hm (by decide)
        · unfold P.ident at hp
          split at hp
          · simp at hp
          · rename_i hrej
            apply hrej
            rw [List.any_eq_true]
            exact ⟨['b', '\''], by decide, startsWith_iff_prefix.mpr hpre⟩
      | @char el he =>
        obtain ⟨c, u, rfl⟩ : ∃ c u, s = c :: u := by
          cases s with
          | nil => exact absurd rfl hne
          | cons c u => exact ⟨c, u, rfl⟩
        simp at e
        obtain ⟨rfl, e⟩ := e
        rcases hs with ⟨c, sp, r, hp⟩ | ⟨sym, raw, r, hp⟩
        · obtain ⟨e1, -, -, h4⟩ := P.punct_spec hp
          simp at e1
          obtain ⟨rfl, rfl⟩ := e1
          obtain ⟨-, sym, raw, after, hi, haft⟩ := h4 rfl
          obtain ⟨c, u, rfl, hc⟩ := P.identAny_head hi
          have hcb : isIdentStart c = true := by
            rcases hc with hc | rfl
            · exact hc
            · simp only [isIdentStart, Bool.or_eq_true]
              right
              rw [LawfulUnicode.start_ascii _ (by decide)]; decide
          have hcs : c ≠ '\\' := by
            rintro rfl
            have := (identStart_facts hcb).2 (by decide)
            exact absurd this (by decide)
          -- one character, then the closing quote
          have hel : el = [c] := by
            cases he with
            | char h1 => simp at e; rw [e.1]
            | simple h1 => simp at e; exact absurd e.1 hcs
            | hex h1 h2 => simp at e; exact absurd e.1 hcs
            | uni h1 => simp at e; exact absurd e.1 hcs
          subst hel
          simp at e
          have hu : ∃ u', u = '\'' :: u' := by
            cases u with
            | nil =>
              simp at e
              rw [e] at h
              exact absurd rfl (h.ne (d := '\'') (.inr (.inr (by decide))))
            | cons d u => simp at e; exact ⟨u, by rw [e.1]⟩
          obtain ⟨u', rfl⟩ := hu
          -- then the text would have been a character literal already
          have hbody : P.charBody ('\'' :: c :: '\'' :: u') = some u' :=
            P.charBody_iff.mpr ⟨[c], rfl, .char hcs⟩
          have : P.literal ('\'' :: [c] ++ ['\''] ++ u') = _ := literal_quoted (.char (.char hcs)) u'
          simp at this
          rw [this] at hl
          simp at hl
        · unfold P.ident at hp
          split at hp
          · simp at hp
          · obtain ⟨c, u', e1, hc⟩ := P.identAny_head hp
            simp at e1
            rw [← e1.1] at hc
            rcases hc with hc | hc
            · have := (identStart_facts hc).2 (by decide)
              exact absurd this (by decide)
            · exact absurd hc (by decide)
    · cases s with
      | nil => exact hne rfl
      | cons c s =>
        simp at e
        obtain ⟨rfl, rfl⟩ := e
        rw [P.literal_digit hd] at hl
        rw [List.cons_append, P.literal_digit hd, ← List.cons_append, P.float_ext h.lit, P.int_ext h.lit] at hl'
        cases hf : P.float (c :: s) with
        | some y => rw [hf] at hl; simp at hl
        | none =>
          rw [hf] at hl hl'
          simp at hl
          rw [hl] at hl'
          simp at hl'

/-- A leaf token does not depend on what follows a separator. -/
theorem P.leaf_ext {s w r : List Char} {l : P.Leaf} (h : P.Bd w)
    (hs : s.getLast? = some '/' → ∀ w', w ≠ '/' :: w') (hl : P.leaf s = some (l, r)) :
    P.leaf (s ++ w) = some (l, r ++ w) := by
  unfold P.leaf at hl ⊢
  cases h1 : P.literal s with
  | some r1 =>
    rw [h1] at hl
    rw [P.literal_ext h.lit h1]
    simp at hl
    obtain ⟨rfl, rfl⟩ := hl
    have hsuf := (P.literal_suffix h1).1
    obtain ⟨x, rfl⟩ := hsuf
    simp [P.eaten]
  | none =>
    rw [h1] at hl
    simp only at hl
    cases h2 : P.punct s with
    | some y =>
      obtain ⟨c, sp, r2⟩ := y
      rw [h2] at hl
      rw [P.literal_none_ext h h1 (.inl ⟨_, _, _, h2⟩), P.punct_ext h hs, h2]
      simp at hl
      obtain ⟨rfl, rfl⟩ := hl
      rfl
    | none =>
      rw [h2] at hl
      simp only at hl
      cases h3 : P.ident s with
      | some y =>
        obtain ⟨sym, raw, r2⟩ := y
        rw [h3] at hl
        rw [P.literal_none_ext h h1 (.inr ⟨_, _, _, h3⟩), P.punct_ext h hs, h2, P.ident_ext h, h3]
        simp at hl
        obtain ⟨rfl, rfl⟩ := hl
        rfl
      | none =>
        rw [h3] at hl
        simp only at hl
        split at hl
        · rename_i he
          simp at hl
          obtain ⟨rfl, rfl⟩ := hl
          obtain ⟨v, rfl⟩ := startsWith_iff.mp he
          have h4 : P.literal (errorRepr ++ v ++ w) = none := by
            cases hq : P.literal (errorRepr ++ v ++ w) with
            | none => rfl
            | some y =>
              obtain ⟨c, u, e, hc⟩ := P.literal_head hq
              simp [errorRepr] at e
              rw [← e.1] at hc
              exact absurd hc (by decide)
          rw [h4, P.punct_ext h hs, h2, P.ident_ext h, h3]
          simp only [Option.map_none]
          have : startsWith (errorRepr ++ v ++ w) errorRepr = true :=
            startsWith_iff.mpr ⟨v ++ w, by simp⟩
          rw [if_pos this]
          simp
        · simp at hl

end
end PM2
