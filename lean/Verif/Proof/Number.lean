import Verif.Model.Number
import Verif.Proof.Layout
/-! # The texts of numbers are literals -/

set_option linter.unusedSectionVars false

namespace PM2
open Spec

/-- a digit -/
def Dig (c : Char) : Prop := '0' ≤ c ∧ c ≤ '9'

section
variable [UnicodeTables] [LawfulUnicode]

theorem dig_nat {c : Char} (h : Dig c) : 48 ≤ c.toNat ∧ c.toNat ≤ 57 := by
  have h1 := charLe.mp h.1
  have h2 := charLe.mp h.2
  exact ⟨h1, h2⟩

theorem dig_dec {c : Char} : isDecDigit c = true ↔ Dig c := by
  simp [isDecDigit, Dig]

/-- suffixes of numbers -/
def NumSuffix (suf : List Char) : Prop :=
  suf = [] ∨ (ValidIdent suf ∧ ∃ c t, suf = c :: t ∧ c ∈ ['u', 'i', 'f'])

theorem numTail_suffix {suf : List Char} (h : NumSuffix suf) : P.numTail suf = some [] := by
  rcases h with rfl | ⟨hv, c, t, rfl, -⟩
  · rfl
  · obtain ⟨c', t', e, h1, h2⟩ := hv
    simp at e
    obtain ⟨rfl, rfl⟩ := e
    unfold P.numTail
    simp only [h1, if_true]
    rw [P.identNotRaw_full ⟨_, _, rfl, h1, h2⟩]
    rfl

theorem digitsLoop_digits {suf : List Char} (h : NumSuffix suf) : ∀ {ds : List Char},
    (∀ c ∈ ds, Dig c) → ∀ e, P.digitsLoop 10 (ds ++ suf) e = some (suf, e && ds.isEmpty)
  | [], _, e => by
    rcases h with rfl | ⟨-, c, t, rfl, hc⟩
    · simp [P.digitsLoop]
    · simp only [List.mem_cons, List.not_mem_nil, or_false] at hc
      rcases hc with rfl | rfl | rfl <;> simp [P.digitsLoop]
  | d :: ds, hd, e => by
    have h1 : Dig d := hd d (by simp)
    have h2 := dig_nat h1
    unfold Dig at h1
    rw [List.cons_append]
    unfold P.digitsLoop
    rw [if_pos h1, if_neg (by omega), digitsLoop_digits h (fun c hc => hd c (by simp [hc]))]
    simp

theorem digitsBase_digits {ds suf : List Char} (hne : ds ≠ []) (hd : ∀ c ∈ ds, Dig c)
    (h : NumSuffix suf) : P.digitsBase (ds ++ suf) = (ds ++ suf, 10) := by
  have key : ∀ x : Char, x ∈ ['x', 'o', 'b'] → startsWith (ds ++ suf) ['0', x] = false := by
    intro x hx
    rw [startsWith_false_iff]
    rintro ⟨v, hv⟩
    cases ds with
    | nil => exact hne rfl
    | cons d ds =>
      simp at hv
      obtain ⟨-, hv⟩ := hv
      cases ds with
      | nil =>
        rcases h with rfl | ⟨-, c, t, rfl, hc⟩
        · simp at hv
        · simp at hv
          rw [← hv.1] at hc
          have : ∀ x ∈ ['x', 'o', 'b'], x ∉ ['u', 'i', 'f'] := by decide
          exact this x hx hc
      | cons d2 ds =>
        simp at hv
        have := dig_nat (hd d2 (by simp))
        rw [← hv.1] at this
        have h2 : ∀ x ∈ ['x', 'o', 'b'], ¬ (48 ≤ x.toNat ∧ x.toNat ≤ 57) := by decide
        exact h2 x hx this
  unfold P.digitsBase
  rw [key 'x' (by simp), key 'o' (by simp), key 'b' (by simp)]
  simp

theorem suffix_head {suf : List Char} (h : NumSuffix suf) : suf = [] ∨ ∃ c t, suf = c :: t ∧
    isDecDigit c = false ∧ c ≠ '_' ∧ c ≠ '.' ∧ c ≠ 'e' ∧ c ≠ 'E' := by
  rcases h with rfl | ⟨-, c, t, rfl, hc⟩
  · exact .inl rfl
  · refine .inr ⟨c, t, rfl, ?_⟩
    revert hc
    have : ∀ c ∈ ['u', 'i', 'f'], isDecDigit c = false ∧ c ≠ '_' ∧ c ≠ '.' ∧ c ≠ 'e' ∧ c ≠ 'E' := by decide
    exact this c

theorem mantissa_suffix {suf : List Char} (h : NumSuffix suf) (b : Bool) :
    P.mantissa suf b = some (suf, b) := by
  rcases suffix_head h with rfl | ⟨c, t, rfl, h1, h2, h3, -⟩
  · rfl
  · unfold P.mantissa
    simp [h1, h2, h3]

theorem mantissa_digits {r : List Char} {b : Bool} : ∀ {ds : List Char}, (∀ c ∈ ds, Dig c) →
    P.mantissa (ds ++ r) b = P.mantissa r b
  | [], _ => rfl
  | d :: ds, hd => by
    rw [List.cons_append]
    conv => lhs; unfold P.mantissa
    rw [dig_dec.mpr (hd d (by simp))]
    simp
    exact mantissa_digits (fun c hc => hd c (by simp [hc]))

/-- digits with a suffix are an integer literal -/
theorem literal_int {ds suf : List Char} (hne : ds ≠ []) (hd : ∀ c ∈ ds, Dig c) (h : NumSuffix suf) :
    P.literal (ds ++ suf) = some [] := by
  have hint : P.int (ds ++ suf) = some [] := by
    unfold P.int P.digits
    rw [digitsBase_digits hne hd h]
    simp only
    rw [digitsLoop_digits h hd]
    cases ds with
    | nil => exact absurd rfl hne
    | cons d ds =>
      simp
      exact numTail_suffix h
  have hfl : P.float (ds ++ suf) = none := by
    unfold P.float P.floatDigits
    cases ds with
    | nil => exact absurd rfl hne
    | cons d ds =>
      simp only [List.cons_append, dig_dec.mpr (hd d (by simp)), if_true]
      rw [mantissa_digits (fun c hc => hd c (by simp [hc])), mantissa_suffix h]
      rcases suffix_head h with rfl | ⟨c, t, rfl, -, -, -, h4, h5⟩
      · simp
      · simp [h4, h5]
  cases ds with
  | nil => exact absurd rfl hne
  | cons d ds =>
    rw [List.cons_append] at *
    rw [P.literal_digit (hd d (by simp)), hfl, hint]
    rfl

/-- digits, a dot, digits and a suffix are a float literal -/
theorem literal_float {ds fs suf : List Char} (hne : ds ≠ []) (hd : ∀ c ∈ ds, Dig c)
    (hnf : fs ≠ []) (hf : ∀ c ∈ fs, Dig c) (h : NumSuffix suf) :
    P.literal (ds ++ '.' :: (fs ++ suf)) = some [] := by
  have hfl : P.float (ds ++ '.' :: (fs ++ suf)) = some [] := by
    unfold P.float P.floatDigits
    cases ds with
    | nil => exact absurd rfl hne
    | cons d ds =>
      simp only [List.cons_append, dig_dec.mpr (hd d (by simp)), if_true]
      rw [mantissa_digits (fun c hc => hd c (by simp [hc]))]
      cases fs with
      | nil => exact absurd rfl hnf
      | cons f fs =>
        have hdig := hf f (by simp)
        have hst : isIdentStart f = false := by
          cases hh : isIdentStart f with
          | false => rfl
          | true => exact absurd hdig (identStart_not_digit hh)
        have hdot : f ≠ '.' := by
          rintro rfl
          have := dig_nat hdig
          exact absurd this (by decide)
        have hm : P.mantissa ('.' :: (f :: fs ++ suf)) false = some (suf, true) := by
          conv => lhs; unfold P.mantissa
          have : (isDecDigit '.' || '.' == '_') = false := by decide
          rw [this]
          simp [hst, hdot]
          rw [← List.cons_append, mantissa_digits hf, mantissa_suffix h]
        rw [hm]
        rcases suffix_head h with rfl | ⟨c, t, rfl, -, -, -, h4, h5⟩
        · rfl
        · simp [h4, h5]
          exact numTail_suffix h
  cases ds with
  | nil => exact absurd rfl hne
  | cons d ds =>
    rw [List.cons_append] at *
    rw [P.literal_digit (hd d (by simp)), hfl]
    rfl

theorem kind_suffix (k : IntKind) : NumSuffix k.name := by
  refine .inr ⟨?_, ?_⟩
  · have : ∀ c t, (∃ c' t', c :: t = c' :: t' ∧ c'.toNat < 128 ∧ c'.isAlpha = true ∧
        ∀ d ∈ t', d.toNat < 128 ∧ d.isAlphanum = true) → ValidIdent (c :: t) := by
      rintro c t ⟨c', t', e, h1, h2, h3⟩
      refine ⟨c', t', e, ?_, fun d hd => ?_⟩
      · unfold isIdentStart
        rw [LawfulUnicode.start_ascii _ h1, h2]; simp
      · unfold isIdentContinue
        rw [LawfulUnicode.continue_ascii _ (h3 d hd).1, (h3 d hd).2]; simp
    cases k <;> exact this _ _ ⟨_, _, rfl, by decide, by decide, by decide⟩
  · cases k <;> exact ⟨_, _, rfl, by simp⟩

theorem fkind_suffix (k : FloatKind) : NumSuffix k.name := by
  refine .inr ⟨?_, ?_⟩
  · have : ∀ c t, (∃ c' t', c :: t = c' :: t' ∧ c'.toNat < 128 ∧ c'.isAlpha = true ∧
        ∀ d ∈ t', d.toNat < 128 ∧ d.isAlphanum = true) → ValidIdent (c :: t) := by
      rintro c t ⟨c', t', e, h1, h2, h3⟩
      refine ⟨c', t', e, ?_, fun d hd => ?_⟩
      · unfold isIdentStart
        rw [LawfulUnicode.start_ascii _ h1, h2]; simp
      · unfold isIdentContinue
        rw [LawfulUnicode.continue_ascii _ (h3 d hd).1, (h3 d hd).2]; simp
    cases k <;> exact this _ _ ⟨_, _, rfl, by decide, by decide, by decide⟩
  · cases k <;> exact ⟨_, _, rfl, by simp⟩

end

theorem toDigits_dig (n : Nat) : ∀ c ∈ Nat.toDigits 10 n, Dig c := by
  intro c hc
  have h := Nat.isDigit_of_mem_toDigits (by omega) (by omega) hc
  simp only [Char.isDigit, Bool.and_eq_true, decide_eq_true_eq] at h
  exact h

end PM2
