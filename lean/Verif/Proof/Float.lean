import Verif.Spec.Float
import Verif.Props.Numbers
/-! # Values of floats and layout of digits -/

namespace PM2
open Spec Props

/-! ### Values -/

theorem floatValue_lt (k : FloatKind) (b : Nat) : floatValue k b < floatValue k (b + 1) := by
  unfold floatValue
  generalize (floatFormat k).1 = p
  have hp : 0 < 2 ^ p := Nat.two_pow_pos p
  simp only
  by_cases h1 : b + 1 < 2 ^ p
  · rw [if_pos h1, if_pos (by omega)]; omega
  · rw [if_neg h1]
    by_cases h2 : b < 2 ^ p
    · have e : b + 1 = 2 ^ p := by omega
      rw [if_pos h2, e, Nat.mod_self, Nat.div_self hp]
      simp; omega
    · rw [if_neg h2]
      obtain ⟨q, hq⟩ : ∃ q, b / 2 ^ p = q + 1 := ⟨b / 2 ^ p - 1, by
        have := (Nat.one_le_div_iff hp).mpr (Nat.le_of_not_lt h2); omega⟩
      have hm := Nat.mod_lt b hp
      have hb := Nat.div_add_mod b (2 ^ p)
      by_cases h3 : b % 2 ^ p + 1 < 2 ^ p
      · have e1 : (b + 1) % 2 ^ p = b % 2 ^ p + 1 := by
          rw [Nat.add_mod]
          by_cases h5 : 1 < 2 ^ p
          · rw [Nat.mod_eq_of_lt h5, Nat.mod_eq_of_lt h3]
          · omega
        have e2 : (b + 1) / 2 ^ p = b / 2 ^ p := by
          rw [Nat.div_eq_iff hp]
          rw [Nat.mul_comm] at hb
          constructor <;> omega
        rw [e1, e2, hq]
        exact Nat.mul_lt_mul_of_pos_right (by omega) (Nat.two_pow_pos _)
      · have e0 : b + 1 = 2 ^ p * (b / 2 ^ p + 1) := by rw [Nat.mul_add, Nat.mul_one]; omega
        have e1 : (b + 1) % 2 ^ p = 0 := by rw [e0]; exact Nat.mul_mod_right _ _
        have e2 : (b + 1) / 2 ^ p = b / 2 ^ p + 1 := by
          rw [e0]; exact Nat.mul_div_cancel_left _ hp
        rw [e1, e2, hq]
        have : 2 ^ (q + 1 + 1 - 1) = 2 * 2 ^ (q + 1 - 1) := by
          rw [show q + 1 + 1 - 1 = (q + 1 - 1) + 1 by omega, Nat.pow_succ, Nat.mul_comm]
        rw [this, Nat.add_zero, ← Nat.mul_assoc]
        exact Nat.mul_lt_mul_of_pos_right (by omega) (Nat.two_pow_pos _)

theorem floatValue_mono (k : FloatKind) {a b : Nat} (h : a ≤ b) : floatValue k a ≤ floatValue k b := by
  induction h with
  | refl => exact Nat.le_refl _
  | step _ ih => exact Nat.le_trans ih (Nat.le_of_lt (floatValue_lt k _))

theorem floatValue_strict (k : FloatKind) {a b : Nat} (h : a < b) : floatValue k a < floatValue k b :=
  Nat.lt_of_lt_of_le (floatValue_lt k a) (floatValue_mono k h)

theorem Spec.RoundsTo.unique_lt {k : FloatKind} {m e b b' : Nat} (h : RoundsTo k m e b) (h' : RoundsTo k m e b')
    (hlt : b < b') : False := by
  obtain ⟨-, h⟩ := h
  obtain ⟨h', -⟩ := h'
  have h1 : floatValue k b + floatValue k (b + 1) ≤ floatValue k (b' - 1) + floatValue k b' :=
    Nat.add_le_add (floatValue_mono k (by omega)) (floatValue_mono k (by omega))
  have h2 := Nat.mul_le_mul_right (10 ^ e) h1
  by_cases hs : b + 1 = b'
  · subst hs; omega
  · have h3 : floatValue k b + floatValue k (b + 1) < floatValue k (b' - 1) + floatValue k b' :=
      Nat.add_lt_add (floatValue_strict k (by omega)) (floatValue_strict k (by omega))
    have h4 := Nat.mul_lt_mul_of_pos_right h3 (Nat.pow_pos (n := e) (by decide : 0 < 10))
    omega

theorem Spec.RoundsTo.scale {k : FloatKind} {m e b : Nat} (h : RoundsTo k m e b) : RoundsTo k (m * 10) (e + 1) b := by
  obtain ⟨h1, h2⟩ := h
  refine ⟨?_, ?_⟩
  · rw [Nat.pow_succ, ← Nat.mul_assoc,
      show 2 * (m * 10) * 2 ^ (floatFormat k).2.2 = 2 * m * 2 ^ (floatFormat k).2.2 * 10 by
        rw [← Nat.mul_assoc, Nat.mul_right_comm]]
    omega
  · rw [Nat.pow_succ, ← Nat.mul_assoc (floatValue k b + floatValue k (b + 1)),
      show 2 * (m * 10) * 2 ^ (floatFormat k).2.2 = 2 * m * 2 ^ (floatFormat k).2.2 * 10 by
        rw [← Nat.mul_assoc, Nat.mul_right_comm]]
    omega

theorem Spec.FiniteFloat.lt {k : FloatKind} {b : Nat} (h : FiniteFloat k b) : b < 2 ^ (k.fracBits + k.expBits) := by
  unfold FiniteFloat at h
  cases k <;> simp only [floatFormat, FloatKind.fracBits, FloatKind.expBits] at h ⊢ <;> omega

/-! ### Layout -/

theorem decNumber_snoc (a : List Char) (c : Char) : decNumber (a ++ [c]) = decNumber a * 10 + (c.toNat - 48) := by
  rw [decNumber_append]; rfl

theorem decNumber_zeros (a : List Char) (n : Nat) : decNumber (a ++ List.replicate n '0') = decNumber a * 10 ^ n := by
  induction n with
  | zero => simp
  | succ n ih =>
    rw [List.replicate_succ', ← List.append_assoc, decNumber_snoc, ih, Nat.pow_succ, ← Nat.mul_assoc]
    rfl

theorem decNumber_leading (n : Nat) (a : List Char) : decNumber (List.replicate n '0' ++ a) = decNumber a := by
  rw [decNumber_append]
  have : decNumber (List.replicate n '0') = 0 := by
    have := decNumber_zeros [] n
    simpa [decNumber] using this
  rw [this]; rfl

theorem digitsToDecStr_denotes {buf : List Char} (hne : buf ≠ []) (hd : ∀ c ∈ buf, '0' ≤ c ∧ c ≤ '9') (exp : Int) :
    Denotes (digitsToDecStr buf exp) (decNumber buf * 10 ^ (exp - buf.length).toNat)
      ((buf.length : Int) - exp).toNat := by
  have hpos := List.length_pos_iff.mpr hne
  have hz : ∀ n, ∀ c ∈ List.replicate n '0', '0' ≤ c ∧ c ≤ '9' := by
    intro n c hc; rw [List.eq_of_mem_replicate hc]; decide
  unfold digitsToDecStr
  by_cases h1 : exp ≤ 0
  · rw [if_pos h1]
    refine ⟨['0'], List.replicate (-exp).toNat '0' ++ buf, by simp, ?_, ?_, ?_, .inr ⟨by simp [hne], rfl⟩⟩
    · intro c hc
      rcases List.mem_append.mp hc with hc | hc
      · exact hz 1 c hc
      · rcases List.mem_append.mp hc with hc | hc
        · exact hz _ c hc
        · exact hd c hc
    · rw [show ['0'] = List.replicate 1 '0' from rfl, decNumber_leading, decNumber_leading,
        show (exp - buf.length).toNat = 0 by omega, Nat.pow_zero, Nat.mul_one]
    · rw [List.length_append, List.length_replicate]; omega
  · rw [if_neg h1]
    by_cases h2 : exp.toNat < buf.length
    · rw [if_pos h2]
      refine ⟨buf.take exp.toNat, buf.drop exp.toNat, ?_, ?_, ?_, ?_, .inr ⟨?_, rfl⟩⟩
      · intro h; have := congrArg List.length h; rw [List.length_take, List.length_nil] at this; omega
      · rw [List.take_append_drop]; exact hd
      · rw [List.take_append_drop, show (exp - buf.length).toNat = 0 by omega, Nat.pow_zero, Nat.mul_one]
      · rw [List.length_drop]; omega
      · intro h; have := congrArg List.length h; rw [List.length_drop, List.length_nil] at this; omega
    · rw [if_neg h2]
      refine ⟨buf ++ List.replicate (exp.toNat - buf.length) '0', [], by simp [hne], ?_, ?_, ?_, .inl ⟨rfl, rfl⟩⟩
      · rw [List.append_nil]
        intro c hc
        rcases List.mem_append.mp hc with hc | hc
        · exact hd c hc
        · exact hz _ c hc
      · rw [List.append_nil, decNumber_zeros]; congr 2; omega
      · rw [List.length_nil]; omega

theorem Spec.Denotes.floatText {x : List Char} {m e : Nat} (h : Denotes x m e) : FloatText x := by
  obtain ⟨ds, gs, h1, h2, -, -, ⟨rfl, rfl⟩ | ⟨h3, rfl⟩⟩ := h
  · exact ⟨x, [], (List.append_nil x).symm, h1, fun c hc => h2 c (by simp [hc]), .inl rfl⟩
  · exact ⟨ds, '.' :: gs, rfl, h1, fun c hc => h2 c (by simp [hc]),
      .inr ⟨gs, rfl, h3, fun c hc => h2 c (by simp [hc])⟩⟩

theorem Spec.Denotes.point {x : List Char} {m e : Nat} (h : Denotes x m e) : '.' ∈ x ↔ e ≠ 0 := by
  obtain ⟨ds, gs, h1, h2, -, rfl, ⟨rfl, rfl⟩ | ⟨h3, rfl⟩⟩ := h
  · simp only [List.length_nil, ne_eq, not_true_eq_false, iff_false]
    intro hm
    exact absurd (h2 '.' (by simp [hm])) (by decide)
  · simp [h3]

theorem Spec.Denotes.dotZero {x : List Char} {m : Nat} (h : Denotes x m 0) : Denotes (x ++ ['.', '0']) (m * 10) 1 := by
  obtain ⟨ds, gs, h1, h2, h3, h4, h5⟩ := h
  have : gs = [] := List.length_eq_zero_iff.mp h4
  subst this
  rw [List.append_nil] at h2 h3
  obtain ⟨-, rfl⟩ | ⟨h, -⟩ := h5
  · refine ⟨x, ['0'], h1, ?_, ?_, rfl, .inr ⟨by simp, rfl⟩⟩
    · intro c hc
      rcases List.mem_append.mp hc with hc | hc
      · exact h2 c hc
      · rw [List.mem_singleton.mp hc]; decide
    · rw [decNumber_snoc, h3]; rfl
  · exact absurd rfl h

/-! ### Display -/

theorem floatIsFinite_iff (k : FloatKind) (bits : Nat) :
    floatIsFinite k bits = true ↔ FiniteFloat k (floatMagnitude k bits) := by
  have hm : floatMagnitude k bits < 2 ^ (k.fracBits + k.expBits) := Nat.mod_lt _ (Nat.two_pow_pos _)
  have hp : (floatFormat k).1 = k.fracBits ∧ (floatFormat k).2.1 = k.expBits := by cases k <;> exact ⟨rfl, rfl⟩
  unfold floatIsFinite floatClassify FiniteFloat
  rw [hp.1, hp.2]
  revert hm
  generalize floatMagnitude k bits = m
  intro hm
  have hpos : 0 < 2 ^ k.fracBits := Nat.two_pow_pos _
  have he : 0 < 2 ^ k.expBits := Nat.two_pow_pos _
  have hlt : m / 2 ^ k.fracBits < 2 ^ k.expBits :=
    (Nat.div_lt_iff_lt_mul hpos).mpr (by rw [Nat.pow_add, Nat.mul_comm] at hm; exact hm)
  simp only
  rw [← Nat.div_lt_iff_lt_mul hpos]
  by_cases h : m / 2 ^ k.fracBits = 2 ^ k.expBits - 1
  · rw [if_pos h]
    constructor
    · intro hc; split at hc <;> simp_all <;> split at * <;> simp_all
    · omega
  · rw [if_neg h]
    constructor
    · omega
    · intro _; split <;> split at * <;> simp_all

section
variable [ShortestDigits] [LawfulShortest]

theorem floatDisplay_eq {k : FloatKind} {bits : Nat} (h : FiniteFloat k (floatMagnitude k bits)) :
    ∃ x m e, floatDisplay k bits = (if floatNegative k bits then ['-'] else []) ++ x ∧ Denotes x m e ∧
      RoundsTo k m e (floatMagnitude k bits) := by
  have hf := (floatIsFinite_iff k bits).mpr h
  unfold floatIsFinite at hf
  unfold floatDisplay
  cases hc : floatClassify k bits with
  | nan => rw [hc] at hf; cases hf
  | infinite => rw [hc] at hf; cases hf
  | zero =>
    refine ⟨['0'], 0, 0, rfl, ⟨['0'], [], by simp, by decide, rfl, rfl, .inl ⟨rfl, rfl⟩⟩, ?_⟩
    have h0 : floatMagnitude k bits = 0 := by
      unfold floatClassify at hc
      simp only at hc
      split at hc
      · split at hc <;> cases hc
      · split at hc
        · assumption
        · cases hc
    rw [h0]
    refine ⟨.inl rfl, .inl ?_⟩
    have := floatValue_lt k 0
    simp only [Nat.pow_zero, Nat.mul_one, Nat.mul_zero, Nat.zero_mul]
    omega
  | finite =>
    have h0 : floatMagnitude k bits ≠ 0 := by
      unfold floatClassify at hc
      simp only at hc
      split at hc
      · split at hc <;> cases hc
      · split at hc
        · cases hc
        · assumption
    exact ⟨_, _, _, rfl, digitsToDecStr_denotes (LawfulShortest.nonempty k _ h h0)
      (LawfulShortest.isDigit k _ h h0) _, LawfulShortest.rounds k _ h h0⟩

end

end PM2
