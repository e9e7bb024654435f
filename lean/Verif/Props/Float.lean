import Verif.Proof.Float
import Verif.Spec.Decide
/-! # C91: float literals read back as the same float -/

namespace PM2.Props
open Spec

theorem signed_split {k : FloatKind} {neg : Bool} {b : Nat} (h : b < 2 ^ (k.fracBits + k.expBits)) :
    floatMagnitude k (signed k neg b) = b ∧ floatNegative k (signed k neg b) = neg := by
  unfold floatMagnitude floatNegative
  cases neg with
  | false =>
    have e : signed k false b = b := by cases k <;> rfl
    rw [e, Nat.mod_eq_of_lt h, Nat.div_eq_of_lt h]
    exact ⟨rfl, rfl⟩
  | true =>
    have e : signed k true b = 2 ^ (k.fracBits + k.expBits) + b := by cases k <;> rfl
    rw [e, Nat.add_mod_left, Nat.mod_eq_of_lt h, Nat.add_div_left _ (Nat.two_pow_pos _), Nat.div_eq_of_lt h]
    exact ⟨rfl, rfl⟩

/-- **C91**, the float that a decimal number is rounded to is unique. -/
theorem C91_unique {k : FloatKind} {m e b b' : Nat} (h : RoundsTo k m e b) (h' : RoundsTo k m e b') : b = b' := by
  rcases Nat.lt_trichotomy b b' with hl | he | hl
  · exact (h.unique_lt h' hl).elim
  · exact he
  · exact (h'.unique_lt h hl).elim

section
variable [UnicodeTables] [LawfulUnicode] [ShortestDigits] [LawfulShortest] {ε : Type}

/-- **C91.** For every finite float, the unsuffixed constructor gives the sign and a text with a point that reads as
one literal and denotes a decimal number that is rounded to that float. -/
theorem C91_unsuffixed (k : FloatKind) (neg : Bool) {b : Nat} (hb : FiniteFloat k b) :
    ∃ x m e, '.' ∈ x ∧ Denotes x m e ∧ RoundsTo k m e b ∧ ReadsAsNumber x ∧
      Literal.fromFloatUnsuffixed (ε := ε) k (signed k neg b) =
        .ok (.literal ((if neg then ['-'] else []) ++ x) Span.callSite) := by
  obtain ⟨hm, hn⟩ := signed_split (neg := neg) hb.lt
  obtain ⟨x, m, e, hx, hd, hr⟩ := floatDisplay_eq (k := k) (bits := signed k neg b) (by rw [hm]; exact hb)
  rw [hm] at hr
  rw [hn] at hx
  have hfin := (floatIsFinite_iff k (signed k neg b)).mpr (by rw [hm]; exact hb)
  obtain ⟨-, y, h1, h2, h3, h4, h5, h6⟩ := C24_unsuffixed (ε := ε) hd.floatText
  have key : Literal.fromFloatUnsuffixed (ε := ε) k (signed k neg b) =
      .ok (.literal ((if neg then ['-'] else []) ++ y) Span.callSite) := by
    unfold Literal.fromFloatUnsuffixed
    rw [hfin, hx]
    cases neg with
    | false => exact h5
    | true => exact h6
  by_cases he : e = 0
  · subst he
    have hp : '.' ∉ x := fun h => absurd rfl (hd.point.mp h)
    refine ⟨y, m * 10, 1, h3, ?_, hr.scale, h4, key⟩
    rw [h2 hp]; exact hd.dotZero
  · refine ⟨y, m, e, h3, ?_, hr, h4, key⟩
    rw [h1 (hd.point.mpr he)]; exact hd

/-- **C91**, the suffixed constructors: the name of the type follows the number. -/
theorem C91_suffixed (k : FloatKind) (neg : Bool) {b : Nat} (hb : FiniteFloat k b) :
    ∃ x m e, Denotes x m e ∧ RoundsTo k m e b ∧ ReadsAsNumber (x ++ floatTypeName k) ∧
      Literal.fromFloatSuffixed (ε := ε) k (signed k neg b) =
        .ok (.literal ((if neg then ['-'] else []) ++ (x ++ floatTypeName k)) Span.callSite) := by
  obtain ⟨hm, hn⟩ := signed_split (neg := neg) hb.lt
  obtain ⟨x, m, e, hx, hd, hr⟩ := floatDisplay_eq (k := k) (bits := signed k neg b) (by rw [hm]; exact hb)
  rw [hm] at hr
  rw [hn] at hx
  have hfin := (floatIsFinite_iff k (signed k neg b)).mpr (by rw [hm]; exact hb)
  obtain ⟨-, h4, h5, h6⟩ := C24_suffixed (ε := ε) k hd.floatText
  refine ⟨x, m, e, hd, hr, h4, ?_⟩
  unfold Literal.fromFloatSuffixed
  rw [hfin, hx]
  cases neg with
  | false => exact h5
  | true => exact h6

omit [UnicodeTables] [LawfulUnicode] [LawfulShortest] in
/-- **C91**, infinities and NaNs: the constructors panic. -/
theorem C91_panics (k : FloatKind) (neg : Bool) {b : Nat} (hlt : b < 2 ^ (k.fracBits + k.expBits))
    (hb : ¬ FiniteFloat k b) :
    Literal.fromFloatUnsuffixed (ε := ε) k (signed k neg b) = .panic ∧
    Literal.fromFloatSuffixed (ε := ε) k (signed k neg b) = .panic := by
  obtain ⟨hm, hn⟩ := signed_split (neg := neg) hlt
  have hfin : floatIsFinite k (signed k neg b) = false := by
    rw [← Bool.not_eq_true, floatIsFinite_iff, hm]; exact hb
  unfold Literal.fromFloatUnsuffixed Literal.fromFloatSuffixed
  rw [hfin]
  exact ⟨rfl, rfl⟩

end

/-! ### Examples -/

/-- All digits of the float, which is one lawful choice. -/
@[instance_reducible] def exactDigits : ShortestDigits where
  digits k b :=
    let ds := natDec (floatValue k b * 5 ^ (floatFormat k).2.2)
    (ds, (ds.length : Int) - (floatFormat k).2.2)

attribute [local instance] exactDigits

theorem exactDigits_lawful : LawfulShortest where
  nonempty _ _ _ _ := (natDec_decimal _).nonempty
  isDigit _ _ _ _ := (natDec_decimal _).digits
  rounds k b _ h0 := by
    generalize hu : (floatFormat k).2.2 = u
    generalize hds : natDec (floatValue k b * 5 ^ u) = ds
    have e : ShortestDigits.digits k b = (ds, (ds.length : Int) - u) := by rw [← hds, ← hu]; rfl
    rw [e]
    simp only
    rw [← hds, (natDec_decimal _).value, hds]
    rw [show ((ds.length : Int) - u - ds.length).toNat = 0 by omega,
      show ((ds.length : Int) - (ds.length - u)).toNat = u by omega, Nat.pow_zero, Nat.mul_one]
    have e : 2 * (floatValue k b * 5 ^ u) * 2 ^ (floatFormat k).2.2 = (floatValue k b + floatValue k b) * 10 ^ u := by
      rw [hu, show (10 : Nat) = 5 * 2 from rfl, Nat.mul_pow, ← Nat.two_mul, ← Nat.mul_assoc, ← Nat.mul_assoc]
    have h10 : 0 < 10 ^ u := Nat.pow_pos (by decide)
    refine ⟨.inr (.inl ?_), .inl ?_⟩
    · simp only [e]
      exact Nat.mul_lt_mul_of_pos_right (Nat.add_lt_add_right (floatValue_strict k (by omega)) _) h10
    · simp only [e]
      exact Nat.mul_lt_mul_of_pos_right (Nat.add_lt_add_left (floatValue_lt k b) _) h10

section
attribute [local instance] sampleTables sampleTables_lawful exactDigits_lawful

example : FiniteFloat .f32 0x3fc00000 := by unfold FiniteFloat; decide
example : FiniteFloat .f64 0 ∧ ¬ FiniteFloat .f64 0x7ff0000000000000 := by unfold FiniteFloat; decide

/-- `1.5f32`, with all its digits. -/
example : RoundsTo .f32 15 1 0x3fc00000 := by unfold RoundsTo; decide +kernel

/-- `16777217` is halfway between two floats and is rounded to the even one. -/
example : RoundsTo .f32 16777217 0 0x4b800000 ∧ ¬ RoundsTo .f32 16777217 0 0x4b800001 := by
  unfold RoundsTo; decide +kernel

/-- The largest float, and the least number that is not rounded to it. -/
example : RoundsTo .f32 340282356779733661637539395458142568447 0 0x7f7fffff ∧
    ¬ RoundsTo .f32 340282356779733661637539395458142568448 0 0x7f7fffff := by
  unfold RoundsTo; decide +kernel

example : Literal.fromFloatUnsuffixed (ε := Unit) .f64 0x8000000000000000 =
    .ok (.literal "-0.0".toList Span.callSite) := by decide +kernel
example : Literal.fromFloatSuffixed (ε := Unit) .f32 0 = .ok (.literal "0f32".toList Span.callSite) := by
  decide +kernel
example : Literal.fromFloatUnsuffixed (ε := Unit) .f32 0x7fc00000 = .panic := by decide +kernel
example : digitsToDecStr "15".toList 1 = "1.5".toList ∧ digitsToDecStr "15".toList 4 = "1500".toList ∧
    digitsToDecStr "15".toList (-2) = "0.0015".toList := by decide +kernel

end

end PM2.Props
