import Verif.Proof.Cost2
import Verif.Proof.Lit
import Verif.Proof.Grammar
/-! # Bounds on the number of steps of the parts of the lexer: numbers

The attempts to read a number look at a word, then perhaps a dot and a word, then perhaps a sign and a word (`Sn`). The
token that results may be shorter, so what follows it is read again. `Ph` bounds how often. -/

set_option linter.unusedSectionVars false

namespace PM2.T
open Timed (tick step)
variable {ο : Type} [Pos ο] [PosTotal ο] [UnicodeTables]

/-- The length of the word at the beginning. -/
def idr (s : List Char) : Nat := strLen (s.takeWhile isIdentContinue)
/-- What follows the word at the beginning. -/
def idd (s : List Char) : List Char := s.dropWhile isIdentContinue

/-- A character after which a look ahead may continue. -/
def Sign (c : Char) : Prop := c = '+' ∨ c = '-' ∨ c = '#'
instance (c : Char) : Decidable (Sign c) := by unfold Sign; infer_instance

/-- The length of a sign with the word that follows. -/
def rn : List Char → Nat
  | c :: t => if Sign c then 1 + idr t else 0
  | [] => 0
/-- The length of a word, a sign and a word. -/
def W2 (s : List Char) : Nat := idr s + rn (idd s)
/-- The length of a dot, a word, a sign and a word, or of a sign and a word. -/
def dotted : List Char → Nat
  | c :: t => if c = '.' then 1 + W2 t else rn (c :: t)
  | [] => 0
/-- The length of what an attempt to read a number looks at. -/
def Sn (s : List Char) : Nat := idr s + dotted (idd s)
/-- A bound on how much of what follows the lexer may have looked at already. -/
def Ph : List Char → Nat
  | c :: t => if Sign c then 2 * (1 + idr t) else if c = '.' then 1 + W2 t else 2 * idr (c :: t) + rn (idd (c :: t))
  | [] => 0

theorem rn_cons (c : Char) (t : List Char) : rn (c :: t) = if Sign c then 1 + idr t else 0 := rfl
theorem dotted_cons (c : Char) (t : List Char) : dotted (c :: t) = if c = '.' then 1 + W2 t else rn (c :: t) := rfl
theorem Ph_cons (c : Char) (t : List Char) : Ph (c :: t) = if Sign c then 2 * (1 + idr t) else
  if c = '.' then 1 + W2 t else 2 * idr (c :: t) + rn (idd (c :: t)) := rfl
@[simp] theorem idr_nil : idr [] = 0 := rfl
@[simp] theorem idd_nil : idd [] = [] := rfl
theorem idr_pos {c : Char} {t : List Char} (h : isIdentContinue c = true) : idr (c :: t) = c.utf8Size + idr t := by
  simp [idr, h]
theorem idr_neg {c : Char} {t : List Char} (h : ¬ isIdentContinue c = true) : idr (c :: t) = 0 := by
  simp [idr, h]
theorem idd_pos {c : Char} {t : List Char} (h : isIdentContinue c = true) : idd (c :: t) = idd t := by
  simp [idd, h]
theorem idd_neg {c : Char} {t : List Char} (h : ¬ isIdentContinue c = true) : idd (c :: t) = c :: t := by
  simp [idd, h]

theorem idr_add (s : List Char) : idr s + strLen (idd s) = strLen s := by
  unfold idr idd
  rw [← strLen_append, List.takeWhile_append_dropWhile]

theorem idd_suffix (s : List Char) : idd s <:+ s := List.dropWhile_suffix _

theorem idr_idd (s : List Char) : idr (idd s) = 0 := by
  induction s with
  | nil => rfl
  | cons c s ih =>
    by_cases h : isIdentContinue c = true
    · rw [idd_pos h, ih]
    · rw [idd_neg h, idr_neg h]

theorem idd_of_idr {s : List Char} (h : idr s = 0) : idd s = s := by
  cases s with
  | nil => rfl
  | cons c s =>
    by_cases hc : isIdentContinue c = true
    · rw [idr_pos hc] at h
      have := utf8Size_pos c
      omega
    · exact idd_neg hc

theorem idd_idd (s : List Char) : idd (idd s) = idd s := idd_of_idr (idr_idd s)

section
variable [LawfulUnicode]

theorem sign_not {c : Char} (h : Sign c) : ¬ isIdentContinue c = true := by
  intro hc
  have := (identContinue_facts hc).2
  rcases h with rfl | rfl | rfl <;> exact absurd (this (by decide)) (by decide)

theorem dot_not : ¬ isIdentContinue '.' = true := by
  intro hc
  exact absurd ((identContinue_facts hc).2 (by decide)) (by decide)

theorem continue_ascii {c : Char} (h : c.toNat < 128) (h2 : (c.isAlphanum || c == '_') = true) : isIdentContinue c = true := by
  show xidContinue c = true
  rw [LawfulUnicode.continue_ascii c h, h2]

theorem digit_facts {c : Char} (h : isDecDigit c = true) : isIdentContinue c = true ∧ c.utf8Size = 1 ∧ c.toNat < 128 := by
  simp only [isDecDigit, Bool.and_eq_true, decide_eq_true_eq] at h
  have h1 : '0'.toNat ≤ c.toNat := charLe.mp h.1
  have h2 : c.toNat ≤ '9'.toNat := charLe.mp h.2
  have h3 : c.toNat < 128 := by simp at h2; omega
  refine ⟨continue_ascii h3 ?_, utf8Size_ascii h3, h3⟩
  have : c.isDigit = true := by
    simp only [Char.isDigit, Bool.and_eq_true, decide_eq_true_eq]
    exact ⟨h1, h2⟩
  simp [Char.isAlphanum, this]

/-! ### The potential -/

theorem rn_le_Ph (s : List Char) : rn s ≤ Ph s := by
  cases s with
  | nil => simp [rn]
  | cons c t =>
    rw [rn_cons, Ph_cons]
    split
    · omega
    · omega

theorem idr_le_Ph (s : List Char) : 2 * idr s + rn (idd s) ≤ Ph s := by
  cases s with
  | nil => simp [rn]
  | cons c t =>
    rw [Ph_cons]
    split
    · rename_i h
      rw [idr_neg (sign_not h), idd_neg (sign_not h)]
      simp only [rn_cons, if_pos h]
      omega
    · split
      · rename_i hs h
        subst h
        rw [idr_neg dot_not, idd_neg dot_not]
        simp only [rn_cons, if_neg hs]
        omega
      · exact Nat.le_refl _

theorem W2_le_Ph (s : List Char) : W2 s ≤ Ph s := by
  have := idr_le_Ph s
  unfold W2
  omega

theorem Ph_step (c : Char) (t : List Char) : Ph (c :: t) ≤ 2 * c.utf8Size + Ph t := by
  have hp := utf8Size_pos c
  have h1 := idr_le_Ph t
  have h2 := W2_le_Ph t
  rw [Ph_cons]
  split
  · omega
  · rename_i hs
    split
    · omega
    · by_cases hc : isIdentContinue c = true
      · rw [idr_pos hc, idd_pos hc]
        omega
      · rw [idr_neg hc, idd_neg hc]
        simp only [rn_cons, if_neg hs]
        omega

theorem Ph_append (t s : List Char) : Ph (t ++ s) ≤ 2 * strLen t + Ph s := by
  induction t with
  | nil => simp
  | cons c t ih =>
    have := Ph_step c (t ++ s)
    simp only [List.cons_append, strLen_cons]
    omega

theorem Ph_suffix {r s : List Char} (h : r <:+ s) : Ph s + 2 * strLen r ≤ 2 * strLen s + Ph r := by
  obtain ⟨t, rfl⟩ := h
  have := Ph_append t r
  simp only [strLen_append]
  omega

theorem rn_le (s : List Char) : rn s ≤ strLen s := by
  cases s with
  | nil => simp [rn]
  | cons c t =>
    have := idr_add t
    have := utf8Size_pos c
    rw [rn_cons]
    split
    · simp only [strLen_cons]; omega
    · omega

theorem W2_le (s : List Char) : W2 s ≤ strLen s := by
  have := rn_le (idd s)
  have := idr_add s
  unfold W2
  omega

theorem dotted_le (s : List Char) : dotted s ≤ strLen s := by
  cases s with
  | nil => simp [dotted]
  | cons c t =>
    have := W2_le t
    have := utf8Size_pos c
    have := rn_le (c :: t)
    rw [dotted_cons]
    split
    · simp only [strLen_cons]; omega
    · omega

theorem Sn_le (s : List Char) : Sn s ≤ strLen s := by
  have := dotted_le (idd s)
  have := idr_add s
  unfold Sn
  omega

theorem rn_le_dotted (s : List Char) : rn s ≤ dotted s := by
  cases s with
  | nil => simp [rn]
  | cons c t =>
    rw [dotted_cons]
    split
    · rename_i h
      subst h
      simp only [rn_cons]
      rw [if_neg (by decide)]
      omega
    · exact Nat.le_refl _

theorem W2_le_Sn (s : List Char) : W2 s ≤ Sn s := by
  have := rn_le_dotted (idd s)
  unfold W2 Sn
  omega

theorem Sn_pos {c : Char} {t : List Char} (h : isIdentContinue c = true) : Sn (c :: t) = c.utf8Size + Sn t := by
  unfold Sn; rw [idr_pos h, idd_pos h]; omega
theorem W2_pos {c : Char} {t : List Char} (h : isIdentContinue c = true) : W2 (c :: t) = c.utf8Size + W2 t := by
  unfold W2; rw [idr_pos h, idd_pos h]; omega

theorem dot_not_sign : ¬ Sign '.' := by decide

theorem Sn_dot (t : List Char) : Sn ('.' :: t) = 1 + W2 t := by
  unfold Sn; rw [idr_neg dot_not, idd_neg dot_not]; simp [dotted]

/-- Where a number may end. -/
def Ends (s s' : List Char) : Prop :=
  s' = idd s ∨ (∃ X, idd s = '.' :: X ∧ s' = idd X) ∨
    (∃ Y c Z, (Y = idd s ∨ ∃ X, idd s = '.' :: X ∧ Y = idd X) ∧ Y = c :: Z ∧ Sign c ∧ s' = idd Z)

/-- A number pays for what was looked at. -/
theorem Ends.pay {s s' : List Char} (h : Ends s s') (hs : ∃ c t, s = c :: t ∧ isIdentContinue c = true) :
    Sn s + Ph s + 3 * strLen s' ≤ 3 * strLen s + Ph s' := by
  have hph : Ph s = 2 * idr s + rn (idd s) := by
    obtain ⟨c, t, rfl, hc⟩ := hs
    have h1 : ¬ Sign c := fun h => sign_not h hc
    have h2 : c ≠ '.' := by rintro rfl; exact dot_not hc
    rw [Ph_cons, if_neg h1, if_neg h2]
  have hl := idr_add s
  rw [hph]
  unfold Sn
  rcases h with rfl | ⟨X, h1, rfl⟩ | ⟨Y, c, Z, h1, h2, h3, rfl⟩
  · cases hd : idd s with
    | nil => rw [hd] at hl; simp [dotted, rn]; simp at hl; omega
    | cons c t =>
      rw [hd] at hl
      by_cases hsg : Sign c
      · have : c ≠ '.' := by rintro rfl; exact dot_not_sign hsg
        simp only [dotted_cons, if_neg this, rn_cons, if_pos hsg, Ph_cons]
        omega
      · by_cases hdot : c = '.'
        · subst hdot
          simp only [dotted_cons, if_pos, rn_cons, if_neg hsg, Ph_cons]
          omega
        · simp only [dotted_cons, if_neg hdot, rn_cons, if_neg hsg, Ph_cons]
          omega
  · have h2 := idr_add X
    have h3 := rn_le_Ph (idd X)
    have h4 : '.'.utf8Size = 1 := rfl
    rw [h1] at hl ⊢
    simp only [strLen_cons] at hl
    simp only [dotted_cons, if_true, rn_cons, if_neg dot_not_sign, W2]
    omega
  · have h5 := idr_add Z
    have h6 := utf8Size_pos c
    have hdot : c ≠ '.' := by rintro rfl; exact dot_not_sign h3
    rcases h1 with rfl | ⟨X, h7, rfl⟩
    · rw [h2] at hl ⊢
      simp only [strLen_cons] at hl
      simp only [dotted_cons, if_neg hdot, rn_cons, if_pos h3]
      omega
    · have h8 := idr_add X
      have h4 : '.'.utf8Size = 1 := rfl
      rw [h2] at h8
      rw [h7] at hl ⊢
      simp only [strLen_cons] at hl h8
      simp only [dotted_cons, if_true, rn_cons, if_neg dot_not_sign, W2, h2, if_pos h3]
      omega

/-! ### Numbers -/

/-- What the mantissa may look at. -/
def mant (hasDot : Bool) (s : List Char) : Nat := if hasDot then W2 s else Sn s

theorem mant_pos {d : Bool} {c : Char} {t : List Char} (h : isIdentContinue c = true) :
    mant d (c :: t) = c.utf8Size + mant d t := by
  unfold mant; split
  · exact W2_pos h
  · exact Sn_pos h

theorem W2_le_mant (d : Bool) (s : List Char) : W2 s ≤ mant d s := by
  unfold mant; split
  · omega
  · exact W2_le_Sn s

theorem idr_le_W2 (s : List Char) : idr s ≤ W2 s := by unfold W2; omega

theorem floatMantissa_cost (s : List Char) (len : Nat) (d : Bool) :
    (T.floatMantissa s len d).cost ≤ mant d s + 1 ∧
    ∀ s' len' d' e, PM2.floatMantissa s len d = .ok (s', len', d', e) → ∃ t, s = t ++ s' ∧ len' = len + strLen t ∧
      strLen t + idr s' ≤ mant d s ∧ (e = true → strLen t + W2 s' ≤ mant d s ∧
        ∃ t' x, t = t' ++ [x] ∧ isIdentContinue x = true ∧ x.utf8Size = 1) ∧
      (idd s' = idd s ∨ d = false ∧ ∃ X, idd s = '.' :: X ∧ idd s' = idd X) := by
  induction s generalizing len d with
  | nil =>
    refine ⟨by simp [T.floatMantissa, tick, Timed.ok], fun s' len' d' e h => ?_⟩
    cases h
    exact ⟨[], rfl, rfl, by simp, by simp, .inl rfl⟩
  | cons c s ih =>
    unfold T.floatMantissa PM2.floatMantissa
    have stay : ∀ (d' : Bool) s' len' (d'' : Bool) e, (.ok (c :: s, len, d', false) : PRes _) = .ok (s', len', d'', e) →
        ∃ t, c :: s = t ++ s' ∧ len' = len + strLen t ∧
      strLen t + idr s' ≤ mant d (c :: s) ∧ (e = true → strLen t + W2 s' ≤ mant d (c :: s) ∧
        ∃ t' x, t = t' ++ [x] ∧ isIdentContinue x = true ∧ x.utf8Size = 1) ∧
      (idd s' = idd (c :: s) ∨ d = false ∧ ∃ X, idd (c :: s) = '.' :: X ∧ idd s' = idd X) := by
      intro d' s' len' d'' e h
      cases h
      have h1 := W2_le_mant d (c :: s)
      have h2 := idr_le_W2 (c :: s)
      exact ⟨[], rfl, rfl, by simp; omega, by simp, .inl rfl⟩
    by_cases hd : (isDecDigit c || c == '_') = true
    · rw [if_pos hd, if_pos hd]
      have hf : isIdentContinue c = true ∧ c.utf8Size = 1 := by
        rw [Bool.or_eq_true] at hd
        rcases hd with hd | hd
        · exact ⟨(digit_facts hd).1, (digit_facts hd).2.1⟩
        · have := beq_iff_eq.mp hd
          subst this
          exact ⟨continue_ascii (by decide) (by decide), rfl⟩
      obtain ⟨h1, h2⟩ := ih (len + 1) d
      rw [mant_pos hf.1, hf.2]
      refine ⟨by simp only [tick]; omega, fun s' len' d' e h => ?_⟩
      obtain ⟨t, h3, h4, h5, h6, h7⟩ := h2 s' len' d' e h
      refine ⟨c :: t, by rw [h3]; rfl, by simp only [strLen_cons]; omega, by simp only [strLen_cons]; omega, fun he => ?_, ?_⟩
      · obtain ⟨h8, t', x, h9, h10⟩ := h6 he
        exact ⟨by simp only [strLen_cons]; omega, c :: t', x, by rw [h9]; rfl, h10⟩
      · rw [idd_pos hf.1]; exact h7
    · rw [if_neg hd, if_neg hd]
      by_cases hdot : c = '.'
      · rw [if_pos hdot, if_pos hdot]
        subst hdot
        cases d with
        | true =>
          refine ⟨by simp [tick, Timed.ok], fun s' len' d' e h => stay true s' len' d' e (by simpa using h)⟩
        | false =>
          have hm : mant false ('.' :: s) = 1 + mant true s := by simp [mant, Sn_dot]
          rw [hm]
          have hgo : ((tick 1 (T.floatMantissa s (len + 1) true)).cost ≤ 1 + mant true s + 1) ∧
              ∀ s' len' d' e, PM2.floatMantissa s (len + 1) true = .ok (s', len', d', e) →
              ∃ t, '.' :: s = t ++ s' ∧ len' = len + strLen t ∧ strLen t + idr s' ≤ 1 + mant true s ∧
              (e = true → strLen t + W2 s' ≤ 1 + mant true s ∧
                ∃ t' x, t = t' ++ [x] ∧ isIdentContinue x = true ∧ x.utf8Size = 1) ∧
              (idd s' = idd ('.' :: s) ∨ false = false ∧ ∃ X, idd ('.' :: s) = '.' :: X ∧ idd s' = idd X) := by
            obtain ⟨h1, h2⟩ := ih (len + 1) true
            refine ⟨by simp only [tick]; omega, fun s' len' d' e h => ?_⟩
            obtain ⟨t, h3, h4, h5, h6, h7⟩ := h2 s' len' d' e h
            have h0 : '.'.utf8Size = 1 := rfl
            refine ⟨'.' :: t, by rw [h3]; rfl, by simp only [strLen_cons]; omega, by simp only [strLen_cons]; omega, fun he => ?_, ?_⟩
            · obtain ⟨h8, t', x, h9, h10⟩ := h6 he
              exact ⟨by simp only [strLen_cons]; omega, '.' :: t', x, by rw [h9]; rfl, h10⟩
            · right
              refine ⟨rfl, s, idd_neg dot_not, ?_⟩
              rcases h7 with h7 | ⟨h7, -⟩
              · exact h7
              · cases h7
          cases s with
          | nil => exact hgo
          | cons n s =>
            simp only [if_neg (show ¬ (false = true) by decide)]
            by_cases hn : (n = '.' || isIdentStart n) = true
            · rw [if_pos hn, if_pos hn]
              exact ⟨by simp only [tick, Timed.err]; omega, fun s' len' d' e h => by cases h⟩
            · rw [if_neg hn, if_neg hn]
              simpa only [eq_self, true_and] using hgo
      · rw [if_neg hdot, if_neg hdot]
        by_cases he : c = 'e' ∨ c = 'E'
        · rw [if_pos he, if_pos he]
          have hf : isIdentContinue c = true ∧ c.utf8Size = 1 := by
            rcases he with rfl | rfl <;> exact ⟨continue_ascii (by decide) (by decide), rfl⟩
          refine ⟨by simp [tick, Timed.ok], fun s' len' d' e h => ?_⟩
          have h1 := W2_le_mant d s
          have h2 := idr_le_W2 s
          cases h
          rw [mant_pos hf.1, hf.2]
          refine ⟨[c], rfl, by simp [hf.2], by simp [hf.2]; omega, fun _ => ⟨by simp [hf.2]; omega, [], c, rfl, hf⟩, .inl ?_⟩
          rw [idd_pos hf.1]
        · rw [if_neg he, if_neg he]
          exact ⟨by simp [tick, Timed.ok], fun s' len' d' e h => stay d s' len' d' e h⟩

/-- What the exponent may look at. -/
def expo (hasSign : Bool) (s : List Char) : Nat := if hasSign then idr s else W2 s

theorem idr_le_expo (d : Bool) (s : List Char) : idr s ≤ expo d s := by
  unfold expo; split
  · omega
  · exact idr_le_W2 s

theorem expo_pos {d : Bool} {c : Char} {t : List Char} (h : isIdentContinue c = true) :
    expo d (c :: t) = c.utf8Size + expo d t := by
  unfold expo; split
  · exact idr_pos h
  · exact W2_pos h

theorem floatExponent_cost (s : List Char) (len : Nat) (d v : Bool) :
    (T.floatExponent s len d v).cost ≤ expo d s + 1 ∧
    ∀ len', PM2.floatExponent s len d v = some len' → ∃ t s', s = t ++ s' ∧ len' = len + strLen t ∧
      strLen t + idr s' ≤ expo d s ∧
      (idd s' = idd s ∨ d = false ∧ ∃ c Z, idd s = c :: Z ∧ Sign c ∧ idd s' = idd Z) := by
  induction s generalizing len d v with
  | nil =>
    refine ⟨by simp [T.floatExponent, tick, Timed.ok], fun len' h => ?_⟩
    simp only [PM2.floatExponent] at h
    split at h
    · cases h
      exact ⟨[], [], rfl, rfl, by simp, .inl rfl⟩
    · cases h
  | cons c s ih =>
    unfold T.floatExponent PM2.floatExponent
    have stay : ∃ t s', c :: s = t ++ s' ∧ len = len + strLen t ∧ strLen t + idr s' ≤ expo d (c :: s) ∧
      (idd s' = idd (c :: s) ∨ d = false ∧ ∃ e Z, idd (c :: s) = e :: Z ∧ Sign e ∧ idd s' = idd Z) :=
      ⟨[], c :: s, rfl, rfl, by have := idr_le_expo d (c :: s); simp; omega, .inl rfl⟩
    have go : ∀ v', isIdentContinue c = true → c.utf8Size = 1 →
      (tick 1 (T.floatExponent s (len + 1) d v')).cost ≤ expo d (c :: s) + 1 ∧
      ∀ len', PM2.floatExponent s (len + 1) d v' = some len' → ∃ t s', c :: s = t ++ s' ∧ len' = len + strLen t ∧
      strLen t + idr s' ≤ expo d (c :: s) ∧
      (idd s' = idd (c :: s) ∨ d = false ∧ ∃ e Z, idd (c :: s) = e :: Z ∧ Sign e ∧ idd s' = idd Z) := by
      intro v' hc h1
      obtain ⟨h2, h3⟩ := ih (len + 1) d v'
      rw [expo_pos hc, h1]
      refine ⟨by simp only [tick]; omega, fun len' h => ?_⟩
      obtain ⟨t, s', h4, h5, h6, h7⟩ := h3 len' h
      refine ⟨c :: t, s', by rw [h4]; rfl, by simp only [strLen_cons]; omega, by simp only [strLen_cons]; omega, ?_⟩
      rw [idd_pos hc]
      exact h7
    by_cases hs : c = '+' ∨ c = '-'
    · rw [if_pos hs, if_pos hs]
      have hsg : Sign c := by rcases hs with h | h <;> simp [Sign, h]
      have h1 : c.utf8Size = 1 := by rcases hs with rfl | rfl <;> rfl
      cases v with
      | true =>
        refine ⟨by simp [tick, Timed.ok], fun len' h => ?_⟩
        simp at h
        subst h
        exact stay
      | false =>
        cases d with
        | true => exact ⟨by simp [tick, Timed.ok], fun len' h => by simp at h⟩
        | false =>
          simp only [Bool.false_eq_true, if_false]
          obtain ⟨h2, h3⟩ := ih (len + 1) true false
          have hx : expo false (c :: s) = 1 + expo true s := by
            simp only [expo, Bool.false_eq_true, if_false, if_true, W2]
            rw [idr_neg (sign_not hsg), idd_neg (sign_not hsg), rn_cons, if_pos hsg]
            omega
          rw [hx]
          refine ⟨by simp only [tick]; omega, fun len' h => ?_⟩
          obtain ⟨t, s', h4, h5, h6, h7⟩ := h3 len' h
          refine ⟨c :: t, s', by rw [h4]; rfl, by simp only [strLen_cons]; omega, by simp only [strLen_cons]; omega, .inr ⟨trivial, c, s, idd_neg (sign_not hsg), hsg, ?_⟩⟩
          rcases h7 with h7 | ⟨h7, -⟩
          · exact h7
          · cases h7
    · rw [if_neg hs, if_neg hs]
      by_cases hd : isDecDigit c = true
      · rw [if_pos hd, if_pos hd]
        exact go true (digit_facts hd).1 (digit_facts hd).2.1
      · rw [if_neg hd, if_neg hd]
        by_cases hu : c = '_'
        · rw [if_pos hu, if_pos hu]
          subst hu
          exact go v (continue_ascii (by decide) (by decide)) rfl
        · rw [if_neg hu, if_neg hu]
          refine ⟨by simp [tick, Timed.ok], fun len' h => ?_⟩
          split at h
          · cases h; exact stay
          · cases h

/-- Where the digits of a number may end. -/
def Mid (s r : List Char) : Prop :=
  ∃ t, s = t ++ r ∧ strLen t + idr r ≤ Sn s ∧ Ends s (idd r)

theorem advance_split {ε : Type} {c c' : Cursor ο} {n : Nat} {t r : List Char} (h : (PM2.advance c n : Res ε _) = .ok c')
    (ht : c.rest = t ++ r) (hn : n = strLen t) : c'.rest = r := by
  obtain ⟨a, h1, h2⟩ := advance_ok h
  have h3 := splitAtByte_eq ht hn
  have h4 := splitAtByte_eq h1 h2.symm
  rw [h3] at h4
  cases h4
  rfl

theorem bind_cost {ε α β : Type} {x : Timed ε α} {f : α → Timed ε β} {a b : Nat} (hx : x.cost ≤ a)
    (hf : ∀ v, x.val = .ok v → (f v).cost ≤ b) : (x >>= f).cost ≤ a + b := by
  show (Timed.bind x f).cost ≤ _
  unfold Timed.bind
  split
  · rename_i v hv
    have := hf v hv
    simp only []
    omega
  all_goals simp only []; omega

theorem tick_cost {ε α : Type} {x : Timed ε α} {a n : Nat} (hx : x.cost ≤ a) : (tick n x).cost ≤ a + n := by
  simp only [tick]; omega

theorem floatDigits_cost (c : Cursor ο) : (T.floatDigits c).cost ≤ 4 * Sn c.rest + 7 ∧
    ((T.floatDigits c).cost ≤ 1 ∨ ∃ ch t, c.rest = ch :: t ∧ isDecDigit ch = true) := by
  obtain ⟨rest, off⟩ := c
  cases rest with
  | nil => exact ⟨by simp [T.floatDigits, tick, Timed.err], .inl (by simp [T.floatDigits, tick, Timed.err])⟩
  | cons ch t =>
    by_cases hd : isDecDigit ch = true
    · refine ⟨?_, .inr ⟨ch, t, rfl, hd⟩⟩
      obtain ⟨h1, h2, -⟩ := digit_facts hd
      obtain ⟨h3, h4⟩ := floatMantissa_cost t 1 false
      simp only [T.floatDigits, hd, Bool.not_true, Bool.false_eq_true, if_false]
      rw [Sn_pos h1, h2]
      simp only [mant, Bool.false_eq_true, if_false] at h3 h4
      refine Nat.le_trans (tick_cost (a := Sn t + 1 + (3 * Sn t + 5)) (bind_cost h3 fun v hv => ?_)) (by omega)
      obtain ⟨s', len, d, e⟩ := v
      obtain ⟨u, h5, h6, h7, h8, h9⟩ := h4 s' len d e (by simpa using hv)
      simp only []
      split
      · simp [Timed.err]
      · split
        · rename_i he
          obtain ⟨h10, h11⟩ := h8 he
          obtain ⟨h12, h13⟩ := floatExponent_cost s' len false false
          simp only [expo, Bool.false_eq_true, if_false] at h12 h13
          split
          · refine Nat.le_trans (bind_cost (a := 1 + (len - 1)) (b := (W2 s' + 1) + (1 + (Sn t + 1))) (advance_cost _ _) fun b _ => bind_cost h12 fun o ho => ?_) (by omega)
            cases o with
            | none => simp [Timed.ok]
            | some len' =>
              obtain ⟨u2, s2, h14, h15, h16, h17⟩ := h13 len' (by simpa using ho)
              exact Nat.le_trans (advance_cost _ _) (by omega)
          · refine Nat.le_trans (bind_cost (b := (1 + (Sn t + 1))) h12 fun o ho => ?_) (by omega)
            cases o with
            | none => simp [Timed.err]
            | some len' =>
              obtain ⟨u2, s2, h14, h15, h16, h17⟩ := h13 len' (by simpa using ho)
              exact Nat.le_trans (advance_cost _ _) (by omega)
        · exact Nat.le_trans (advance_cost _ _) (by omega)
    · have : (T.floatDigits (⟨ch :: t, off⟩ : Cursor ο)).cost ≤ 1 := by
        simp [T.floatDigits, tick, Timed.err, hd]
      exact ⟨by omega, .inl this⟩

theorem floatDigits_mid {c r : Cursor ο} (h : PM2.floatDigits c = .ok r) : Mid c.rest r.rest := by
  obtain ⟨rest, off⟩ := c
  cases rest with
  | nil => simp [PM2.floatDigits] at h
  | cons ch t =>
    unfold PM2.floatDigits at h
    simp only [] at h
    split at h
    · cases h
    · rename_i hd
      simp only [Bool.not_eq_true, Bool.not_eq_false'] at hd
      obtain ⟨h1, h2, -⟩ := digit_facts hd
      obtain ⟨v, hv, h⟩ := bindOk h
      obtain ⟨s', len, d, e⟩ := v
      obtain ⟨u, h5, h6, h7, h8, h9⟩ := (floatMantissa_cost t 1 false).2 s' len d e hv
      simp only [mant, Bool.false_eq_true, if_false] at h7 h8
      have hS : Sn (ch :: t) = 1 + Sn t := by rw [Sn_pos h1, h2]
      have hsp : ch :: t = (ch :: u) ++ s' := by rw [h5]; rfl
      have hln : len = strLen (ch :: u) := by simp only [strLen_cons]; omega
      have hE : Ends (ch :: t) (idd s') := by
        unfold Ends
        rw [idd_pos h1]
        rcases h9 with h9 | ⟨-, X, h9, h10⟩
        · exact .inl h9
        · exact .inr (.inl ⟨X, h9, h10⟩)
      simp only [] at h
      split at h
      · cases h
      · split at h
        · rename_i he
          obtain ⟨h10, u', x, h11, h12, h13⟩ := h8 he
          have hsign : ∀ len', PM2.floatExponent s' len false false = some len' → ∀ c', (PM2.advance ⟨ch :: t, off⟩ len' : PRes (Cursor ο)) = .ok c' →
              Mid (ch :: t) c'.rest := by
            intro len' hl c' hc'
            obtain ⟨u2, s2, h14, h15, h16, h17⟩ := (floatExponent_cost s' len false false).2 len' hl
            simp only [expo, Bool.false_eq_true, if_false] at h16
            have hr : c'.rest = s2 := advance_split hc' (t := ch :: u ++ u2) (by simp only []; rw [hsp, h14]; simp) (by simp only [strLen_append]; omega)
            rw [hr]
            refine ⟨ch :: u ++ u2, by rw [hsp, h14]; simp, by rw [hS]; simp only [strLen_append]; simp only [strLen_cons] at *; omega, ?_⟩
            rcases h17 with h17 | ⟨-, c1, Z, h17, h18, h19⟩
            · rw [h17]; exact hE
            · refine .inr (.inr ⟨idd s', c1, Z, ?_, h17, h18, h19⟩)
              rw [idd_pos h1]
              rcases h9 with h9 | ⟨-, X, h9, h10⟩
              · exact .inl h9
              · exact .inr ⟨X, h9, h10⟩
          split at h
          · obtain ⟨b, hb, h⟩ := bindOk h
            have hbr : b.rest = x :: s' := advance_split hb (t := ch :: u') (by simp only []; rw [hsp, h11]; simp)
              (by rw [hln, h11]; simp only [strLen_cons, strLen_append, strLen_nil]; omega)
            cases hx : PM2.floatExponent s' len false false with
            | none =>
              rw [hx] at h
              cases h
              rw [hbr]
              refine ⟨ch :: u', by rw [hsp, h11]; simp, ?_, by rw [idd_pos h12]; exact hE⟩
              rw [idr_pos h12, hS]
              rw [h11] at h7
              simp only [strLen_cons, strLen_append, strLen_nil] at h7 ⊢
              omega
            | some len' => rw [hx] at h; exact hsign len' hx r h
          · cases hx : PM2.floatExponent s' len false false with
            | none => rw [hx] at h; cases h
            | some len' => rw [hx] at h; exact hsign len' hx r h
        · have hr := advance_split h hsp hln
          rw [hr]
          exact ⟨ch :: u, hsp, by rw [hS]; simp only [strLen_cons]; omega, hE⟩

/-! ### The end of a number -/

theorem identEnd_idr (len : Nat) (s : List Char) (i : Nat) (h : len = i + strLen s) : PM2.identEnd len s i = i + idr s := by
  induction s generalizing i with
  | nil => simp at h; simp [PM2.identEnd, h]
  | cons c s ih =>
    unfold PM2.identEnd
    by_cases hc : isIdentContinue c = true
    · simp only [hc, Bool.not_true, Bool.false_eq_true, if_false]
      rw [ih _ (by simp only [strLen_cons] at h; omega), idr_pos hc]
      omega
    · simp [hc, idr_neg hc]

theorem identNotRaw_cost (c : Cursor ο) : (T.identNotRaw c).cost ≤ 2 * idr c.rest + 4 := by
  obtain ⟨rest, off⟩ := c
  cases rest with
  | nil => simp [T.identNotRaw, tick, Timed.err]
  | cons ch t =>
    simp only [T.identNotRaw]
    by_cases hs : isIdentStart ch = true
    · rw [if_pos hs]
      have hc := identStart_continue hs
      have hp := utf8Size_pos ch
      have he := identEnd_idr (strLen (ch :: t)) t ch.utf8Size (by simp)
      obtain ⟨h1, h2⟩ := identEnd_cost (len := strLen (ch :: t)) (s := t) (i := ch.utf8Size) (by simp)
      rw [he] at h1
      refine Nat.le_trans (tick_cost (bind_cost (a := idr t + 1) (b := 1 + (ch.utf8Size + idr t) + 1) (by omega) fun e hv => ?_)) ?_
      · simp only [identEnd_val, Res.ok.injEq] at hv
        rw [he] at hv
        subst hv
        exact bind_cost (b := 1) (advance_cost _ _) fun c1 _ => bind_cost (a := 1) (b := 0) (by simp [step]) fun _ _ => by simp [Timed.ok]
      · rw [idr_pos hc]; omega
    · rw [if_neg hs]; simp [tick, Timed.err]

theorem identNotRaw_rest {c : Cursor ο} {r : Cursor ο × List Char} (h : PM2.identNotRaw c = .ok r) :
    r.1.rest = idd c.rest ∧ ∃ ch t, c.rest = ch :: t ∧ isIdentStart ch = true := by
  obtain ⟨rest, off⟩ := c
  cases rest with
  | nil => simp [PM2.identNotRaw] at h
  | cons ch t =>
    simp only [PM2.identNotRaw] at h
    split at h
    · rename_i hs
      have hc := identStart_continue hs
      refine ⟨?_, ch, t, rfl, hs⟩
      obtain ⟨c1, h1, h⟩ := bindOk h
      obtain ⟨s1, h2, h⟩ := bindOk h
      cases h
      have he := identEnd_idr (strLen (ch :: t)) t ch.utf8Size (by simp)
      rw [he] at h1
      refine advance_split h1 (t := (ch :: t).takeWhile isIdentContinue) ?_ ?_
      · simp [idd, List.takeWhile_append_dropWhile]
      · rw [← idr_pos hc]; rfl
    · cases h

theorem wordBreak_ok {c c' : Cursor ο} (h : wordBreak c = .ok c') : c' = c ∧ idr c.rest = 0 := by
  unfold wordBreak at h
  split at h
  · rename_i ch t hr
    split at h
    · cases h
    · rename_i hc
      cases h
      exact ⟨rfl, by rw [hr]; exact idr_neg hc⟩
  · rename_i hr
    cases h
    exact ⟨rfl, by rw [hr]; rfl⟩

theorem numberEnd_cost (c : Cursor ο) : (T.numberEnd c).cost ≤ 2 * idr c.rest + 5 := by
  have h := identNotRaw_cost c
  unfold T.numberEnd
  split
  · split
    · exact bind_cost (b := 1) h fun v _ => by simp [step]
    · simp [step]
  · simp [step]

theorem numberEnd_rest {c c' : Cursor ο} (h : (T.numberEnd c).val = .ok c') : c'.rest = idd c.rest := by
  unfold T.numberEnd at h
  have hw : wordBreak c = .ok c' → c'.rest = idd c.rest := by
    intro h
    obtain ⟨rfl, h2⟩ := wordBreak_ok h
    exact (idd_of_idr h2).symm
  split at h
  · split at h
    · simp only [Timed.val_bind, identNotRaw_val] at h
      obtain ⟨v, hv, h⟩ := bindOk h
      obtain ⟨h1, -⟩ := identNotRaw_rest hv
      obtain ⟨rfl, -⟩ := wordBreak_ok (by simpa using h)
      exact h1
    · exact hw h
  · exact hw h

theorem float_cost (c : Cursor ο) : (T.float c).cost ≤ 6 * Sn c.rest + 13 := by
  refine Nat.le_trans (tick_cost (bind_cost (b := 2 * Sn c.rest + 5) (floatDigits_cost c).1 fun r hr => ?_)) (by omega)
  obtain ⟨t, -, h, -⟩ := floatDigits_mid (by simpa using hr)
  exact Nat.le_trans (numberEnd_cost r) (by omega)

theorem float_const {c : Cursor ο} (h : ∀ ch t, c.rest = ch :: t → isDecDigit ch = false) :
    (T.float c).cost ≤ 2 ∧ ∀ r, PM2.float c ≠ .ok r := by
  have hv : (T.floatDigits c).val = .err () ∧ (T.floatDigits c).cost = 1 := by
    obtain ⟨rest, off⟩ := c
    cases rest with
    | nil => simp [T.floatDigits, PM2.floatDigits, tick, Timed.err]
    | cons ch t =>
      have := h ch t rfl
      simp [T.floatDigits, PM2.floatDigits, this, tick, Timed.err]
  constructor
  · show (tick 1 (Timed.bind _ _)).cost ≤ 2
    unfold Timed.bind
    rw [hv.1]
    simp [tick, hv.2]
  · intro r hr
    rw [← float_val] at hr
    simp [T.float, hv.1] at hr
    rw [← floatDigits_val, hv.1] at hr
    cases hr

theorem float_ends {c r : Cursor ο} (h : PM2.float c = .ok r) : Ends c.rest r.rest := by
  rw [← float_val] at h
  simp only [T.float, Timed.val_tick, Timed.val_bind] at h
  obtain ⟨d, hd, h⟩ := bindOk h
  obtain ⟨t, -, -, h1⟩ := floatDigits_mid (by simpa using hd)
  rw [numberEnd_rest h]
  exact h1

/-! ### Integers -/

/-- The bytes that `digits` passes. -/
theorem digitByte {c : Char} {t : List Char} {b : UInt8} {l : List UInt8} (e : bytesOf (c :: t) = b :: l)
    (h : (B '0' ≤ b ∧ b ≤ B '9') ∨ (B 'a' ≤ b ∧ b ≤ B 'f') ∨ (B 'A' ≤ b ∧ b ≤ B 'F') ∨ b = B '_') :
    isIdentContinue c = true ∧ c.utf8Size = 1 ∧ l = bytesOf t := by
  obtain ⟨b', l', e', -, -, hlt, hasc, hsz⟩ := bytes_cons c t
  rw [e'] at e
  cases e
  have hb : b < 128 := by
    rw [UInt8.lt_iff_toNat_lt]
    simp only [UInt8.le_iff_toNat_le, ← UInt8.toNat_inj, B] at h
    simp at h ⊢
    omega
  have ha := hlt.mp hb
  obtain ⟨rfl, rfl⟩ := hasc ha
  refine ⟨?_, by simpa using hsz, by simp⟩
  apply continue_ascii ha
  simp only [UInt8.le_iff_toNat_le, ← UInt8.toNat_inj, B_toNat ha, B_toNat (show '0'.toNat < 128 by decide),
    B_toNat (show '9'.toNat < 128 by decide), B_toNat (show 'a'.toNat < 128 by decide),
    B_toNat (show 'f'.toNat < 128 by decide), B_toNat (show 'A'.toNat < 128 by decide),
    B_toNat (show 'F'.toNat < 128 by decide), B_toNat (show '_'.toNat < 128 by decide)] at h
  simp only [Char.isAlphanum, Char.isAlpha, Char.isUpper, Char.isLower, Char.isDigit, Bool.or_eq_true, Bool.and_eq_true,
    decide_eq_true_eq, beq_iff_eq]
  rcases h with h | h | h | h
  · exact .inl (.inr ⟨h.1, h.2⟩)
  · exact .inl (.inl (.inr ⟨h.1, Nat.le_trans h.2 (by decide)⟩))
  · exact .inl (.inl (.inl ⟨h.1, Nat.le_trans h.2 (by decide)⟩))
  · exact .inr (char_ext h)

theorem digitsLoop_cost (base : Nat) (s : List Char) (len : Nat) (e : Bool) :
    (T.digitsLoop base (bytesOf s) len e).cost ≤ idr s + 1 ∧
    ∀ len' e', PM2.digitsLoop base (bytesOf s) len e = some (len', e') → ∃ t s', s = t ++ s' ∧ len' = len + strLen t ∧
      strLen t + idr s' = idr s ∧ idd s' = idd s := by
  induction s generalizing len e with
  | nil =>
    refine ⟨by simp [T.digitsLoop, tick, Timed.ok], fun len' e' h => ?_⟩
    simp [PM2.digitsLoop] at h
    exact ⟨[], [], rfl, by simp [h.1], by simp, rfl⟩
  | cons c s ih =>
    cases hb : bytesOf (c :: s) with
    | nil =>
      have := congrArg List.length hb
      rw [bytesOf_length] at this
      have := utf8Size_pos c
      simp at *
    | cons b l =>
      have stay : ∀ len' (e' : Bool), (some (len, e) : Option (Nat × Bool)) = some (len', e') →
          ∃ t s', c :: s = t ++ s' ∧ len' = len + strLen t ∧ strLen t + idr s' = idr (c :: s) ∧ idd s' = idd (c :: s) := by
        intro len' e' h
        cases h
        exact ⟨[], c :: s, rfl, rfl, by simp, rfl⟩
      have stayc : (tick 1 (.ok (some (len, e))) : TRes (Option (Nat × Bool))).cost ≤ idr (c :: s) + 1 := by
        simp [tick, Timed.ok]
      have nonec : (tick 1 (.ok none) : TRes (Option (Nat × Bool))).cost ≤ idr (c :: s) + 1 := by
        simp [tick, Timed.ok]
      have go : ∀ e1, ((B '0' ≤ b ∧ b ≤ B '9') ∨ (B 'a' ≤ b ∧ b ≤ B 'f') ∨ (B 'A' ≤ b ∧ b ≤ B 'F') ∨ b = B '_') →
          (tick 1 (T.digitsLoop base l (len + 1) e1)).cost ≤ idr (c :: s) + 1 ∧
          ∀ len' e', PM2.digitsLoop base l (len + 1) e1 = some (len', e') →
          ∃ t s', c :: s = t ++ s' ∧ len' = len + strLen t ∧ strLen t + idr s' = idr (c :: s) ∧ idd s' = idd (c :: s) := by
        intro e1 h
        obtain ⟨h1, h2, h3⟩ := digitByte hb h
        subst h3
        obtain ⟨h4, h5⟩ := ih (len + 1) e1
        rw [idr_pos h1, h2, idd_pos h1]
        refine ⟨by simp only [tick]; omega, fun len' e' h => ?_⟩
        obtain ⟨t, s', h6, h7, h8, h9⟩ := h5 len' e' h
        exact ⟨c :: t, s', by rw [h6]; rfl, by simp only [strLen_cons]; omega, by simp only [strLen_cons]; omega, h9⟩
      unfold T.digitsLoop PM2.digitsLoop
      by_cases h1 : B '0' ≤ b ∧ b ≤ B '9'
      · rw [if_pos h1, if_pos h1]
        by_cases h2 : b.toNat - 48 ≥ base
        · rw [if_pos h2, if_pos h2]; exact ⟨nonec, fun _ _ h => by cases h⟩
        · rw [if_neg h2, if_neg h2]; exact go false (.inl h1)
      · rw [if_neg h1, if_neg h1]
        by_cases h2 : B 'a' ≤ b ∧ b ≤ B 'f'
        · rw [if_pos h2, if_pos h2]
          by_cases h3 : 10 + (b.toNat - 97) ≥ base
          · rw [if_pos h3, if_pos h3]; exact ⟨stayc, stay⟩
          · rw [if_neg h3, if_neg h3]; exact go false (.inr (.inl h2))
        · rw [if_neg h2, if_neg h2]
          by_cases h3 : B 'A' ≤ b ∧ b ≤ B 'F'
          · rw [if_pos h3, if_pos h3]
            by_cases h4 : 10 + (b.toNat - 65) ≥ base
            · rw [if_pos h4, if_pos h4]; exact ⟨stayc, stay⟩
            · rw [if_neg h4, if_neg h4]; exact go false (.inr (.inr (.inl h3)))
          · rw [if_neg h3, if_neg h3]
            by_cases h4 : b = B '_'
            · rw [if_pos h4, if_pos h4]
              by_cases h5 : (e && base == 10) = true
              · rw [if_pos h5, if_pos h5]; exact ⟨nonec, fun _ _ h => by cases h⟩
              · rw [if_neg h5, if_neg h5]; exact go e (.inr (.inr (.inr h4)))
            · rw [if_neg h4, if_neg h4]; exact ⟨stayc, stay⟩

/-- The prefix of an integer. -/
def digitsBase (input : Cursor ο) : TRes (Cursor ο × Nat) :=
  if startsWith input.rest ['0', 'x'] then do .ok (← T.advance input 2, 16)
  else if startsWith input.rest ['0', 'o'] then do .ok (← T.advance input 2, 8)
  else if startsWith input.rest ['0', 'b'] then do .ok (← T.advance input 2, 2)
  else .ok (input, 10)

theorem digits_eq (input : Cursor ο) : T.digits input = tick 1 (digitsBase input >>= fun (input, base) => do
    match ← T.digitsLoop base (bytesOf input.rest) 0 true with
    | none => reject
    | some (len, empty) => if empty then reject else T.advance input len) := rfl

theorem prefix_advance {input c : Cursor ο} {x : Char} {n : Nat} (hx : isIdentContinue x = true) (h1 : x.utf8Size = 1)
    (hs : startsWith input.rest ['0', x] = true)
    (h : ((T.advance input 2 >>= fun c => .ok (c, n) : TRes (Cursor ο × Nat))).val = .ok (c, n)) :
    idd c.rest = idd input.rest ∧ 2 + idr c.rest = idr input.rest := by
  simp only [Timed.val_bind, advance_val] at h
  obtain ⟨c1, hc1, h⟩ := bindOk h
  cases h
  obtain ⟨t, ht⟩ := List.isPrefixOf_iff_prefix.mp hs
  have h2 := advance_split hc1 (t := ['0', x]) (r := t) ht.symm (by simp [h1]; rfl)
  have h0 : isIdentContinue '0' = true := continue_ascii (by decide) (by decide)
  rw [h2, ← ht]
  simp only [List.cons_append, List.nil_append]
  rw [idd_pos h0, idd_pos hx, idr_pos h0, idr_pos hx, h1]
  have : '0'.utf8Size = 1 := rfl
  exact ⟨rfl, by omega⟩

theorem digitsBase_ok (input : Cursor ο) : (digitsBase input).cost ≤ 3 ∧
    ∀ c n, (digitsBase input).val = .ok (c, n) → idd c.rest = idd input.rest ∧ ∃ t, input.rest = t ++ c.rest ∧
      strLen t + idr c.rest = idr input.rest := by
  have hcost : ∀ m : Nat, ((T.advance input 2 >>= fun c => .ok (c, m) : TRes (Cursor ο × Nat))).cost ≤ 3 := by
    intro m
    exact Nat.le_trans (bind_cost (b := 0) (advance_cost _ _) fun _ _ => by simp [Timed.ok]) (by omega)
  have hok : ∀ (x : Char) (m : Nat), isIdentContinue x = true → x.utf8Size = 1 → startsWith input.rest ['0', x] = true →
      ∀ c n, ((T.advance input 2 >>= fun c => .ok (c, m) : TRes (Cursor ο × Nat))).val = .ok (c, n) →
      idd c.rest = idd input.rest ∧ ∃ t, input.rest = t ++ c.rest ∧ strLen t + idr c.rest = idr input.rest := by
    intro x m hx h1 hs c n h
    have hmn : m = n := by
      simp only [Timed.val_bind, advance_val] at h
      obtain ⟨c1, hc1, h⟩ := bindOk h
      cases h
      rfl
    subst hmn
    obtain ⟨h2, h3⟩ := prefix_advance hx h1 hs h
    simp only [Timed.val_bind, advance_val] at h
    obtain ⟨c1, hc1, h⟩ := bindOk h
    cases h
    obtain ⟨t, h4, h5⟩ := advance_ok hc1
    exact ⟨h2, t, h4, by omega⟩
  unfold digitsBase
  split
  · exact ⟨hcost 16, hok 'x' 16 (continue_ascii (by decide) (by decide)) rfl ‹_›⟩
  · split
    · exact ⟨hcost 8, hok 'o' 8 (continue_ascii (by decide) (by decide)) rfl ‹_›⟩
    · split
      · exact ⟨hcost 2, hok 'b' 2 (continue_ascii (by decide) (by decide)) rfl ‹_›⟩
      · refine ⟨by simp [Timed.ok], fun c n h => ?_⟩
        simp at h
        obtain ⟨rfl, rfl⟩ := h
        exact ⟨rfl, [], rfl, by simp⟩

theorem digits_cost (c : Cursor ο) : (T.digits c).cost ≤ 2 * idr c.rest + 6 ∧
    ∀ r, PM2.digits c = .ok r → idd r.rest = idd c.rest ∧ ∃ t, c.rest = t ++ r.rest ∧ strLen t + idr r.rest = idr c.rest := by
  obtain ⟨hb1, hb2⟩ := digitsBase_ok c
  constructor
  · rw [digits_eq]
    refine Nat.le_trans (tick_cost (bind_cost (b := (idr c.rest + 1) + (1 + idr c.rest)) hb1 fun v hv => ?_)) (by omega)
    obtain ⟨c1, base⟩ := v
    obtain ⟨-, t, -, h2⟩ := hb2 c1 base hv
    obtain ⟨h3, h4⟩ := digitsLoop_cost base c1.rest 0 true
    refine bind_cost (by omega) fun o ho => ?_
    cases o with
    | none => simp [Timed.err]
    | some p =>
      obtain ⟨len, e⟩ := p
      obtain ⟨t2, s2, h5, h6, h7, h8⟩ := h4 len e (by simpa using ho)
      simp only []
      split
      · simp [Timed.err]
      · exact Nat.le_trans (advance_cost _ _) (by omega)
  · intro r hr
    rw [← digits_val, digits_eq] at hr
    simp only [Timed.val_tick, Timed.val_bind] at hr
    obtain ⟨v, hv, hr⟩ := bindOk hr
    obtain ⟨c1, base⟩ := v
    obtain ⟨h1, t, h2, h3⟩ := hb2 c1 base hv
    simp only [Timed.val_bind, digitsLoop_val, ok_bind] at hr
    obtain ⟨h4, h5⟩ := digitsLoop_cost base c1.rest 0 true
    cases hx : PM2.digitsLoop base (bytesOf c1.rest) 0 true with
    | none => rw [hx] at hr; cases hr
    | some p =>
      obtain ⟨len, e⟩ := p
      rw [hx] at hr
      simp only [Timed.val_ite, Timed.val_err, advance_val] at hr
      split at hr
      · cases hr
      · obtain ⟨t2, s2, h6, h7, h8, h9⟩ := h5 len e hx
        have := advance_split hr h6 (by omega)
        rw [this]
        exact ⟨h9.trans h1, t ++ t2, by rw [h2, h6]; simp, by simp only [strLen_append]; omega⟩

theorem int_cost (c : Cursor ο) : (T.int c).cost ≤ 4 * idr c.rest + 12 := by
  obtain ⟨h1, h2⟩ := digits_cost c
  refine Nat.le_trans (tick_cost (bind_cost (b := 2 * idr c.rest + 5) h1 fun r hr => ?_)) (by omega)
  obtain ⟨-, t, -, h3⟩ := h2 r (by simpa using hr)
  exact Nat.le_trans (numberEnd_cost r) (by omega)

theorem int_ends {c r : Cursor ο} (h : PM2.int c = .ok r) : Ends c.rest r.rest := by
  rw [← int_val] at h
  simp only [T.int, Timed.val_tick, Timed.val_bind] at h
  obtain ⟨d, hd, h⟩ := bindOk h
  obtain ⟨h1, -⟩ := (digits_cost c).2 d (by simpa using hd)
  rw [numberEnd_rest h]
  exact .inl h1

end
end PM2.T
