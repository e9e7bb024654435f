import Verif.Model.TimedValue
import Verif.Proof.Timed
/-! # The accessors with a count of their steps: they compute what the accessors compute, in linear time -/

namespace PM2.T
open Timed

/-! ### The same results -/

@[simp] theorem unicodeEscapeLoop_val {ε : Type} (s : List Char) (v n : Nat) :
    (T.unicodeEscapeLoop s v n : Timed ε _).val = .ok (PM2.unicodeEscapeLoop s v n) := by
  induction s generalizing v n with
  | nil => rfl
  | cons c s ih =>
    simp only [T.unicodeEscapeLoop, PM2.unicodeEscapeLoop, val_tick]
    split
    · exact ih _ _
    · split
      · rfl
      · cases hexVal c with
        | none => rfl
        | some d =>
          simp only
          split
          · exact ih _ _
          · exact ih _ _

@[simp] theorem unicodeEscape_val {ε : Type} (s : List Char) :
    (T.unicodeEscape s : Timed ε _).val = .ok (PM2.unicodeEscape s) := by
  cases s with
  | nil => rfl
  | cons b s =>
    simp only [T.unicodeEscape, PM2.unicodeEscape, val_tick]
    split
    · rfl
    · cases s with
      | nil => rfl
      | cons c s =>
        simp only
        split
        · rfl
        · split
          · rfl
          · cases hexVal c with
            | none => rfl
            | some d => exact unicodeEscapeLoop_val _ _ _

section
variable {U : Type}

@[simp] theorem unescape1_val {ε : Type} (I : Unescape U) (s : List Char) :
    (T.unescape1 I s : Timed ε _).val = .ok (PM2.unescape1 I s) := by
  cases s with
  | nil => rfl
  | cons c s =>
    simp only [T.unescape1, PM2.unescape1, val_tick]
    split
    · rfl
    · cases simpleEscape c with
      | some b => rfl
      | none =>
        simp only
        split
        · simp only [val_bind, val_step]
          show (match hexEscape s with | (.ok b, rest) => _ | (.error e, rest) => _ : Timed ε _).val = _
          rcases hexEscape s with ⟨_ | _, _⟩ <;> rfl
        · split
          · simp only [val_bind, unicodeEscape_val]
            show (match PM2.unicodeEscape s with | (.ok b, rest) => _ | (.error e, rest) => _ : Timed ε _).val = _
            rcases PM2.unicodeEscape s with ⟨_ | _, _⟩ <;> rfl
          · rfl

theorem unescapeSingle_val {ε : Type} (I : Unescape U) (s : List Char) :
    (T.unescapeSingle I s : Timed ε _).val = .ok (PM2.unescapeSingle I s) := by
  cases s with
  | nil => rfl
  | cons c s =>
    simp only [T.unescapeSingle, PM2.unescapeSingle, val_tick, val_bind, val_ite, unescape1_val, val_ok]
    by_cases h1 : c = '\\'
    · simp only [if_pos h1]
      rcases PM2.unescape1 I s with ⟨_ | _, _ | _⟩ <;> rfl
    · simp only [if_neg h1]
      split
      · rfl
      · split
        · rfl
        · cases I.char2unit c <;> cases s <;> rfl

@[simp] theorem skipAsciiWhitespace_val {ε : Type} (s : List Char) (n : Nat) :
    (T.skipAsciiWhitespace s n : Timed ε _).val = .ok (PM2.skipAsciiWhitespace (U := U) s n) := rfl

@[simp] theorem unescapeLoop_val {ε : Type} (I : Unescape U) (len fuel : Nat) (s : List Char) :
    (T.unescapeLoop I len fuel s : Timed ε _).val = PM2.unescapeLoop I len fuel s := by
  induction fuel generalizing s with
  | zero => cases s <;> rfl
  | succ fuel ih =>
    cases s with
    | nil => rfl
    | cons c s =>
      simp only [T.unescapeLoop, PM2.unescapeLoop, val_tick, val_bind, val_ite, skipAsciiWhitespace_val, unescape1_val,
        val_ok, val_step, ih]
      rw [← apply_ite (Res.ok (ε := ε)), ← apply_ite (Res.ok (ε := ε)), ← apply_ite (Res.ok (ε := ε))]
      rfl

@[simp] theorem checkRawLoop_val {ε : Type} (raw : Char → UnitRes U) (len : Nat) (s : List Char) :
    (T.checkRawLoop raw len s : Timed ε _).val = PM2.checkRawLoop raw len s := by
  induction s with
  | nil => rfl
  | cons c s ih =>
    simp only [T.checkRawLoop, PM2.checkRawLoop, val_tick, val_bind, val_step, val_ok, ih]

theorem checkSingle_val {ε : Type} (I : Unescape U) (s : List Char) :
    (T.checkSingle I s : Timed ε _).val = PM2.checkSingle I s := by
  simp only [T.checkSingle, PM2.checkSingle, val_bind, unescapeSingle_val]
  show (match PM2.unescapeSingle I s with | (.error e, rest) => _ | (.ok _, _) => _ : Timed ε _).val = _
  rcases PM2.unescapeSingle I s with ⟨_ | _, _⟩
  · simp only [val_bind, val_step, val_ok]
  · rfl

end

theorem checkForErrors_val {ε : Type} (s : List Char) (m : Mode) :
    (T.checkForErrors s m : Timed ε _).val = PM2.checkForErrors s m := by
  cases m <;> simp only [T.checkForErrors, PM2.checkForErrors, checkSingle_val, val_bind, T.unescape, T.checkRaw,
    unescapeLoop_val, checkRawLoop_val, val_ok] <;> rfl

theorem getRaw_val {ε : Type} (s : List Char) : (T.getRaw s : Timed ε _).val = PM2.getRaw s := by
  simp only [T.getRaw, PM2.getRaw, val_bind, val_tick, val_ite, val_step, val_ok]
  congr 1
  funext p
  split
  · congr 1
    funext t
    cases startsWithChar t '"' <;> rfl
  · rfl

theorem valueOf_val {U V : Type} (I : Unescape U) (pre rawPre : List Char) (cooked : List U → V) (raw : List Char → V)
    (s : List Char) : (T.valueOf I pre rawPre cooked raw s).val = PM2.valueOf I pre rawPre cooked raw s := by
  simp only [T.valueOf, PM2.valueOf, val_bind, val_tick, val_ite, val_step, val_ok, T.unescape, PM2.unescape,
    unescapeLoop_val, getRaw_val, val_err]
  congr 1
  funext b
  split
  · congr 1
    funext hi
    congr 1
    funext q
    congr 1
    funext cs
    cases collectCalls cs <;> rfl
  · split
    · congr 1
      funext t
      congr 1
      funext o
      cases o <;> rfl
    · rfl

end PM2.T
