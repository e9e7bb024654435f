import Verif.Proof.Cost
/-! # Bounds on the number of steps of the parts of the lexer: identifiers, strings and characters -/

set_option linter.unusedSectionVars false

namespace PM2.T
open Timed (tick step)
variable {ο : Type} [Pos ο] [PosTotal ο]

section
variable [UnicodeTables]

theorem identEnd_cost {len : Nat} {s : List Char} {i : Nat} (h : len = i + strLen s) :
    (T.identEnd len s i).cost + i ≤ PM2.identEnd len s i + 1 ∧ PM2.identEnd len s i ≤ len := by
  induction s generalizing i with
  | nil => simp at h; simp [T.identEnd, PM2.identEnd, tick, Timed.ok]; omega
  | cons ch s ih =>
    simp only [strLen_cons] at h
    have hp := utf8Size_pos ch
    obtain ⟨h1, h2⟩ := ih (i := i + ch.utf8Size) (by omega)
    simp only [T.identEnd, PM2.identEnd, tick]
    split
    · simp [Timed.ok]; omega
    · omega

theorem identNotRaw_fits (c : Cursor ο) : Fits 2 c.rest (2 * strLen c.rest + 4) (·.1.rest) (T.identNotRaw c) := by
  obtain ⟨rest, off⟩ := c
  cases rest with
  | nil => exact Fits.tick' (M := 0) Fits.err (by omega)
  | cons ch t =>
    simp only []
    refine Fits.tick' (M := 2 * strLen (ch :: t) + 3) ?_ (by omega)
    simp only []
    refine Fits.ite (fun _ => ?_) fun _ => Fits.err
    obtain ⟨h1, h2⟩ := identEnd_cost (len := strLen (ch :: t)) (s := t) (i := ch.utf8Size) (by simp)
    have hp := utf8Size_pos ch
    refine Fits.mono (Fits.bindCost (M := strLen (ch :: t) + 2 + (strLen (ch :: t) - PM2.identEnd (strLen (ch :: t)) t ch.utf8Size))
      (Nat.le_refl _) fun e he => ?_) (by omega)
    simp at he
    simp only [strLen_cons] at h2
    subst he
    simp only [strLen_cons]
    refine Fits.bind' (b := 1) (advance_fits (M := 1 + (ch.utf8Size + strLen t) + (ch.utf8Size + strLen t -
      PM2.identEnd (ch.utf8Size + strLen t) t ch.utf8Size)) (by simp only [strLen_cons]; omega)) (fun c hc hs => ?_) (by omega)
    refine Fits.bindStep fun s hs => ?_
    exact Fits.ok (List.suffix_refl _) (by simp)

theorem identNotRaw_sym {c : Cursor ο} {r : Cursor ο × List Char} (h : PM2.identNotRaw c = .ok r) :
    strLen c.rest = strLen r.2 + strLen r.1.rest ∧ c.rest = r.2 ++ r.1.rest := by
  obtain ⟨rest, off⟩ := c
  cases rest with
  | nil => simp [PM2.identNotRaw] at h
  | cons ch t =>
    simp only [PM2.identNotRaw] at h
    split at h
    · obtain ⟨c, hc, h2⟩ := bindOk h
      obtain ⟨s, hs, h3⟩ := bindOk h2
      cases h3
      obtain ⟨a, h4, h5⟩ := advance_ok hc
      obtain ⟨b, h6, h7⟩ := sliceTo_ok hs
      simp only [] at h4 h6 ⊢
      have h8 := splitAtByte_eq h4 h5.symm
      have h9 := splitAtByte_eq h6 h7.symm
      rw [h8] at h9
      cases h9
      exact ⟨by rw [h4]; simp, h4⟩
    · simp at h

theorem identAny_fits (c : Cursor ο) : Fits 3 c.rest (3 * strLen c.rest + 8) (·.1.rest) (T.identAny c) := by
  refine Fits.tick' (M := 3 * strLen c.rest + 7) ?_ (by omega)
  refine Fits.bind' (b := 4) (advance_fits (M := 3 * strLen c.rest + 3) (by split <;> omega)) (fun c1 hc1 hs1 => ?_) (by omega)
  have h1 := identNotRaw_fits c1
  show Fits 3 c1.rest _ _ (Timed.bind _ _)
  unfold Timed.bind
  split
  · rename_i r hr
    obtain ⟨h2, h3⟩ := h1.2 r hr
    obtain ⟨h4, -⟩ := identNotRaw_sym (by simpa using hr)
    obtain ⟨c2, sym⟩ := r
    have h5 := length_le_strLen sym
    simp only [] at h2 h3 h4 ⊢
    have h6 := h1.1
    split
    · refine ⟨by simp only [tick, Timed.ok]; omega, fun a ha => ?_⟩
      simp at ha
      subst ha
      exact ⟨h2, by simp only [tick, Timed.ok]; omega⟩
    · split
      · exact ⟨by simp only [Timed.err]; omega, fun a ha => by simp at ha⟩
      · refine ⟨by simp only [tick, Timed.ok]; omega, fun a ha => ?_⟩
        simp at ha
        subst ha
        exact ⟨h2, by simp only [tick, Timed.ok]; omega⟩
  all_goals exact ⟨by have := h1.1; simp only []; omega, fun a h => by simp at h⟩

theorem ident_fits (c : Cursor ο) : Fits 3 c.rest (3 * strLen c.rest + 9) (·.1.rest) (T.ident c) := by
  refine Fits.tick' (M := 3 * strLen c.rest + 8) ?_ (by omega)
  exact Fits.ite (fun _ => Fits.err) fun _ => identAny_fits c

theorem literalSuffix_fits (c : Cursor ο) : Fits 2 c.rest (2 * strLen c.rest + 5) (·.rest) (T.literalSuffix c) := by
  have h1 := identNotRaw_fits c
  refine Fits.tick' (M := 2 * strLen c.rest + 4) ?_ (by omega)
  unfold Timed.ifOk
  split
  · rename_i r hr
    obtain ⟨h2, h3⟩ := h1.2 r hr
    have := h1.1
    refine ⟨by simp only [Timed.ok]; omega, fun a ha => ?_⟩
    simp at ha
    subst ha
    exact ⟨h2, by simp only [Timed.ok]; omega⟩
  · rename_i e he
    have hc : (T.identNotRaw c).cost ≤ 4 := by
      obtain ⟨rest, off⟩ := c
      cases rest with
      | nil => simp [T.identNotRaw, tick, Timed.err]
      | cons ch t =>
        simp only [identNotRaw_val, PM2.identNotRaw] at he
        split at he
        · rcases bindErr he with h | ⟨c1, -, h⟩
          · exact absurd h (advance_no_err _ _ _)
          · rcases bindErr h with h | ⟨_, -, h⟩
            · exact absurd h (sliceTo_no_err _ _ _)
            · cases h
        · rename_i hi
          simp [T.identNotRaw, hi, tick, Timed.err]
    refine ⟨by simp only [Timed.ok]; omega, fun a ha => ?_⟩
    simp at ha
    subst ha
    exact ⟨List.suffix_refl _, by simp only [Timed.ok]; omega⟩
  all_goals exact ⟨by have := h1.1; simp only []; omega, fun a h => by simp at h⟩
end


/-! ### Escapes -/

theorem backslashXChar_len {s s' : List Char} {i i' : Nat} (h : backslashXChar s i = .ok (s', i')) :
    strLen s' + i' = strLen s + i ∧ strLen s' ≤ strLen s := by
  unfold backslashXChar at h
  repeat' split at h
  all_goals cases h
  simp only [strLen_cons]; omega

theorem backslashXNonzero_len {s s' : List Char} {i i' : Nat} (h : backslashXNonzero s i = .ok (s', i')) :
    strLen s' + i' = strLen s + i ∧ strLen s' ≤ strLen s := by
  unfold backslashXNonzero at h
  repeat' split at h
  all_goals cases h
  simp only [strLen_cons]; omega

theorem backslashXByte_len {s s' : List UInt8} {i i' : Nat} (h : backslashXByte s i = .ok (s', i')) :
    s'.length + i' = s.length + i ∧ s'.length ≤ s.length := by
  unfold backslashXByte at h
  repeat' split at h
  all_goals cases h
  simp only [List.length_cons]; omega

theorem backslashULoop_cost (s : List Char) (i v l : Nat) :
    (T.backslashULoop s i v l).cost ≤ strLen s + 1 ∧
    ∀ c s' i', PM2.backslashULoop s i v l = .ok (c, s', i') → strLen s' + i' = strLen s + i ∧
      (T.backslashULoop s i v l).cost + strLen s' ≤ strLen s + 1 := by
  induction s generalizing i v l with
  | nil => exact ⟨by simp [T.backslashULoop, tick, Timed.err], fun c s' i' h => by simp [PM2.backslashULoop] at h⟩
  | cons ch s ih =>
    have hp := utf8Size_pos ch
    unfold T.backslashULoop PM2.backslashULoop
    simp only [strLen_cons]
    have hrej : (tick 1 (reject : TRes (Char × List Char × Nat))).cost ≤ ch.utf8Size + strLen s + 1 := by
      simp only [tick, Timed.err]; omega
    cases hexVal ch with
    | some d =>
      simp only []
      split
      · exact ⟨hrej, fun c s' i' h => by cases h⟩
      · obtain ⟨h1, h2⟩ := ih (i + ch.utf8Size) (v * 16 + d) (l + 1)
        refine ⟨by simp only [tick]; omega, fun c s' i' h => ?_⟩
        have := h2 c s' i' h
        simp only [tick]
        omega
    | none =>
      simp only []
      split
      · obtain ⟨h1, h2⟩ := ih (i + ch.utf8Size) v l
        refine ⟨by simp only [tick]; omega, fun c s' i' h => ?_⟩
        have := h2 c s' i' h
        simp only [tick]
        omega
      · split
        · cases charFromU32 v with
          | some c =>
            refine ⟨by simp only [tick, Timed.ok]; omega, fun c s' i' h => ?_⟩
            cases h
            simp only [tick, Timed.ok]
            omega
          | none => exact ⟨hrej, fun c s' i' h => by cases h⟩
        · exact ⟨hrej, fun c s' i' h => by cases h⟩

theorem backslashU_cost (s : List Char) (i : Nat) :
    (T.backslashU s i).cost ≤ strLen s + 1 ∧
    ∀ c s' i', PM2.backslashU s i = .ok (c, s', i') → strLen s' + i' = strLen s + i ∧
      (T.backslashU s i).cost + strLen s' ≤ strLen s + 1 := by
  cases s with
  | nil => exact ⟨by simp [T.backslashU, tick, Timed.err], fun c s' i' h => by simp [PM2.backslashU] at h⟩
  | cons ch s =>
    have hp := utf8Size_pos ch
    unfold T.backslashU PM2.backslashU
    simp only [strLen_cons]
    split
    · obtain ⟨h1, h2⟩ := backslashULoop_cost s (i + ch.utf8Size) 0 0
      refine ⟨by simp only [tick]; omega, fun c s' i' h => ?_⟩
      have := h2 c s' i' h
      simp only [tick]
      omega
    · exact ⟨by simp only [tick, Timed.err]; omega, fun c s' i' h => by cases h⟩

theorem trailingBackslashLoop_fits (input : Cursor ο) (bs : List UInt8) (i : Nat) (last : UInt8)
    (h : bs.length + i = strLen input.rest) :
    Fits 3 input.rest (3 * bs.length + i + 4) (·.rest) (T.trailingBackslashLoop input bs i last) := by
  have key : ∀ n, n ≤ bs.length → ∀ bs : List UInt8, ∀ i last, bs.length ≤ n → bs.length + i = strLen input.rest →
      Fits 3 input.rest (3 * bs.length + i + 4) (·.rest) (T.trailingBackslashLoop input bs i last) := by
    intro n hn
    induction n with
    | zero =>
      intro bs i last hb h
      have : bs = [] := List.length_eq_zero_iff.mp (by omega)
      subst this
      unfold T.trailingBackslashLoop
      refine Fits.tick' (M := 0) ?_ (by simp)
      split <;> exact Fits.err
    | succ n ih =>
      intro bs i last hb h
      unfold T.trailingBackslashLoop
      refine Fits.tick' (M := 3 * bs.length + i + 3) ?_ (by omega)
      refine Fits.ite (fun _ => ?_) fun _ => ?_
      · split
        · refine Fits.ite (fun _ => ?_) fun _ => Fits.err
          split
          · simp only [List.length_cons] at hb h ⊢
            refine Fits.ite (fun _ => ?_) fun _ => ?_
            · exact (ih (by omega) _ _ _ (by omega) (by omega)).mono (by omega)
            · exact advance_fits (by omega)
          · exact Fits.err
        · exact Fits.err
      · split
        · simp only [List.length_cons] at hb h ⊢
          refine Fits.ite (fun _ => ?_) fun _ => ?_
          · exact (ih (by omega) _ _ _ (by omega) (by omega)).mono (by omega)
          · exact advance_fits (by omega)
        · exact Fits.err
  exact key bs.length (Nat.le_refl _) bs i last (Nat.le_refl _) h

theorem trailingBackslash_fits (input : Cursor ο) (last : UInt8) :
    Fits 4 input.rest (4 * strLen input.rest + 4) (·.rest) (T.trailingBackslash input last) := by
  have := trailingBackslashLoop_fits input (bytesOf input.rest) 0 last (by rw [bytesOf_length]; omega)
  rw [bytesOf_length] at this
  exact (this.slope 1).mono (by omega)

section
variable [UnicodeTables]

/-! ### Strings -/

theorem suffix4 (c : Cursor ο) : Fits 4 c.rest (4 * strLen c.rest + 5) (·.rest) (T.literalSuffix c) :=
  ((literalSuffix_fits c).slope 2).mono (by omega)

theorem cookedStringLoop_fits (fuel : Nat) (input : Cursor ο) (chars : List Char) (i : Nat)
    (h : strLen chars + i = strLen input.rest) :
    Fits 4 input.rest (4 * strLen chars + i + 8) (·.rest) (T.cookedStringLoop fuel input chars i) := by
  induction fuel generalizing input chars i with
  | zero => exact Fits.diverge
  | succ fuel ih =>
    cases chars with
    | nil => exact Fits.tick' (M := 0) Fits.err (by omega)
    | cons ch chars =>
      have hp := utf8Size_pos ch
      unfold T.cookedStringLoop
      simp only [strLen_cons] at h ⊢
      refine Fits.tick' (M := 4 * (ch.utf8Size + strLen chars) + i + 7) ?_ (by omega)
      refine Fits.ite (fun hq => ?_) fun _ => Fits.ite (fun hr => ?_) fun _ => Fits.ite (fun hb => ?_) fun _ => ?_
      · subst hq
        have h1 : '"'.utf8Size = 1 := rfl
        refine Fits.bind' (b := 5) (advance_fits (M := 4 * strLen chars + i + 2) (by omega)) (fun c _ _ => suffix4 c) (by omega)
      · subst hr
        have h1 : '\r'.utf8Size = 1 := rfl
        split
        · refine Fits.ite (fun hn => ?_) fun _ => Fits.err
          subst hn
          have h2 : '\n'.utf8Size = 1 := rfl
          simp only [strLen_cons] at h ⊢
          exact (ih _ _ _ (by omega)).mono (by omega)
        · exact Fits.err
      · subst hb
        have h1 : '\\'.utf8Size = 1 := rfl
        split
        · rename_i c2 chars
          have hp2 := utf8Size_pos c2
          simp only [strLen_cons] at h ⊢
          refine Fits.ite (fun hx => ?_) fun _ => Fits.ite (fun hs => ?_) fun _ => Fits.ite (fun hu => ?_) fun _ =>
            Fits.ite (fun hn => ?_) fun _ => Fits.err
          · subst hx
            have h2 : 'x'.utf8Size = 1 := rfl
            refine Fits.bindAny (by simp only [step]; omega) fun a ha => ?_
            obtain ⟨s', i'⟩ := a
            have := backslashXChar_len ha
            exact ⟨_, ih input s' i' (by omega), by simp only [step]; omega⟩
          · have h2 : c2.utf8Size = 1 := by rcases hs with h | h | h | h | h | h | h <;> subst h <;> rfl
            exact (ih _ _ _ (by omega)).mono (by omega)
          · subst hu
            have h2 : 'u'.utf8Size = 1 := rfl
            obtain ⟨hc, hl⟩ := backslashU_cost chars (i + 2)
            refine Fits.bindAny (by omega) fun a ha => ?_
            obtain ⟨c, s', i'⟩ := a
            have := hl c s' i' (by simpa using ha)
            exact ⟨_, ih input s' i' (by omega), by omega⟩
          · have h2 : c2.utf8Size = 1 := by rcases hn with h | h <;> subst h <;> rfl
            refine Fits.bind' (b := 12) (advance_fits (M := 4 * strLen chars + i + 3) (by omega)) (fun c _ _ => ?_) (by omega)
            refine Fits.bind' (b := 8) (trailingBackslash_fits c _) (fun c' _ _ => ?_) (by omega)
            exact (ih c' c'.rest 0 (by omega)).mono (by omega)
        · exact Fits.err
      · exact (ih _ _ _ (by omega)).mono (by omega)

theorem cookedString_fits (c : Cursor ο) : Fits 4 c.rest (4 * strLen c.rest + 8) (·.rest) (T.cookedString c) :=
  (cookedStringLoop_fits _ c c.rest 0 (by omega)).mono (by omega)

theorem cookedCStringLoop_fits (fuel : Nat) (input : Cursor ο) (chars : List Char) (i : Nat)
    (h : strLen chars + i = strLen input.rest) :
    Fits 4 input.rest (4 * strLen chars + i + 8) (·.rest) (T.cookedCStringLoop fuel input chars i) := by
  induction fuel generalizing input chars i with
  | zero => exact Fits.diverge
  | succ fuel ih =>
    cases chars with
    | nil => exact Fits.tick' (M := 0) Fits.err (by omega)
    | cons ch chars =>
      have hp := utf8Size_pos ch
      unfold T.cookedCStringLoop
      simp only [strLen_cons] at h ⊢
      refine Fits.tick' (M := 4 * (ch.utf8Size + strLen chars) + i + 7) ?_ (by omega)
      refine Fits.ite (fun hq => ?_) fun _ => Fits.ite (fun hr => ?_) fun _ => Fits.ite (fun hb => ?_) fun _ =>
        Fits.ite (fun _ => Fits.err) fun _ => ?_
      · subst hq
        have h1 : '"'.utf8Size = 1 := rfl
        refine Fits.bind' (b := 5) (advance_fits (M := 4 * strLen chars + i + 2) (by omega)) (fun c _ _ => suffix4 c) (by omega)
      · subst hr
        have h1 : '\r'.utf8Size = 1 := rfl
        split
        · refine Fits.ite (fun hn => ?_) fun _ => Fits.err
          subst hn
          have h2 : '\n'.utf8Size = 1 := rfl
          simp only [strLen_cons] at h ⊢
          exact (ih _ _ _ (by omega)).mono (by omega)
        · exact Fits.err
      · subst hb
        have h1 : '\\'.utf8Size = 1 := rfl
        split
        · rename_i c2 chars
          have hp2 := utf8Size_pos c2
          simp only [strLen_cons] at h ⊢
          refine Fits.ite (fun hx => ?_) fun _ => Fits.ite (fun hs => ?_) fun _ => Fits.ite (fun hu => ?_) fun _ =>
            Fits.ite (fun hn => ?_) fun _ => Fits.err
          · subst hx
            have h2 : 'x'.utf8Size = 1 := rfl
            refine Fits.bindAny (by simp only [step]; omega) fun a ha => ?_
            obtain ⟨s', i'⟩ := a
            have := backslashXNonzero_len ha
            exact ⟨_, ih input s' i' (by omega), by simp only [step]; omega⟩
          · have h2 : c2.utf8Size = 1 := by rcases hs with h | h | h | h | h | h <;> subst h <;> rfl
            exact (ih _ _ _ (by omega)).mono (by omega)
          · subst hu
            have h2 : 'u'.utf8Size = 1 := rfl
            obtain ⟨hc, hl⟩ := backslashU_cost chars (i + 2)
            refine Fits.bindAny (by omega) fun a ha => ?_
            obtain ⟨c, s', i'⟩ := a
            have := hl c s' i' (by simpa using ha)
            refine ⟨4 * strLen s' + i' + 8, Fits.ite (fun _ => Fits.err) fun _ => ih input s' i' (by omega), by omega⟩
          · have h2 : c2.utf8Size = 1 := by rcases hn with h | h <;> subst h <;> rfl
            refine Fits.bind' (b := 12) (advance_fits (M := 4 * strLen chars + i + 3) (by omega)) (fun c _ _ => ?_) (by omega)
            refine Fits.bind' (b := 8) (trailingBackslash_fits c _) (fun c' _ _ => ?_) (by omega)
            exact (ih c' c'.rest 0 (by omega)).mono (by omega)
        · exact Fits.err
      · exact (ih _ _ _ (by omega)).mono (by omega)

theorem cookedCString_fits (c : Cursor ο) : Fits 4 c.rest (4 * strLen c.rest + 8) (·.rest) (T.cookedCString c) :=
  (cookedCStringLoop_fits _ c c.rest 0 (by omega)).mono (by omega)

theorem cookedByteStringLoop_fits (fuel : Nat) (input : Cursor ο) (bytes : List UInt8) (i : Nat)
    (h : bytes.length + i = strLen input.rest) :
    Fits 4 input.rest (4 * bytes.length + i + 8) (·.rest) (T.cookedByteStringLoop fuel input bytes i) := by
  induction fuel generalizing input bytes i with
  | zero => exact Fits.diverge
  | succ fuel ih =>
    cases bytes with
    | nil => exact Fits.tick' (M := 0) Fits.err (by omega)
    | cons b bytes =>
      unfold T.cookedByteStringLoop
      simp only [List.length_cons] at h ⊢
      refine Fits.tick' (M := 4 * (bytes.length + 1) + i + 7) ?_ (by omega)
      refine Fits.ite (fun hq => ?_) fun _ => Fits.ite (fun hr => ?_) fun _ => Fits.ite (fun hb => ?_) fun _ =>
        Fits.ite (fun _ => ?_) fun _ => Fits.err
      · refine Fits.bind' (b := 5) (advance_fits (M := 4 * bytes.length + i + 2) (by omega)) (fun c _ _ => suffix4 c) (by omega)
      · split
        · refine Fits.ite (fun hn => ?_) fun _ => Fits.err
          simp only [List.length_cons] at h ⊢
          exact (ih _ _ _ (by omega)).mono (by omega)
        · exact Fits.err
      · split
        · rename_i b2 bytes
          simp only [List.length_cons] at h ⊢
          refine Fits.ite (fun hx => ?_) fun _ => Fits.ite (fun hs => ?_) fun _ =>
            Fits.ite (fun hn => ?_) fun _ => Fits.err
          · refine Fits.bindAny (by simp only [step]; omega) fun a ha => ?_
            obtain ⟨s', i'⟩ := a
            have := backslashXByte_len ha
            exact ⟨_, ih input s' i' (by omega), by simp only [step]; omega⟩
          · exact (ih _ _ _ (by omega)).mono (by omega)
          · refine Fits.bind' (b := 12) (advance_fits (M := 4 * bytes.length + i + 3) (by omega)) (fun c _ _ => ?_) (by omega)
            refine Fits.bind' (b := 8) (trailingBackslash_fits c _) (fun c' _ _ => ?_) (by omega)
            exact (ih c' _ 0 (by rw [bytesOf_length]; omega)).mono (by rw [bytesOf_length]; omega)
        · exact Fits.err
      · exact (ih _ _ _ (by omega)).mono (by omega)

theorem cookedByteString_fits (c : Cursor ο) : Fits 4 c.rest (4 * strLen c.rest + 8) (·.rest) (T.cookedByteString c) :=
  (cookedByteStringLoop_fits _ c (bytesOf c.rest) 0 (by rw [bytesOf_length]; omega)).mono (by rw [bytesOf_length]; omega)

/-! ### Raw strings -/

/-- The number of `#` at the beginning. -/
def hashes : List UInt8 → Nat
  | b :: bs => if b = B '#' then 1 + hashes bs else 0
  | [] => 0

theorem sliceFrom_bytes {ε : Type} {s t : List Char} {n : Nat} (h : (sliceFrom s n : Res ε _) = .ok t) :
    bytesOf t = (bytesOf s).drop n := by
  obtain ⟨p, rfl, rfl⟩ := sliceFrom_ok h
  rw [bytesOf_append, ← bytesOf_length p, List.drop_left]

theorem common_hashes {t d : List Char} (hd : ∀ c ∈ d, c = '#') :
    common t d ≤ hashes (bytesOf t) ∧ common t d ≤ d.length := by
  induction t generalizing d with
  | nil => simp [common]
  | cons c t ih =>
    cases d with
    | nil => simp [common]
    | cons e d =>
      unfold common
      split
      · rename_i hc
        have he := hd e (by simp)
        subst he
        subst hc
        have := ih (d := d) fun c hc => hd c (List.mem_cons_of_mem _ hc)
        rw [bytesOf_cons, encode_ascii (by decide)]
        simp only [List.cons_append, List.nil_append, hashes, if_true, List.length_cons]
        omega
      · omega

theorem allHash {t : List Char} (h : ∀ b ∈ bytesOf t, b = B '#') : ∀ c ∈ t, c = '#' := by
  induction t with
  | nil => simp
  | cons c t ih =>
    rw [bytesOf_cons] at h
    intro d hd
    rcases List.mem_cons.mp hd with rfl | hd
    · by_cases ha : d.toNat < 128
      · rw [encode_ascii ha] at h
        exact (B_inj ha (by decide)).mp (h _ (by simp))
      · have h1 := encode_high ha
        have h2 : (String.utf8EncodeChar d).length = d.utf8Size := String.length_utf8EncodeChar d
        have h3 := utf8Size_pos d
        cases he : String.utf8EncodeChar d with
        | nil => rw [he] at h2; simp at h2; omega
        | cons b l =>
          rw [he] at h h1
          have h4 := h b (by simp)
          subst h4
          exact absurd (by decide) (h1 (B '#') (by simp))
    · exact ih (fun b hb => h b (by simp [hb])) d hd

theorem delimiterLoop_fits (input : Cursor ο) (bs : List UInt8) (i : Nat)
    (h : bytesOf input.rest = List.replicate i (B '#') ++ bs) :
    Fits 2 input.rest (2 * bs.length + i + 4) (·.1.rest) (T.delimiterLoop input bs i) ∧
    (∀ c d, (T.delimiterLoop input bs i).val = .ok (c, d) → ∀ x ∈ d, x = '#') := by
  have hl := congrArg List.length h
  rw [bytesOf_length] at hl
  simp at hl
  induction bs generalizing i with
  | nil => exact ⟨Fits.tick' (M := 0) Fits.err (by omega), fun c d h => by simp [PM2.delimiterLoop] at h⟩
  | cons b bs ih =>
    simp only [List.length_cons] at hl ⊢
    constructor
    · unfold T.delimiterLoop
      refine Fits.tick' (M := 2 * (bs.length + 1) + i + 3) ?_ (by omega)
      refine Fits.ite (fun _ => ?_) fun _ => Fits.ite (fun hh => ?_) fun _ => Fits.err
      · refine Fits.ite (fun _ => Fits.err) fun _ => ?_
        refine Fits.bind' (b := 1) (advance_fits (M := 2 * bs.length + i + 2) (by omega)) (fun c _ _ => ?_) (by omega)
        refine Fits.bindStep fun s hs => ?_
        exact Fits.ok (List.suffix_refl _) (by simp)
      · subst hh
        exact (ih (i + 1) (by rw [h]; simp [List.replicate_succ', List.append_assoc]) (by omega)).1.mono (by omega)
    · intro c d hd
      simp only [delimiterLoop_val] at hd ih
      unfold PM2.delimiterLoop at hd
      split at hd
      · split at hd
        · cases hd
        · obtain ⟨c1, hc1, h2⟩ := bindOk hd
          obtain ⟨t, ht, h3⟩ := bindOk h2
          cases h3
          obtain ⟨r, hr, hrl⟩ := sliceTo_ok ht
          apply allHash
          have h4 : bytesOf d = (bytesOf input.rest).take i := by
            rw [hr, bytesOf_append, ← hrl, ← bytesOf_length, List.take_left]
          rw [h4, h]
          have h5 : i = (List.replicate i (B '#')).length := by simp
          intro b hb
          rw [List.take_append_of_le_length (by simp)] at hb
          exact List.eq_of_mem_replicate (List.mem_of_mem_take hb)
      · split at hd
        · rename_i hh
          subst hh
          exact (ih (i + 1) (by rw [h]; simp [List.replicate_succ', List.append_assoc]) (by omega)).2 c d hd
        · cases hd

theorem delimiter_fits (c : Cursor ο) :
    Fits 3 c.rest (3 * strLen c.rest + 4) (·.1.rest) (T.delimiterOfRawString c) := by
  have := (delimiterLoop_fits c (bytesOf c.rest) 0 rfl).1
  rw [bytesOf_length] at this
  exact (this.slope 1).mono (by omega)

theorem suffix3 (c : Cursor ο) : Fits 3 c.rest (3 * strLen c.rest + 5) (·.rest) (T.literalSuffix c) :=
  ((literalSuffix_fits c).slope 1).mono (by omega)

theorem bytes_drop {s : List Char} {b : UInt8} {bs : List UInt8} {i : Nat} (h : b :: bs = (bytesOf s).drop i) :
    bs = (bytesOf s).drop (i + 1) ∧ bs.length + 1 + i = strLen s := by
  have hl := congrArg List.length h
  simp [bytesOf_length] at hl
  refine ⟨?_, by omega⟩
  rw [← List.drop_drop, ← h]
  rfl

theorem hashes_le (bs : List UInt8) : hashes bs ≤ bs.length := by
  induction bs with
  | nil => simp [hashes]
  | cons b bs ih => unfold hashes; split <;> simp only [List.length_cons] <;> omega

/-- What the three loops over raw strings do at a quotation mark. -/
theorem rawQuote_fits {input : Cursor ο} {d : List Char} {bs : List UInt8} {i M : Nat}
    (hd : ∀ c ∈ d, c = '#') (hb : B '"' :: bs = (bytesOf input.rest).drop i) (hM : 3 * bs.length + i + 11 ≤ M)
    {k : TRes (Cursor ο)}
    (hk : ∀ M, 3 * bs.length + i + 1 + 9 ≤ M + hashes bs → Fits 3 input.rest M (·.rest) k) :
    Fits 3 input.rest M (·.rest) (do
      let t ← step (sliceFrom input.rest (i + 1))
      tick (common t d) <|
      if startsWith t d then do
        let rest ← T.advance input (i + 1 + strLen d)
        T.literalSuffix rest
      else k) := by
  obtain ⟨h1, h2⟩ := bytes_drop hb
  refine Fits.bindStep' (M := M - 1) (fun t ht => ?_) (by omega)
  have ht' := sliceFrom_bytes ht
  rw [← h1] at ht'
  obtain ⟨hc, hc2⟩ := common_hashes (t := t) hd
  rw [ht'] at hc
  have hh := hashes_le bs
  have hdl := length_le_strLen d
  refine Fits.tick' (M := M - 1 - common t d) ?_ (by omega)
  refine Fits.ite (fun hs => ?_) fun _ => ?_
  · have hs := startsWith_len hs
    have htl : strLen t = bs.length := by rw [← bytesOf_length, ht']
    refine Fits.bind' (b := 5) (advance_fits (M := 3 * (bs.length - strLen d) + i + 2 + strLen d) (by omega))
      (fun c _ _ => suffix3 c) (by omega)
  · exact hk _ (by omega)

theorem rawStringLoop_fits (input : Cursor ο) (d : List Char) (hd : ∀ c ∈ d, c = '#') (bs : List UInt8) (i M : Nat)
    (hb : bs = (bytesOf input.rest).drop i) (hM : 3 * bs.length + i + 9 ≤ M + hashes bs) :
    Fits 3 input.rest M (·.rest) (T.rawStringLoop input d bs i) := by
  have key : ∀ n, ∀ bs : List UInt8, bs.length ≤ n → ∀ i M, bs = (bytesOf input.rest).drop i →
      3 * bs.length + i + 9 ≤ M + hashes bs → Fits 3 input.rest M (·.rest) (T.rawStringLoop input d bs i) := by
    intro n
    induction n with
    | zero =>
      intro bs hn i M hb hM
      have : bs = [] := List.length_eq_zero_iff.mp (by omega)
      subst this
      exact Fits.tick' (M := 0) Fits.err (by simp [hashes] at hM; omega)
    | succ n ih =>
      intro bs hn i M hb hM
      cases bs with
      | nil => exact Fits.tick' (M := 0) Fits.err (by simp [hashes] at hM; omega)
      | cons b bs =>
        have hdr := (bytes_drop hb).1
        have hhl := hashes_le bs
        unfold T.rawStringLoop
        have hM' : 3 * bs.length + i + 11 ≤ M + hashes bs := by
          simp only [hashes, List.length_cons] at hM; split at hM <;> omega
        simp only [List.length_cons] at hM hn
        refine Fits.tick' (M := M - 1) ?_ (by omega)
        refine Fits.ite (fun hq => ?_) fun _ => Fits.ite (fun hr => ?_) fun _ => ?_
        · subst hq
          have : hashes (B '"' :: bs) = 0 := by simp only [hashes]; rw [if_neg (by decide)]
          exact rawQuote_fits hd hb (by omega) fun M hM => ih bs (by omega) (i + 1) M hdr (by omega)
        · subst hr
          have : hashes (B '\r' :: bs) = 0 := by simp only [hashes]; rw [if_neg (by decide)]
          split
          · rename_i b2 bs'
            refine Fits.ite (fun hn => ?_) fun _ => Fits.err
            simp only [List.length_cons] at *
            have := hashes_le bs'
            refine ih bs' (by omega) (i + 2) _ (bytes_drop hdr).1 (by omega)
          · exact Fits.err
        · exact ih bs (by omega) (i + 1) _ hdr (by omega)
  exact key bs.length bs (Nat.le_refl _) i M hb hM

theorem rawByteStringLoop_fits (input : Cursor ο) (d : List Char) (hd : ∀ c ∈ d, c = '#') (bs : List UInt8) (i M : Nat)
    (hb : bs = (bytesOf input.rest).drop i) (hM : 3 * bs.length + i + 9 ≤ M + hashes bs) :
    Fits 3 input.rest M (·.rest) (T.rawByteStringLoop input d bs i) := by
  have key : ∀ n, ∀ bs : List UInt8, bs.length ≤ n → ∀ i M, bs = (bytesOf input.rest).drop i →
      3 * bs.length + i + 9 ≤ M + hashes bs → Fits 3 input.rest M (·.rest) (T.rawByteStringLoop input d bs i) := by
    intro n
    induction n with
    | zero =>
      intro bs hn i M hb hM
      have : bs = [] := List.length_eq_zero_iff.mp (by omega)
      subst this
      exact Fits.tick' (M := 0) Fits.err (by simp [hashes] at hM; omega)
    | succ n ih =>
      intro bs hn i M hb hM
      cases bs with
      | nil => exact Fits.tick' (M := 0) Fits.err (by simp [hashes] at hM; omega)
      | cons b bs =>
        have hdr := (bytes_drop hb).1
        have hhl := hashes_le bs
        unfold T.rawByteStringLoop
        have hM' : 3 * bs.length + i + 11 ≤ M + hashes bs := by
          simp only [hashes, List.length_cons] at hM; split at hM <;> omega
        simp only [List.length_cons] at hM hn
        refine Fits.tick' (M := M - 1) ?_ (by omega)
        refine Fits.ite (fun hq => ?_) fun _ => Fits.ite (fun hr => ?_) fun _ => ?_
        · subst hq
          have : hashes (B '"' :: bs) = 0 := by simp only [hashes]; rw [if_neg (by decide)]
          exact rawQuote_fits hd hb (by omega) fun M hM => ih bs (by omega) (i + 1) M hdr (by omega)
        · subst hr
          have : hashes (B '\r' :: bs) = 0 := by simp only [hashes]; rw [if_neg (by decide)]
          split
          · rename_i b2 bs'
            refine Fits.ite (fun hn => ?_) fun _ => Fits.err
            simp only [List.length_cons] at *
            have := hashes_le bs'
            refine ih bs' (by omega) (i + 2) _ (bytes_drop hdr).1 (by omega)
          · exact Fits.err
        · exact Fits.ite (fun _ => ih bs (by omega) (i + 1) _ hdr (by omega)) fun _ => Fits.err
  exact key bs.length bs (Nat.le_refl _) i M hb hM

theorem rawCStringLoop_fits (input : Cursor ο) (d : List Char) (hd : ∀ c ∈ d, c = '#') (bs : List UInt8) (i M : Nat)
    (hb : bs = (bytesOf input.rest).drop i) (hM : 3 * bs.length + i + 9 ≤ M + hashes bs) :
    Fits 3 input.rest M (·.rest) (T.rawCStringLoop input d bs i) := by
  have key : ∀ n, ∀ bs : List UInt8, bs.length ≤ n → ∀ i M, bs = (bytesOf input.rest).drop i →
      3 * bs.length + i + 9 ≤ M + hashes bs → Fits 3 input.rest M (·.rest) (T.rawCStringLoop input d bs i) := by
    intro n
    induction n with
    | zero =>
      intro bs hn i M hb hM
      have : bs = [] := List.length_eq_zero_iff.mp (by omega)
      subst this
      exact Fits.tick' (M := 0) Fits.err (by simp [hashes] at hM; omega)
    | succ n ih =>
      intro bs hn i M hb hM
      cases bs with
      | nil => exact Fits.tick' (M := 0) Fits.err (by simp [hashes] at hM; omega)
      | cons b bs =>
        have hdr := (bytes_drop hb).1
        have hhl := hashes_le bs
        unfold T.rawCStringLoop
        have hM' : 3 * bs.length + i + 11 ≤ M + hashes bs := by
          simp only [hashes, List.length_cons] at hM; split at hM <;> omega
        simp only [List.length_cons] at hM hn
        refine Fits.tick' (M := M - 1) ?_ (by omega)
        refine Fits.ite (fun hq => ?_) fun _ => Fits.ite (fun hr => ?_) fun _ => ?_
        · subst hq
          have : hashes (B '"' :: bs) = 0 := by simp only [hashes]; rw [if_neg (by decide)]
          exact rawQuote_fits hd hb (by omega) fun M hM => ih bs (by omega) (i + 1) M hdr (by omega)
        · subst hr
          have : hashes (B '\r' :: bs) = 0 := by simp only [hashes]; rw [if_neg (by decide)]
          split
          · rename_i b2 bs'
            refine Fits.ite (fun hn => ?_) fun _ => Fits.err
            simp only [List.length_cons] at *
            have := hashes_le bs'
            refine ih bs' (by omega) (i + 2) _ (bytes_drop hdr).1 (by omega)
          · exact Fits.err
        · exact Fits.ite (fun _ => Fits.err) fun _ => ih bs (by omega) (i + 1) _ hdr (by omega)
  exact key bs.length bs (Nat.le_refl _) i M hb hM

theorem rawString_fits (c : Cursor ο) : Fits 3 c.rest (3 * strLen c.rest + 14) (·.rest) (T.rawString c) := by
  refine Fits.tick' (M := 3 * strLen c.rest + 13) ?_ (by omega)
  refine Fits.bind' (b := 9) (delimiter_fits c) (fun r hr _ => ?_) (by omega)
  obtain ⟨c', d⟩ := r
  exact rawStringLoop_fits c' d ((delimiterLoop_fits c _ 0 rfl).2 c' d hr) _ 0 _ rfl (by rw [bytesOf_length]; simp only []; omega)

theorem rawByteString_fits (c : Cursor ο) : Fits 3 c.rest (3 * strLen c.rest + 14) (·.rest) (T.rawByteString c) := by
  refine Fits.tick' (M := 3 * strLen c.rest + 13) ?_ (by omega)
  refine Fits.bind' (b := 9) (delimiter_fits c) (fun r hr _ => ?_) (by omega)
  obtain ⟨c', d⟩ := r
  exact rawByteStringLoop_fits c' d ((delimiterLoop_fits c _ 0 rfl).2 c' d hr) _ 0 _ rfl (by rw [bytesOf_length]; simp only []; omega)

theorem rawCString_fits (c : Cursor ο) : Fits 3 c.rest (3 * strLen c.rest + 14) (·.rest) (T.rawCString c) := by
  refine Fits.tick' (M := 3 * strLen c.rest + 13) ?_ (by omega)
  refine Fits.bind' (b := 9) (delimiter_fits c) (fun r hr _ => ?_) (by omega)
  obtain ⟨c', d⟩ := r
  exact rawCStringLoop_fits c' d ((delimiterLoop_fits c _ 0 rfl).2 c' d hr) _ 0 _ rfl (by rw [bytesOf_length]; simp only []; omega)

theorem string_fits (c : Cursor ο) : Fits 4 c.rest (4 * strLen c.rest + 17) (·.rest) (T.string c) := by
  unfold T.string
  refine Fits.tick' (M := 4 * strLen c.rest + 16) ?_ (by omega)
  refine Fits.mono (Fits.ifStep (M := 4 * strLen c.rest + 15) (fun c' hc => ?_) fun _ =>
    Fits.mono (Fits.ifStep (M := 4 * strLen c.rest + 14) (fun c' hc => ?_) fun _ => Fits.err) (by omega)) (by omega)
  · obtain ⟨-, h1, h2⟩ := parse_ok hc
    exact ((cookedString_fits c').suffix h1).mono (by omega)
  · obtain ⟨-, h1, h2⟩ := parse_ok hc
    exact (((rawString_fits c').slope 1).suffix h1).mono (by omega)

theorem byteString_fits (c : Cursor ο) : Fits 4 c.rest (4 * strLen c.rest + 17) (·.rest) (T.byteString c) := by
  unfold T.byteString
  refine Fits.tick' (M := 4 * strLen c.rest + 16) ?_ (by omega)
  refine Fits.mono (Fits.ifStep (M := 4 * strLen c.rest + 15) (fun c' hc => ?_) fun _ =>
    Fits.mono (Fits.ifStep (M := 4 * strLen c.rest + 14) (fun c' hc => ?_) fun _ => Fits.err) (by omega)) (by omega)
  · obtain ⟨-, h1, h2⟩ := parse_ok hc
    exact ((cookedByteString_fits c').suffix h1).mono (by omega)
  · obtain ⟨-, h1, h2⟩ := parse_ok hc
    exact (((rawByteString_fits c').slope 1).suffix h1).mono (by omega)

theorem cString_fits (c : Cursor ο) : Fits 4 c.rest (4 * strLen c.rest + 17) (·.rest) (T.cString c) := by
  unfold T.cString
  refine Fits.tick' (M := 4 * strLen c.rest + 16) ?_ (by omega)
  refine Fits.mono (Fits.ifStep (M := 4 * strLen c.rest + 15) (fun c' hc => ?_) fun _ =>
    Fits.mono (Fits.ifStep (M := 4 * strLen c.rest + 14) (fun c' hc => ?_) fun _ => Fits.err) (by omega)) (by omega)
  · obtain ⟨-, h1, h2⟩ := parse_ok hc
    exact ((cookedCString_fits c').suffix h1).mono (by omega)
  · obtain ⟨-, h1, h2⟩ := parse_ok hc
    exact (((rawCString_fits c').slope 1).suffix h1).mono (by omega)

/-! ### Characters -/

theorem byteElem_len {bs bs' : List UInt8} {n : Nat} (h : byteElem bs = .ok (some (bs', n))) :
    bs'.length + n = bs.length := by
  cases bs with
  | nil => simp [byteElem] at h
  | cons b bs =>
    by_cases hb : b = B '\\'
    · cases bs with
      | nil => simp [byteElem, hb] at h
      | cons b2 bs =>
        simp only [byteElem, if_pos hb] at h
        split at h
        · cases hx : backslashXByte bs 2 with
          | ok r =>
            rw [hx] at h
            simp [Res.ifOk] at h
            subst h
            have := backslashXByte_len hx
            simp only [List.length_cons]
            omega
          | _ => rw [hx] at h; simp [Res.ifOk] at h
        · split at h
          · cases h; simp only [List.length_cons]
          · cases h
    · simp only [byteElem, if_neg hb] at h
      cases h; simp

theorem byte_fits (c : Cursor ο) : Fits 4 c.rest (4 * strLen c.rest + 17) (·.rest) (T.byte c) := by
  unfold T.byte
  refine Fits.tick' (M := 4 * strLen c.rest + 16) ?_ (by omega)
  refine Fits.bindStep' (M := 4 * strLen c.rest + 15) (fun c1 hc1 => ?_) (by omega)
  obtain ⟨-, h1, h2⟩ := parse_ok hc1
  refine Fits.suffix ?_ h1
  refine Fits.bindStep' (M := 4 * strLen c1.rest + 14) (fun r hr => ?_) (by omega)
  split
  · exact Fits.err
  · split
    · exact Fits.err
    · rename_i n _ _ _
      have hl := byteElem_len hr
      rw [bytesOf_length] at hl
      refine Fits.ite (fun _ => Fits.err) fun _ => ?_
      refine Fits.bind' (b := 6) (advance_fits (M := 4 * (strLen c1.rest - n) + n + 1) (by omega)) (fun c2 hc2 _ => ?_) (by omega)
      refine Fits.bindStep' (M := 4 * strLen c2.rest + 5) (fun c3 hc3 => ?_) (by omega)
      obtain ⟨-, h3, h4⟩ := parse_ok hc3
      exact (suffix4 c3).suffix h3 |>.mono (by omega)

theorem charElem_cost (s : List Char) : (T.charElem s).cost ≤ strLen s + 2 ∧
    ∀ s' n, PM2.charElem s = .ok (some (s', n)) → strLen s' + n = strLen s ∧ (T.charElem s).cost ≤ n + 1 := by
  cases s with
  | nil => exact ⟨by simp [T.charElem, tick, Timed.ok], fun s' n h => by simp [PM2.charElem] at h⟩
  | cons ch s =>
    have hp := utf8Size_pos ch
    unfold T.charElem PM2.charElem
    simp only [strLen_cons]
    by_cases hb : ch = '\\'
    · rw [if_pos hb, if_pos hb]
      subst hb
      have h1 : '\\'.utf8Size = 1 := rfl
      cases s with
      | nil => exact ⟨by simp [tick, Timed.ok], fun s' n h => by cases h⟩
      | cons c2 s =>
        have hp2 := utf8Size_pos c2
        simp only [strLen_cons]
        by_cases hx : c2 = 'x'
        · rw [if_pos hx, if_pos hx]
          subst hx
          have h2 : 'x'.utf8Size = 1 := rfl
          cases hr : backslashXChar s 2 with
          | ok r =>
            obtain ⟨s1, i1⟩ := r
            have := backslashXChar_len hr
            refine ⟨by simp only [tick, Timed.ifOk, step, Timed.ok]; omega, fun s' n h => ?_⟩
            simp [Res.ifOk] at h
            obtain ⟨rfl, rfl⟩ := h
            simp only [tick, Timed.ifOk, step, Timed.ok]
            omega
          | _ =>
            refine ⟨by simp only [tick, Timed.ifOk, step, Timed.ok]; omega, fun s' n h => ?_⟩
            simp [Res.ifOk] at h
        · rw [if_neg hx, if_neg hx]
          by_cases hu : c2 = 'u'
          · rw [if_pos hu, if_pos hu]
            subst hu
            have h2 : 'u'.utf8Size = 1 := rfl
            obtain ⟨h3, h4⟩ := backslashU_cost s 2
            have hval := backslashU_val s 2
            cases hr : PM2.backslashU s 2 with
            | ok r =>
              obtain ⟨c, s1, i1⟩ := r
              have := h4 c s1 i1 hr
              rw [hr] at hval
              refine ⟨by simp only [tick, Timed.ifOk, hval, Timed.ok]; omega, fun s' n h => ?_⟩
              simp [Res.ifOk] at h
              obtain ⟨rfl, rfl⟩ := h
              simp only [tick, Timed.ifOk, hval, Timed.ok]
              omega
            | _ =>
              rw [hr] at hval
              refine ⟨by simp only [tick, Timed.ifOk, hval, Timed.ok]; omega, fun s' n h => ?_⟩
              simp [Res.ifOk] at h
          · rw [if_neg hu, if_neg hu]
            by_cases hs : c2 = 'n' ∨ c2 = 'r' ∨ c2 = 't' ∨ c2 = '\\' ∨ c2 = '0' ∨ c2 = '\'' ∨ c2 = '"'
            · rw [if_pos hs, if_pos hs]
              have h2 : c2.utf8Size = 1 := by rcases hs with h | h | h | h | h | h | h <;> subst h <;> rfl
              refine ⟨by simp only [tick, Timed.ok]; omega, fun s' n h => ?_⟩
              cases h
              simp only [tick, Timed.ok]
              omega
            · rw [if_neg hs, if_neg hs]
              exact ⟨by simp only [tick, Timed.ok]; omega, fun s' n h => by cases h⟩
    · rw [if_neg hb, if_neg hb]
      refine ⟨by simp only [tick, Timed.ok]; omega, fun s' n h => ?_⟩
      cases h
      simp only [tick, Timed.ok]
      omega

theorem character_fits (c : Cursor ο) : Fits 4 c.rest (4 * strLen c.rest + 17) (·.rest) (T.character c) := by
  unfold T.character
  refine Fits.tick' (M := 4 * strLen c.rest + 16) ?_ (by omega)
  refine Fits.bindStep' (M := 4 * strLen c.rest + 15) (fun c1 hc1 => ?_) (by omega)
  obtain ⟨-, h1, h2⟩ := parse_ok hc1
  refine Fits.suffix ?_ h1
  obtain ⟨h3, h4⟩ := charElem_cost c1.rest
  refine Fits.bindAny (by omega) fun r hr => ?_
  split
  · exact ⟨0, Fits.err, by omega⟩
  · rename_i chars n
    obtain ⟨h5, h6⟩ := h4 chars n (by simpa using hr)
    refine ⟨4 * (strLen c1.rest - n) + n + 7, ?_, by omega⟩
    split
    · exact Fits.err
    · refine Fits.bind' (b := 6) (advance_fits (M := 4 * (strLen c1.rest - n) + n + 1) (by omega)) (fun c2 hc2 _ => ?_) (by omega)
      refine Fits.bindStep' (M := 4 * strLen c2.rest + 5) (fun c3 hc3 => ?_) (by omega)
      obtain ⟨-, h3, h4⟩ := parse_ok hc3
      exact (suffix4 c3).suffix h3 |>.mono (by omega)

end
end PM2.T
