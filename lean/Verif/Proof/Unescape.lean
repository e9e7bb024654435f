import Verif.Model.Unescape
import Verif.Spec.Value
import Verif.Proof.Grammar
/-! # The unescaper computes the meaning of the text -/

set_option linter.unusedSectionVars false

namespace PM2
open Spec

theorem hex_not_underscore : ¬ HexDigit '_' := by unfold HexDigit; decide
theorem hex_not_brace : ¬ HexDigit '}' := by unfold HexDigit; decide

theorem unicodeEscapeLoop_sound {s r : List Char} {v n x : Nat}
    (h : unicodeEscapeLoop s v n = (.ok x, r)) :
    ∃ ds, s = ds ++ '}' :: r ∧ (∀ c ∈ ds, HexDigit c ∨ c = '_') ∧
      n + (ds.filter (· ≠ '_')).length ≤ 6 ∧
      x = (ds.filter (· ≠ '_')).foldl (fun n c => n * 16 + hexDigitVal c) v := by
  induction s generalizing v n with
  | nil => simp [unicodeEscapeLoop] at h
  | cons c s ih =>
    unfold unicodeEscapeLoop at h
    by_cases h1 : c = '_'
    · rw [if_pos h1] at h
      obtain ⟨ds, rfl, g1, g2, g3⟩ := ih h
      subst h1
      refine ⟨'_' :: ds, rfl, ?_, by simpa using g2, by simpa using g3⟩
      intro c hc
      rcases List.mem_cons.mp hc with rfl | hc
      · exact .inr rfl
      · exact g1 c hc
    · rw [if_neg h1] at h
      by_cases h2 : c = '}'
      · rw [if_pos h2] at h
        subst h2
        by_cases h3 : n > 6
        · simp [h3] at h
        · simp [h3] at h
          obtain ⟨rfl, rfl⟩ := h
          exact ⟨[], rfl, by simp, by simp; omega, rfl⟩
      · rw [if_neg h2] at h
        cases hv : hexVal c with
        | none => simp [hv] at h
        | some d =>
          obtain ⟨hd, rfl⟩ := hexVal_iff.mp hv
          simp only [hv] at h
          have key : ∀ v', unicodeEscapeLoop s v' (n + 1) = (.ok x, r) →
              (n + 1 ≤ 6 → v' = v * 16 + hexDigitVal c) →
              ∃ ds, c :: s = ds ++ '}' :: r ∧ (∀ c ∈ ds, HexDigit c ∨ c = '_') ∧
                n + (ds.filter (· ≠ '_')).length ≤ 6 ∧
                x = (ds.filter (· ≠ '_')).foldl (fun n c => n * 16 + hexDigitVal c) v := by
            intro v' h' hv'
            obtain ⟨ds, rfl, g1, g2, g3⟩ := ih h'
            refine ⟨c :: ds, rfl, ?_, ?_, ?_⟩
            · intro e he
              rcases List.mem_cons.mp he with rfl | he
              · exact .inl hd
              · exact g1 e he
            · simp [h1] at g2 ⊢; omega
            · rw [hv' (by omega)] at g3
              simp [h1] at g3 ⊢
              exact g3
          by_cases h3 : n + 1 > 6
          · rw [if_pos h3] at h
            exact key v h (by omega)
          · rw [if_neg h3] at h
            exact key _ h (fun _ => rfl)

theorem unicodeEscapeLoop_complete (ds r : List Char) (v n : Nat)
    (h1 : ∀ c ∈ ds, HexDigit c ∨ c = '_') (h2 : n + (ds.filter (· ≠ '_')).length ≤ 6) :
    unicodeEscapeLoop (ds ++ '}' :: r) v n =
      (.ok ((ds.filter (· ≠ '_')).foldl (fun n c => n * 16 + hexDigitVal c) v), r) := by
  induction ds generalizing v n with
  | nil =>
    simp at h2
    have : ¬ n > 6 := by omega
    simp [unicodeEscapeLoop, this]
  | cons c ds ih =>
    have h1' : ∀ c ∈ ds, HexDigit c ∨ c = '_' := fun e he => h1 e (List.mem_cons_of_mem _ he)
    rw [List.cons_append]
    unfold unicodeEscapeLoop
    by_cases hc : c = '_'
    · rw [if_pos hc, ih v n h1' (by simpa [hc] using h2)]
      simp [hc]
    · rcases h1 c (List.mem_cons_self ..) with hd | hd
      · have hb : c ≠ '}' := by rintro rfl; exact hex_not_brace hd
        rw [if_neg hc, if_neg hb, hexVal_iff.mpr ⟨hd, rfl⟩]
        simp [hc] at h2
        have : ¬ n + 1 > 6 := by omega
        simp only [this, if_false]
        rw [ih _ _ h1' (by simp; omega)]
        simp [hc]
      · exact absurd hd hc

/-- `unicode_escape` and the value check together read a `UniText` in braces. -/
theorem unicodeEscape_sound {s r : List Char} {x : Nat} {c : Char}
    (h : unicodeEscape s = (.ok x, r)) (hc : unicodeChar x = .ok c) :
    ∃ ds, s = '{' :: ds ++ '}' :: r ∧ UniText ds c := by
  cases s with
  | nil => simp [unicodeEscape] at h
  | cons b s =>
    unfold unicodeEscape at h
    by_cases hb : b = '{'
    · subst hb
      simp only [ne_eq, not_true_eq_false, if_false] at h
      cases s with
      | nil => simp at h
      | cons d s =>
        simp only at h
        by_cases h1 : d = '_'
        · simp [h1] at h
        · by_cases h2 : d = '}'
          · simp [h2] at h
          · rw [if_neg h1, if_neg h2] at h
            cases hv : hexVal d with
            | none => simp [hv] at h
            | some v =>
              simp only [hv] at h
              obtain ⟨hd, rfl⟩ := hexVal_iff.mp hv
              obtain ⟨ds, rfl, g1, g2, g3⟩ := unicodeEscapeLoop_sound h
              refine ⟨d :: ds, rfl, ⟨d, ds, rfl, hd⟩, ?_, ?_, ?_⟩
              · intro e he
                rcases List.mem_cons.mp he with rfl | he
                · exact .inl hd
                · exact g1 e he
              · simp [h1] at g2 ⊢; omega
              · have hx : c.toNat = x := by
                  unfold unicodeChar at hc
                  split at hc
                  · simp at hc
                  · cases hf : charFromU32 x with
                    | none => simp [hf] at hc
                    | some c' =>
                      simp [hf] at hc
                      subst hc
                      exact charFromU32_iff.mp hf
                rw [hx, g3]
                simp [h1, hexNumber]
    · simp [hb] at h

theorem unicodeEscape_complete {ds r : List Char} {c : Char} (h : UniText ds c) :
    ∃ x, unicodeEscape ('{' :: ds ++ '}' :: r) = (.ok x, r) ∧ unicodeChar x = .ok c := by
  obtain ⟨d, u, rfl, hd⟩ := h.first
  have h1 : d ≠ '_' := by rintro rfl; exact hex_not_underscore hd
  have h2 : d ≠ '}' := by rintro rfl; exact hex_not_brace hd
  have hcnt := h.count
  have hval := h.value
  simp [h1] at hcnt
  refine ⟨c.toNat, ?_, ?_⟩
  · simp only [List.cons_append]
    unfold unicodeEscape
    simp only [ne_eq, not_true_eq_false, if_false]
    rw [if_neg h1, if_neg h2, hexVal_iff.mpr ⟨hd, rfl⟩]
    simp only
    rw [unicodeEscapeLoop_complete u r _ 1 (fun e he => h.chars e (List.mem_cons_of_mem _ he))
      (by simp; omega), hval]
    simp [h1, hexNumber]
  · have hv : c.toNat.isValidChar := c.valid
    unfold unicodeChar charFromU32
    have : ¬ c.toNat > 0x10FFFF := by
      rcases hv with hv | ⟨_, hv⟩ <;> omega
    rw [if_neg this, if_pos hv]
    simp

/-! ### One unit -/

/-- What the three implementations of `Unescape` have in common: `bytes` are the bytes of a unit. -/
structure LawfulUnescape {U : Type} (k : StrKind) (I : Unescape U) (bytes : U → List UInt8) : Prop where
  zero_ok : ∀ u, I.zeroResult = .ok u → k ≠ .c ∧ bytes u = [0]
  zero : k ≠ .c → ∃ u, I.zeroResult = .ok u
  zero_fatal : ∀ e, I.zeroResult = .error e → e.isFatal = true
  nonzero : ∀ c b, (c, b) ∈ simpleEscapes → bytes (I.nonzeroByte2unit b) = [b]
  char_ok : ∀ c u, I.char2unit c = .ok u → CharOk k c ∧ bytes u = String.utf8EncodeChar c
  char : ∀ c, CharOk k c → ∃ u, I.char2unit c = .ok u
  char_fatal : ∀ c e, I.char2unit c = .error e → e.isFatal = true
  hex_ok : ∀ n u, n < 256 → I.hex2unit (UInt8.ofNat n) = .ok u →
    (k = .str → n < 128) ∧ (k = .c → n ≠ 0) ∧ bytes u = [UInt8.ofNat n]
  hex : ∀ n, n < 256 → (k = .str → n < 128) → (k = .c → n ≠ 0) →
    ∃ u, I.hex2unit (UInt8.ofNat n) = .ok u
  hex_fatal : ∀ b e, I.hex2unit b = .error e → e.isFatal = true
  uni_ok : ∀ r u, I.unicode2unit r = .ok u → k ≠ .byte ∧
    ∃ c, r = .ok c ∧ (k = .c → c ≠ '\x00') ∧ bytes u = String.utf8EncodeChar c
  uni : ∀ c, k ≠ .byte → (k = .c → c ≠ '\x00') → ∃ u, I.unicode2unit (.ok c) = .ok u
  uni_fatal : ∀ v e, I.unicode2unit (unicodeChar v) = .error e → e.isFatal = true

theorem unicodeChar_fatal {v : Nat} {e : EscapeError} (h : unicodeChar v = .error e) :
    e.isFatal = true := by
  unfold unicodeChar at h
  split at h
  · simp at h; subst h; rfl
  · split at h
    · simp at h
    · simp at h; subst h; rfl

theorem ofNat_toNat_small {n : Nat} (h : n < 256) : (UInt8.ofNat n).toNat = n := by
  simp; omega

theorem charOfNat_toNat {n : Nat} (h : n < 256) : (Char.ofNat n).toNat = n := by
  have hv : n.isValidChar := by left; omega
  exact charFromU32_iff.mp (by unfold charFromU32; rw [if_pos hv])

theorem encode_ofNat {n : Nat} (h : n < 128) :
    String.utf8EncodeChar (Char.ofNat n) = [UInt8.ofNat n] := by
  rw [encode_ascii (by rw [charOfNat_toNat (by omega)]; exact h)]
  unfold B
  rw [charOfNat_toNat (by omega)]

theorem simple_small {c : Char} {b : UInt8} (h : (c, b) ∈ simpleEscapes) : b.toNat < 128 := by
  simp [simpleEscapes] at h
  rcases h with ⟨-, rfl⟩ | ⟨-, rfl⟩ | ⟨-, rfl⟩ | ⟨-, rfl⟩ | ⟨-, rfl⟩ | ⟨-, rfl⟩ <;> decide

theorem uint8_ofNat_toNat (b : UInt8) : UInt8.ofNat b.toNat = b := by simp

theorem lawful_str : LawfulUnescape .str unescapeStrImpl String.utf8EncodeChar where
  zero_ok u h := by
    simp [unescapeStrImpl] at h; subst h
    exact ⟨by simp, by decide⟩
  zero _ := ⟨_, rfl⟩
  zero_fatal e h := by simp [unescapeStrImpl] at h
  nonzero c b h := by
    have := encode_ofNat (simple_small h)
    simp only [unescapeStrImpl]
    rw [this, uint8_ofNat_toNat]
  char_ok c u h := by simp [unescapeStrImpl] at h; subst h; exact ⟨trivial, rfl⟩
  char c _ := ⟨_, rfl⟩
  char_fatal c e h := by simp [unescapeStrImpl] at h
  hex_ok n u hn h := by
    simp only [unescapeStrImpl] at h
    split at h
    · rename_i hlt
      have hlt' : n < 128 := by
        have := UInt8.lt_iff_toNat_lt.mp hlt
        rw [ofNat_toNat_small hn] at this; exact this
      rw [ofNat_toNat_small hn] at h
      simp at h; subst h
      exact ⟨fun _ => hlt', by simp, encode_ofNat hlt'⟩
    · simp at h
  hex n hn h _ := by
    simp only [unescapeStrImpl]
    rw [if_pos (by rw [UInt8.lt_iff_toNat_lt, ofNat_toNat_small hn]; exact h rfl)]
    exact ⟨_, rfl⟩
  hex_fatal b e h := by
    simp only [unescapeStrImpl] at h
    split at h
    · simp at h
    · simp at h; subst h; rfl
  uni_ok r u h := by
    simp only [unescapeStrImpl] at h; subst h
    exact ⟨by simp, u, rfl, by simp, rfl⟩
  uni c _ _ := ⟨_, rfl⟩
  uni_fatal v e h := unicodeChar_fatal (by simpa [unescapeStrImpl] using h)

theorem lawful_byte : LawfulUnescape .byte unescapeByteImpl (fun b => [b]) where
  zero_ok u h := by simp [unescapeByteImpl] at h; subst h; exact ⟨by simp, rfl⟩
  zero _ := ⟨_, rfl⟩
  zero_fatal e h := by simp [unescapeByteImpl] at h
  nonzero c b _ := rfl
  char_ok c u h := by
    simp only [unescapeByteImpl, char2byte] at h
    split at h
    · rename_i hc
      simp at h; subst h
      exact ⟨hc, by rw [encode_ascii hc]; rfl⟩
    · simp at h
  char c h := by
    simp only [unescapeByteImpl, char2byte]
    rw [if_pos (show c.toNat < 128 from h)]; exact ⟨_, rfl⟩
  char_fatal c e h := by
    simp only [unescapeByteImpl, char2byte] at h
    split at h
    · simp at h
    · simp at h; subst h; rfl
  hex_ok n u _ h := by simp [unescapeByteImpl] at h; subst h; exact ⟨by simp, by simp, rfl⟩
  hex n _ _ _ := ⟨_, rfl⟩
  hex_fatal b e h := by simp [unescapeByteImpl] at h
  uni_ok r u h := by simp [unescapeByteImpl] at h
  uni c h _ := absurd rfl h
  uni_fatal v e h := by simp [unescapeByteImpl] at h; subst h; rfl

theorem ofNonzero_bytes (b : UInt8) : (MixedUnit.ofNonzero b).bytes = [b] := by
  unfold MixedUnit.ofNonzero
  split
  · rename_i h
    have := UInt8.lt_iff_toNat_lt.mp h
    simp only [MixedUnit.bytes]
    rw [encode_ofNat (by simpa using this), uint8_ofNat_toNat]
  · rfl

theorem ofChar_ok {c : Char} {u : MixedUnit} (h : MixedUnit.ofChar c = .ok u) :
    c ≠ '\x00' ∧ u.bytes = String.utf8EncodeChar c := by
  unfold MixedUnit.ofChar at h
  split at h
  · simp at h
  · rename_i hc
    simp at h; subst h
    exact ⟨hc, rfl⟩

theorem ofChar_fatal {c : Char} {e : EscapeError} (h : MixedUnit.ofChar c = .error e) :
    e.isFatal = true := by
  unfold MixedUnit.ofChar at h
  split at h
  · simp at h; subst h; rfl
  · simp at h

theorem lawful_c : LawfulUnescape .c unescapeCImpl MixedUnit.bytes where
  zero_ok u h := by simp [unescapeCImpl] at h
  zero h := absurd rfl h
  zero_fatal e h := by simp [unescapeCImpl] at h; subst h; rfl
  nonzero c b _ := ofNonzero_bytes b
  char_ok c u h := ofChar_ok h
  char c h := by
    simp only [unescapeCImpl, MixedUnit.ofChar]
    rw [if_neg h]; exact ⟨_, rfl⟩
  char_fatal c e h := ofChar_fatal h
  hex_ok n u hn h := by
    simp only [unescapeCImpl, MixedUnit.ofByte] at h
    split at h
    · simp at h
    · rename_i h0
      simp at h; subst h
      refine ⟨by simp, ?_, ofNonzero_bytes _⟩
      rintro - rfl
      exact h0 rfl
  hex n hn _ h := by
    simp only [unescapeCImpl, MixedUnit.ofByte]
    rw [if_neg]
    · exact ⟨_, rfl⟩
    · intro h0
      have := congrArg UInt8.toNat h0
      rw [ofNat_toNat_small hn] at this
      exact h rfl this
  hex_fatal b e h := by
    simp only [unescapeCImpl, MixedUnit.ofByte] at h
    split at h
    · simp at h; subst h; rfl
    · simp at h
  uni_ok r u h := by
    cases r with
    | error e => simp [unescapeCImpl] at h
    | ok c =>
      obtain ⟨h1, h2⟩ := ofChar_ok h
      exact ⟨by simp, c, rfl, fun _ => h1, h2⟩
  uni c _ h := by
    simp only [unescapeCImpl, MixedUnit.ofChar]
    rw [if_neg (h rfl)]; exact ⟨_, rfl⟩
  uni_fatal v e h := by
    cases hr : unicodeChar v with
    | error e' =>
      simp [unescapeCImpl, hr] at h; subst h
      exact unicodeChar_fatal hr
    | ok c =>
      rw [hr] at h
      exact ofChar_fatal h

theorem simpleEscape_iff {c : Char} {b : UInt8} : simpleEscape c = some b ↔ (c, b) ∈ simpleEscapes := by
  have hB : B '"' = 34 ∧ B '\n' = 10 ∧ B '\r' = 13 ∧ B '\t' = 9 ∧ B '\\' = 92 ∧ B '\'' = 39 := by decide
  obtain ⟨b1, b2, b3, b4, b5, b6⟩ := hB
  unfold simpleEscape simpleEscapes
  rw [b1, b2, b3, b4, b5, b6]
  constructor
  · intro h
    split at h
    · rename_i hc; subst hc; simp at h; subst h; simp
    split at h
    · rename_i hc; subst hc; simp at h; subst h; simp
    split at h
    · rename_i hc; subst hc; simp at h; subst h; simp
    split at h
    · rename_i hc; subst hc; simp at h; subst h; simp
    split at h
    · rename_i hc; subst hc; simp at h; subst h; simp
    split at h
    · rename_i hc; subst hc; simp at h; subst h; simp
    · simp at h
  · intro h
    simp at h
    rcases h with ⟨rfl, rfl⟩ | ⟨rfl, rfl⟩ | ⟨rfl, rfl⟩ | ⟨rfl, rfl⟩ | ⟨rfl, rfl⟩ | ⟨rfl, rfl⟩ <;> rfl

theorem hexDigitVal_lt {c : Char} (h : HexDigit c) : hexDigitVal c < 16 := by
  unfold hexDigitVal
  simp only [charLe]
  rcases h with ⟨h1, h2⟩ | ⟨h1, h2⟩ | ⟨h1, h2⟩ <;>
    (have g1 := charLe.mp h1; have g2 := charLe.mp h2; simp at g1 g2)
  all_goals
    (repeat' split)
  all_goals (simp at *; omega)

theorem hexNumber_two (a b : Char) : hexNumber [a, b] = hexDigitVal a * 16 + hexDigitVal b := by
  simp [hexNumber]

theorem hexEscape_sound {s r : List Char} {x : UInt8} (h : hexEscape s = (.ok x, r)) :
    ∃ a b, s = a :: b :: r ∧ HexDigit a ∧ HexDigit b ∧ x = UInt8.ofNat (hexNumber [a, b]) := by
  cases s with
  | nil => simp [hexEscape] at h
  | cons a s =>
    unfold hexEscape at h
    cases ha : hexVal a with
    | none => simp [ha] at h
    | some va =>
      obtain ⟨h1, rfl⟩ := hexVal_iff.mp ha
      simp only [ha] at h
      cases s with
      | nil => simp at h
      | cons b s =>
        cases hb : hexVal b with
        | none => simp [hb] at h
        | some vb =>
          obtain ⟨h2, rfl⟩ := hexVal_iff.mp hb
          simp only [hb, Prod.mk.injEq, Except.ok.injEq] at h
          obtain ⟨rfl, rfl⟩ := h
          exact ⟨a, b, rfl, h1, h2, by rw [hexNumber_two]⟩

theorem hexEscape_complete {a b : Char} {r : List Char} (ha : HexDigit a) (hb : HexDigit b) :
    hexEscape (a :: b :: r) = (.ok (UInt8.ofNat (hexNumber [a, b])), r) := by
  simp only [hexEscape, hexVal_iff.mpr ⟨ha, rfl⟩, hexVal_iff.mpr ⟨hb, rfl⟩, hexNumber_two]

theorem hexEscape_fatal {s r : List Char} {e : EscapeError} (h : hexEscape s = (.error e, r)) :
    e.isFatal = true := by
  unfold hexEscape at h
  repeat' split at h
  all_goals first
    | (simp at h; obtain ⟨rfl, -⟩ := h; rfl)
    | simp at h

theorem unicodeEscapeLoop_fatal {s r : List Char} {v n : Nat} {e : EscapeError}
    (h : unicodeEscapeLoop s v n = (.error e, r)) : e.isFatal = true := by
  induction s generalizing v n with
  | nil => simp [unicodeEscapeLoop] at h; obtain ⟨rfl, -⟩ := h; rfl
  | cons c s ih =>
    unfold unicodeEscapeLoop at h
    repeat' split at h
    all_goals first
      | exact ih h
      | (simp at h; obtain ⟨rfl, -⟩ := h; rfl)
      | simp at h

theorem unicodeEscape_fatal {s r : List Char} {e : EscapeError} (h : unicodeEscape s = (.error e, r)) :
    e.isFatal = true := by
  unfold unicodeEscape at h
  repeat' split at h
  all_goals first
    | exact unicodeEscapeLoop_fatal h
    | (simp at h; obtain ⟨rfl, -⟩ := h; rfl)
    | simp at h

section
variable {U : Type} {k : StrKind} {I : Unescape U} {bytes : U → List UInt8}

theorem unescape1_sound (L : LawfulUnescape k I bytes) {s r : List Char} {u : U}
    (h : unescape1 I s = (.ok u, r)) : ∃ p, s = p ++ r ∧ Piece k ('\\' :: p) (bytes u) := by
  cases s with
  | nil => simp [unescape1] at h
  | cons c s =>
    simp only [unescape1] at h
    by_cases h0 : c = '0'
    · rw [if_pos h0] at h
      simp at h
      obtain ⟨h1, rfl⟩ := h
      obtain ⟨h2, h3⟩ := L.zero_ok u h1
      subst h0
      exact ⟨['0'], rfl, by rw [h3]; exact .zero h2⟩
    · rw [if_neg h0] at h
      cases hs : simpleEscape c with
      | some b =>
        simp only [hs, Prod.mk.injEq, Except.ok.injEq] at h
        obtain ⟨rfl, rfl⟩ := h
        have hm := simpleEscape_iff.mp hs
        exact ⟨[c], rfl, by rw [L.nonzero c b hm]; exact .simple hm⟩
      | none =>
        simp only [hs] at h
        by_cases hx : c = 'x'
        · rw [if_pos hx] at h
          subst hx
          split at h
          · rename_i b r' he
            simp at h
            obtain ⟨h1, rfl⟩ := h
            obtain ⟨a, d, rfl, g1, g2, rfl⟩ := hexEscape_sound he
            have hlt : hexNumber [a, d] < 256 := by
              rw [hexNumber_two]
              have := hexDigitVal_lt g1; have := hexDigitVal_lt g2; omega
            obtain ⟨g3, g4, g5⟩ := L.hex_ok _ u hlt h1
            exact ⟨['x', a, d], rfl, by rw [g5]; exact .hex g1 g2 g3 g4⟩
          · simp at h
        · rw [if_neg hx] at h
          by_cases hu : c = 'u'
          · rw [if_pos hu] at h
            subst hu
            split at h
            · rename_i v r' he
              simp at h
              obtain ⟨h1, rfl⟩ := h
              obtain ⟨g1, ch, g2, g3, g4⟩ := L.uni_ok _ u h1
              obtain ⟨ds, rfl, g5⟩ := unicodeEscape_sound he g2
              exact ⟨'u' :: '{' :: ds ++ ['}'], by simp, by rw [g4]; exact .uni g1 g5 g3⟩
            · simp at h
          · rw [if_neg hu] at h
            simp at h

theorem unescape1_complete (L : LawfulUnescape k I bytes) {p : List Char} {m : List UInt8}
    (h : Piece k ('\\' :: p) m) (r : List Char) :
    ∃ u, unescape1 I (p ++ r) = (.ok u, r) ∧ bytes u = m := by
  cases h with
  | char _ h2 => exact absurd rfl h2
  | @simple c b hm =>
    have h0 : c ≠ '0' := by rintro rfl; simp [simpleEscapes] at hm
    refine ⟨I.nonzeroByte2unit b, ?_, L.nonzero c b hm⟩
    simp [unescape1, h0, simpleEscape_iff.mpr hm]
  | zero h1 =>
    obtain ⟨u, hu⟩ := L.zero h1
    exact ⟨u, by simp [unescape1, hu], (L.zero_ok u hu).2⟩
  | @hex a b h1 h2 h3 h4 =>
    have hlt : hexNumber [a, b] < 256 := by
      rw [hexNumber_two]
      have := hexDigitVal_lt h1; have := hexDigitVal_lt h2; omega
    obtain ⟨u, hu⟩ := L.hex _ hlt h3 h4
    refine ⟨u, ?_, (L.hex_ok _ u hlt hu).2.2⟩
    have hs : simpleEscape 'x' = none := rfl
    show unescape1 I ('x' :: a :: b :: r) = _
    simp only [unescape1]
    rw [if_neg (by decide), hs]
    simp only [if_true]
    rw [hexEscape_complete h1 h2]
    simp only [hu]
  | @uni ds v h1 h2 h3 =>
    obtain ⟨u, hu⟩ := L.uni v h1 h3
    obtain ⟨-, c, hc, -, hb⟩ := L.uni_ok _ u hu
    simp at hc; subst hc
    refine ⟨u, ?_, hb⟩
    have hs : simpleEscape 'u' = none := rfl
    obtain ⟨x, g1, g2⟩ := unicodeEscape_complete (r := r) h2
    have e : ('u' :: '{' :: ds).append ['}'] ++ r = 'u' :: ('{' :: ds ++ '}' :: r) := by simp
    rw [e]
    simp only [unescape1]
    rw [if_neg (by decide), hs]
    simp only
    rw [if_neg (by decide), if_pos trivial, g1]
    simp only [g2, hu]

theorem unescape1_fatal (L : LawfulUnescape k I bytes) {s r : List Char} {e : EscapeError}
    (h : unescape1 I s = (.error e, r)) : e.isFatal = true := by
  cases s with
  | nil => simp [unescape1] at h; obtain ⟨rfl, -⟩ := h; rfl
  | cons c s =>
    simp only [unescape1] at h
    split at h
    · simp at h; exact L.zero_fatal e h.1
    · split at h
      · simp at h
      · split at h
        · split at h
          · simp at h; exact L.hex_fatal _ e h.1
          · rename_i he; simp at h; obtain ⟨rfl, rfl⟩ := h; exact hexEscape_fatal he
        · split at h
          · split at h
            · simp at h; exact L.uni_fatal _ e h.1
            · rename_i he; simp at h; obtain ⟨rfl, rfl⟩ := h; exact unicodeEscape_fatal he
          · simp at h; obtain ⟨rfl, -⟩ := h; rfl

theorem hexEscape_suffix (s : List Char) : (hexEscape s).2 <:+ s := by
  unfold hexEscape
  split
  · exact List.suffix_refl _
  · split
    · exact List.suffix_cons ..
    · split
      · exact List.suffix_cons ..
      · split
        · exact (List.suffix_cons ..).trans (List.suffix_cons ..)
        · exact (List.suffix_cons ..).trans (List.suffix_cons ..)

theorem unicodeEscapeLoop_suffix (s : List Char) (v n : Nat) : (unicodeEscapeLoop s v n).2 <:+ s := by
  induction s generalizing v n with
  | nil => simp [unicodeEscapeLoop]
  | cons c s ih =>
    have hc := List.suffix_cons c s
    unfold unicodeEscapeLoop
    split
    · exact (ih _ _).trans hc
    · split
      · split <;> exact hc
      · split
        · exact hc
        · split
          · exact (ih _ _).trans hc
          · exact (ih _ _).trans hc

theorem unicodeEscape_suffix (s : List Char) : (unicodeEscape s).2 <:+ s := by
  unfold unicodeEscape
  split
  · exact List.suffix_refl _
  · rename_i c r
    have hc := List.suffix_cons c r
    split
    · exact hc
    · split
      · exact hc
      · rename_i d r
        have hd := (List.suffix_cons d r).trans hc
        split
        · exact hd
        · split
          · exact hd
          · split
            · exact hd
            · exact (unicodeEscapeLoop_suffix ..).trans hd

theorem unescape1_suffix (I : Unescape U) (s : List Char) : (unescape1 I s).2 <:+ s := by
  unfold unescape1
  split
  · exact List.suffix_refl _
  · rename_i c r
    have hc := List.suffix_cons c r
    split
    · exact hc
    · split
      · exact hc
      · split
        · have := hexEscape_suffix r
          split
          · rename_i he; rw [he] at this; exact this.trans hc
          · rename_i he; rw [he] at this; exact this.trans hc
        · split
          · have := unicodeEscape_suffix r
            split
            · rename_i he; rw [he] at this; exact this.trans hc
            · rename_i he; rw [he] at this; exact this.trans hc
          · exact hc

/-- One step of the loop, outside line continuations. -/
def unit1 (I : Unescape U) (c : Char) (chars : List Char) : UnitRes U × List Char :=
  if c = '\\' then unescape1 I chars
  else if c = '"' then (.error .escapeOnlyChar, chars)
  else if c = '\r' then (.error .bareCarriageReturn, chars)
  else (I.char2unit c, chars)

theorem unit1_suffix (I : Unescape U) (c : Char) (s : List Char) : (unit1 I c s).2 <:+ s := by
  unfold unit1
  split
  · exact unescape1_suffix I s
  · split
    · exact List.suffix_refl _
    · split <;> exact List.suffix_refl _

/-- The run of the loop of `unescape` as a relation: `n` is the byte offset of the text. -/
inductive Runs (I : Unescape U) : Nat → List Char → List (Call U) → Prop
  | nil {n} : Runs I n [] []
  | cont {n w t cs} : (∀ c ∈ w, isSkipped c = true) → (∀ c t', t = c :: t' → isSkipped c = false) →
      Runs I (n + 2 + strLen w) t cs →
      Runs I n ('\\' :: '\n' :: w ++ t) ((skipAsciiWhitespace (w ++ t) n).1 ++ cs)
  | unit {n c p t res cs} : ¬ (c = '\\' ∧ startsWithChar (p ++ t) '\n' = true) →
      unit1 I c (p ++ t) = (res, t) → Runs I (n + strLen (c :: p)) t cs →
      Runs I n (c :: p ++ t) (⟨n, n + strLen (c :: p), res⟩ :: cs)

theorem startsWithChar_nl {s : List Char} : startsWithChar s '\n' = true ↔ ∃ r, s = '\n' :: r := by
  cases s with
  | nil => simp [startsWithChar]
  | cons c s => simp [startsWithChar]

theorem subUsize_ok {ε : Type} {a b : Nat} (h : b ≤ a) : (subUsize a b : Res ε Nat) = .ok (a - b) := by
  unfold subUsize; rw [if_pos h]

theorem takeWhile_dropWhile {α} (p : α → Bool) (l : List α) : l = l.takeWhile p ++ l.dropWhile p :=
  (List.takeWhile_append_dropWhile ..).symm

theorem dropWhile_head {α} {p : α → Bool} {l : List α} {c : α} {t : List α}
    (h : l.dropWhile p = c :: t) : p c = false := by
  induction l with
  | nil => simp at h
  | cons a l ih =>
    rw [List.dropWhile_cons] at h
    split at h
    · exact ih h
    · rename_i hp; simp at h; obtain ⟨rfl, rfl⟩ := h; simpa using hp

theorem unescapeLoop_runs {ε : Type} (I : Unescape U) (len : Nat) :
    ∀ (fuel : Nat) (s : List Char), s.length ≤ fuel → strLen s ≤ len →
      ∃ cs, unescapeLoop (ε := ε) I len fuel s = .ok cs ∧ Runs I (len - strLen s) s cs := by
  intro fuel
  induction fuel with
  | zero =>
    intro s hl _
    have : s = [] := List.length_eq_zero_iff.mp (by omega)
    subst this
    exact ⟨[], rfl, .nil⟩
  | succ fuel ih =>
    intro s hl hb
    cases s with
    | nil => exact ⟨[], rfl, .nil⟩
    | cons c s =>
      simp only [List.length_cons] at hl
      rw [strLen_cons] at hb
      unfold unescapeLoop
      have e1 : (subUsize len (strLen s) : Res ε Nat) = .ok (len - strLen s) := subUsize_ok (by omega)
      have e2 : (subUsize (len - strLen s) c.utf8Size : Res ε Nat) = .ok (len - strLen s - c.utf8Size) :=
        subUsize_ok (by omega)
      have e3 : len - strLen s - c.utf8Size = len - strLen (c :: s) := by rw [strLen_cons]; omega
      rw [e1]; simp only [Res.ok_bind]; rw [e2]; simp only [Res.ok_bind]
      rw [e3]
      by_cases hc : c = '\\' ∧ startsWithChar s '\n' = true
      · rw [if_pos hc]
        obtain ⟨rfl, hs⟩ := hc
        obtain ⟨r, rfl⟩ := startsWithChar_nl.mp hs
        simp only [List.drop_succ_cons, List.drop_zero]
        have hr : r = r.takeWhile isSkipped ++ r.dropWhile isSkipped := takeWhile_dropWhile ..
        have hlen : (r.dropWhile isSkipped).length ≤ r.length := by
          have := congrArg List.length hr; rw [List.length_append] at this; omega
        have hstr : strLen r = strLen (r.takeWhile isSkipped) + strLen (r.dropWhile isSkipped) := by
          conv => lhs; rw [hr]
          rw [strLen_append]
        have hcn : strLen ('\\' :: '\n' :: r) = 2 + strLen r := by
          rw [strLen_cons, strLen_cons]
          have : '\\'.utf8Size = 1 ∧ '\n'.utf8Size = 1 := by decide
          omega
        rw [← strLen_cons, hcn] at hb
        simp only [List.length_cons] at hl
        obtain ⟨cs, g1, g2⟩ := ih (r.dropWhile isSkipped) (by omega) (by omega)
        refine ⟨(skipAsciiWhitespace r (len - strLen ('\\' :: '\n' :: r))).1 ++ cs, ?_, ?_⟩
        · have : (skipAsciiWhitespace (U := U) r (len - strLen ('\\' :: '\n' :: r))).2 =
              r.dropWhile isSkipped := rfl
          rw [show skipAsciiWhitespace (U := U) r (len - strLen ('\\' :: '\n' :: r)) =
            ((skipAsciiWhitespace r (len - strLen ('\\' :: '\n' :: r))).1, r.dropWhile isSkipped) from rfl]
          simp only [g1, Res.ok_bind]
        · have := Runs.cont (I := I) (n := len - strLen ('\\' :: '\n' :: r))
            (w := r.takeWhile isSkipped) (t := r.dropWhile isSkipped) (cs := cs)
            (fun c hc => by
              have := List.all_takeWhile (p := isSkipped) (l := r)
              exact List.all_eq_true.mp this c hc)
            (fun c t' h => dropWhile_head h)
            (by rw [hcn]; rw [show len - (2 + strLen r) + 2 + strLen (r.takeWhile isSkipped) =
                  len - strLen (r.dropWhile isSkipped) by omega]; exact g2)
          rw [List.cons_append, List.cons_append, ← hr] at this
          exact this
      · rw [if_neg hc]
        obtain ⟨p, hp⟩ := unit1_suffix I c s
        generalize hu : unit1 I c s = ru at hp
        obtain ⟨res, t⟩ := ru
        simp only at hp
        unfold unit1 at hu
        simp only [hu]
        subst hp
        rw [strLen_append] at hb
        simp only [List.length_append] at hl
        rw [subUsize_ok (by omega)]
        simp only [Res.ok_bind]
        obtain ⟨cs, g1, g2⟩ := ih t (by omega) (by omega)
        rw [g1]
        simp only [Res.ok_bind]
        refine ⟨_, rfl, ?_⟩
        have e : len - strLen t = (len - strLen (c :: p ++ t)) + strLen (c :: p) := by
          rw [strLen_append, strLen_cons]; omega
        rw [e]
        rw [e] at g2
        exact .unit hc (by unfold unit1; exact hu) g2

theorem unescape_runs {ε : Type} (I : Unescape U) (s : List Char) :
    ∃ cs, unescape (ε := ε) I s = .ok cs ∧ Runs I 0 s cs := by
  obtain ⟨cs, h1, h2⟩ := unescapeLoop_runs (ε := ε) I (strLen s) (s.length + 1) s (by omega) (Nat.le_refl _)
  rw [Nat.sub_self] at h2
  exact ⟨cs, h1, h2⟩

/-- The units among the calls. -/
def okUnits (cs : List (Call U)) : List U :=
  cs.filterMap (fun c => match c.res with | .ok u => some u | .error _ => none)

/-- None of the calls is a fatal error. -/
def NoFatal (cs : List (Call U)) : Prop := ∀ c ∈ cs, ∀ e, c.res = .error e → e.isFatal = false

theorem collectCalls_ok {cs : List (Call U)} {us : List U} :
    collectCalls cs = .ok us ↔ NoFatal cs ∧ us = okUnits cs := by
  unfold collectCalls
  simp only
  split
  · rename_i e he
    constructor
    · intro h; simp at h
    · rintro ⟨h, -⟩
      have := List.mem_of_getLast? he
      obtain ⟨c, hc, hce⟩ := List.mem_filterMap.mp this
      split at hce
      · rename_i e' hr
        have := h c hc e' hr
        rw [this] at hce; simp at hce
      · simp at hce
  · rename_i he
    rw [List.getLast?_eq_none_iff] at he
    constructor
    · intro h
      refine ⟨fun c hc e hr => ?_, by simp at h; exact h.symm⟩
      cases hf : e.isFatal with
      | false => rfl
      | true =>
        have := List.filterMap_eq_nil_iff.mp he c hc
        simp [hr, hf] at this
    · rintro ⟨-, rfl⟩; rfl

theorem skip_warnings {w t : List Char} {n : Nat} :
    ∀ c ∈ (skipAsciiWhitespace (U := U) (w ++ t) n).1, ∃ e, c.res = .error e ∧ e.isFatal = false := by
  intro c hc
  unfold skipAsciiWhitespace at hc
  simp only at hc
  rw [List.mem_append] at hc
  rcases hc with hc | hc
  · split at hc
    · simp at hc; subst hc; exact ⟨_, rfl, rfl⟩
    · simp at hc
  · split at hc
    · split at hc
      · simp at hc; subst hc; exact ⟨_, rfl, rfl⟩
      · simp at hc
    · simp at hc

theorem okUnits_append (a b : List (Call U)) : okUnits (a ++ b) = okUnits a ++ okUnits b := by
  simp [okUnits]

theorem okUnits_warnings {cs : List (Call U)} (h : ∀ c ∈ cs, ∃ e, c.res = .error e ∧ e.isFatal = false) :
    okUnits cs = [] := by
  unfold okUnits
  rw [List.filterMap_eq_nil_iff]
  intro c hc
  obtain ⟨e, he, -⟩ := h c hc
  rw [he]

theorem isSkipped_iff {c : Char} : isSkipped c = true ↔ ContSpace c := by
  unfold isSkipped ContSpace; simp [or_assoc]

theorem unit1_sound (L : LawfulUnescape k I bytes) {c : Char} {s r : List Char} {u : U}
    (h : unit1 I c s = (.ok u, r)) : ∃ p, s = p ++ r ∧ Piece k (c :: p) (bytes u) := by
  unfold unit1 at h
  split at h
  · rename_i hc; subst hc; exact unescape1_sound L h
  · rename_i h1
    split at h
    · simp at h
    · rename_i h2
      split at h
      · simp at h
      · rename_i h3
        simp at h
        obtain ⟨h4, rfl⟩ := h
        obtain ⟨g1, g2⟩ := L.char_ok c u h4
        exact ⟨[], rfl, by rw [g2]; exact .char h2 h1 h3 g1⟩

theorem unit1_complete (L : LawfulUnescape k I bytes) {c : Char} {p : List Char} {m : List UInt8}
    (h : Piece k (c :: p) m) (r : List Char) :
    ∃ u, unit1 I c (p ++ r) = (.ok u, r) ∧ bytes u = m := by
  unfold unit1
  by_cases hc : c = '\\'
  · subst hc
    rw [if_pos rfl]
    exact unescape1_complete L h r
  · rw [if_neg hc]
    cases h with
    | char h1 h2 h3 h4 =>
      rw [if_neg h1, if_neg h3]
      obtain ⟨u, hu⟩ := L.char c h4
      exact ⟨u, by simp [hu], (L.char_ok c u hu).2⟩
    | simple => exact absurd rfl hc
    | zero => exact absurd rfl hc
    | hex => exact absurd rfl hc
    | uni => exact absurd rfl hc

theorem unit1_fatal (L : LawfulUnescape k I bytes) {c : Char} {s r : List Char} {e : EscapeError}
    (h : unit1 I c s = (.error e, r)) : e.isFatal = true := by
  unfold unit1 at h
  split at h
  · exact unescape1_fatal L h
  · split at h
    · simp at h; obtain ⟨rfl, -⟩ := h; rfl
    · split at h
      · simp at h; obtain ⟨rfl, -⟩ := h; rfl
      · simp at h; exact L.char_fatal c e h.1

theorem Runs.sound (L : LawfulUnescape k I bytes) {n : Nat} {s : List Char} {cs : List (Call U)}
    (h : Runs I n s cs) (hf : NoFatal cs) : Means k s ((okUnits cs).flatMap bytes) := by
  induction h with
  | nil => exact .nil
  | @cont n w t cs h1 h2 _ ih =>
    rw [okUnits_append, okUnits_warnings skip_warnings, List.nil_append]
    exact .cont (fun c hc => isSkipped_iff.mp (h1 c hc))
      (fun c t' ht hcs => by have := h2 c t' ht; rw [isSkipped_iff.mpr hcs] at this; simp at this)
      (ih (fun c hc => hf c (List.mem_append_right _ hc)))
  | @unit n c p t res cs _ h2 _ ih =>
    cases res with
    | error e =>
      have := hf _ (List.mem_cons_self ..) e rfl
      rw [unit1_fatal L h2] at this; simp at this
    | ok u =>
      obtain ⟨p', hp, hm⟩ := unit1_sound L h2
      have : p = p' := List.append_cancel_right hp
      subst this
      have := ih (fun c hc => hf c (List.mem_cons_of_mem _ hc))
      exact .piece hm this

theorem piece_ne_nil {p : List Char} {m : List UInt8} (h : Piece k p m) : p ≠ [] := by
  cases h <;> simp

theorem piece_not_cont {p : List Char} {m : List UInt8} (h : Piece k ('\\' :: p) m) :
    ∃ d q, p = d :: q ∧ d ≠ '\n' := by
  cases h with
  | char _ h2 => exact absurd rfl h2
  | @simple c b hm => exact ⟨c, [], rfl, by rintro rfl; simp [simpleEscapes] at hm⟩
  | zero => exact ⟨_, _, rfl, by decide⟩
  | hex => exact ⟨_, _, rfl, by decide⟩
  | uni => exact ⟨_, _, rfl, by decide⟩

theorem split_unique {α} {p : α → Bool} {w w' t t' : List α} (h : w ++ t = w' ++ t')
    (h1 : ∀ c ∈ w, p c = true) (h2 : ∀ c r, t = c :: r → p c = false)
    (h3 : ∀ c ∈ w', p c = true) (h4 : ∀ c r, t' = c :: r → p c = false) : w = w' ∧ t = t' := by
  induction w generalizing w' with
  | nil =>
    cases w' with
    | nil => exact ⟨rfl, h⟩
    | cons c w' =>
      have := h2 c (w' ++ t') h
      rw [h3 c (List.mem_cons_self ..)] at this; simp at this
  | cons c w ih =>
    cases w' with
    | nil =>
      have := h4 c (w ++ t) h.symm
      rw [h1 c (List.mem_cons_self ..)] at this; simp at this
    | cons c' w' =>
      simp at h
      obtain ⟨rfl, h⟩ := h
      obtain ⟨rfl, rfl⟩ := ih h (fun c hc => h1 c (List.mem_cons_of_mem _ hc))
        (fun c hc => h3 c (List.mem_cons_of_mem _ hc))
      exact ⟨rfl, rfl⟩

theorem Runs.complete (L : LawfulUnescape k I bytes) {n : Nat} {s : List Char} {cs : List (Call U)}
    (h : Runs I n s cs) {m : List UInt8} (hm : Means k s m) :
    NoFatal cs ∧ (okUnits cs).flatMap bytes = m := by
  induction h generalizing m with
  | nil =>
    generalize hs : ([] : List Char) = s at hm
    cases hm with
    | nil => exact ⟨fun c hc => by simp at hc, rfl⟩
    | piece hp _ =>
      have := piece_ne_nil hp
      simp at hs; exact absurd hs.1 this
    | cont => simp at hs
  | @cont n w t cs h1 h2 _ ih =>
    generalize hs : '\\' :: '\n' :: w ++ t = s at hm
    cases hm with
    | nil => simp at hs
    | @piece p t' m1 m2 hp _ =>
      cases p with
      | nil => exact absurd rfl (piece_ne_nil hp)
      | cons c p =>
        simp at hs
        obtain ⟨rfl, hs⟩ := hs
        obtain ⟨d, q, rfl, hd⟩ := piece_not_cont hp
        simp at hs
        exact absurd hs.1.symm hd
    | @cont w' t' _ g1 g2 g3 =>
      simp at hs
      obtain ⟨rfl, rfl⟩ := split_unique (p := isSkipped) hs h1 h2 (fun c hc => isSkipped_iff.mpr (g1 c hc))
        (fun c r hr => by
          cases hx : isSkipped c with
          | false => rfl
          | true => exact absurd (isSkipped_iff.mp hx) (g2 c r hr))
      obtain ⟨i1, i2⟩ := ih g3
      refine ⟨fun c hc e he => ?_, ?_⟩
      · rcases List.mem_append.mp hc with hc | hc
        · obtain ⟨e', he', hf⟩ := skip_warnings c hc
          rw [he] at he'; simp at he'; subst he'; exact hf
        · exact i1 c hc e he
      · rw [okUnits_append, okUnits_warnings skip_warnings, List.nil_append]; exact i2
  | @unit n c p t res cs h1 h2 _ ih =>
    generalize hs : c :: p ++ t = s at hm
    cases hm with
    | nil => simp at hs
    | @piece p' t' m1 m2 hp hm' =>
      cases p' with
      | nil => exact absurd rfl (piece_ne_nil hp)
      | cons c' p' =>
        simp at hs
        obtain ⟨rfl, hs⟩ := hs
        obtain ⟨u, g1, g2⟩ := unit1_complete L hp t'
        rw [← hs, h2] at g1
        simp at g1
        obtain ⟨rfl, rfl⟩ := g1
        have := List.append_cancel_right hs
        subst this
        obtain ⟨i1, i2⟩ := ih hm'
        refine ⟨fun c hc e he => ?_, ?_⟩
        · rcases List.mem_cons.mp hc with rfl | hc
          · simp at he
          · exact i1 c hc e he
        · simp [okUnits] at i2 ⊢
          rw [i2, g2]
    | cont =>
      simp at hs
      obtain ⟨rfl, hs⟩ := hs
      exact absurd ⟨rfl, startsWithChar_nl.mpr ⟨_, hs⟩⟩ h1

/-- Unescaping the contents of a cooked literal succeeds exactly on the texts that have a meaning. -/
theorem unescape_means {ε : Type} (L : LawfulUnescape k I bytes) (s : List Char) :
    ∃ cs, unescape (ε := ε) I s = .ok cs ∧
      (∀ us, collectCalls cs = .ok us → Means k s (us.flatMap bytes)) ∧
      (∀ m, Means k s m → ∃ us, collectCalls cs = .ok us ∧ us.flatMap bytes = m) := by
  obtain ⟨cs, h1, h2⟩ := unescape_runs (ε := ε) I s
  refine ⟨cs, h1, fun us hu => ?_, fun m hm => ?_⟩
  · obtain ⟨g1, rfl⟩ := collectCalls_ok.mp hu
    exact h2.sound L g1
  · obtain ⟨g1, g2⟩ := h2.complete L hm
    exact ⟨_, collectCalls_ok.mpr ⟨g1, rfl⟩, g2⟩

/-- A text has at most one meaning. -/
theorem means_unique (L : LawfulUnescape k I bytes) {s : List Char} {m n : List UInt8}
    (h1 : Means k s m) (h2 : Means k s n) : m = n := by
  obtain ⟨cs, -, hr⟩ := unescape_runs (ε := Unit) I s
  rw [← (hr.complete L h1).2, ← (hr.complete L h2).2]

end

end PM2
