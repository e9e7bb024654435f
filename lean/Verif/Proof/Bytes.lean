import Verif.Model.Parse
/-! # Lemmas on UTF-8 lengths, byte slicing and encodings -/

namespace PM2

@[simp] theorem strLen_nil : strLen [] = 0 := rfl
@[simp] theorem strLen_cons (c : Char) (s : List Char) : strLen (c :: s) = c.utf8Size + strLen s := by
  simp [strLen]
@[simp] theorem strLen_append (a b : List Char) : strLen (a ++ b) = strLen a + strLen b := by
  simp [strLen]

theorem utf8Size_pos (c : Char) : 0 < c.utf8Size := Char.utf8Size_pos c

theorem splitAtByte_append (a b : List Char) : splitAtByte (a ++ b) (strLen a) = some (a, b) := by
  induction a with
  | nil => cases b <;> simp [splitAtByte]
  | cons c a ih =>
    have h := utf8Size_pos c
    obtain ⟨n, hn⟩ : ∃ n, c.utf8Size + strLen a = n + 1 := ⟨c.utf8Size + strLen a - 1, by omega⟩
    simp only [List.cons_append, strLen_cons, hn, splitAtByte]
    rw [if_pos (by omega)]
    have : n + 1 - c.utf8Size = strLen a := by omega
    rw [this, ih]

theorem splitAtByte_eq {s a b : List Char} {n : Nat} (h : s = a ++ b) (hn : n = strLen a) :
    splitAtByte s n = some (a, b) := by subst h hn; exact splitAtByte_append a b

theorem splitAtByte_some {s : List Char} {n : Nat} {a b : List Char}
    (h : splitAtByte s n = some (a, b)) : s = a ++ b ∧ strLen a = n := by
  induction s generalizing n a b with
  | nil =>
    cases n with
    | zero => simp [splitAtByte] at h; simp [h]
    | succ n => simp [splitAtByte] at h
  | cons c s ih =>
    cases n with
    | zero => simp [splitAtByte] at h; simp [h]
    | succ n =>
      simp only [splitAtByte] at h
      split at h
      · split at h
        · rename_i a' b' heq
          obtain ⟨h1, h2⟩ := ih heq
          simp at h; obtain ⟨rfl, rfl⟩ := h
          simp [h1, h2]; omega
        · simp at h
      · simp at h

@[simp] theorem bytesOf_nil : bytesOf [] = [] := rfl
@[simp] theorem bytesOf_cons (c : Char) (s : List Char) :
    bytesOf (c :: s) = String.utf8EncodeChar c ++ bytesOf s := rfl
@[simp] theorem bytesOf_append (a b : List Char) : bytesOf (a ++ b) = bytesOf a ++ bytesOf b := by
  simp [bytesOf]
theorem bytesOf_length (s : List Char) : (bytesOf s).length = strLen s := by
  induction s with
  | nil => rfl
  | cons c s ih => simp [ih]

theorem length_le_strLen (s : List Char) : s.length ≤ strLen s := by
  induction s with
  | nil => simp
  | cons c s ih => have := utf8Size_pos c; simp; omega

theorem char_ext {c d : Char} (h : c.toNat = d.toNat) : c = d := by
  apply Char.ext
  exact UInt32.toNat_inj.mp h

theorem utf8Size_ascii {c : Char} (h : c.toNat < 128) : c.utf8Size = 1 := by
  rw [Char.utf8Size_eq_one_iff, UInt32.le_iff_toNat_le]
  have : c.toNat = c.val.toNat := rfl
  simp; omega

theorem encode_ascii {c : Char} (h : c.toNat < 128) : String.utf8EncodeChar c = [B c] := by
  have : c.toNat = c.val.toNat := rfl
  unfold String.utf8EncodeChar
  simp only [Char.toNat] at h
  rw [if_pos (by omega)]
  rfl

theorem encode_high {c : Char} (h : ¬ c.toNat < 128) : ∀ b ∈ String.utf8EncodeChar c, ¬ b < 128 := by
  have hv := c.valid
  simp only [UInt32.isValidChar, Nat.isValidChar, Char.toNat] at *
  intro b hb
  unfold String.utf8EncodeChar at hb
  rw [if_neg (by omega)] at hb
  rw [UInt8.lt_iff_toNat_lt]
  split at hb
  · simp only [List.mem_cons, List.not_mem_nil, or_false] at hb
    rcases hb with rfl | rfl <;> simp [-UInt8.ofNat_add] <;> omega
  · split at hb
    · simp only [List.mem_cons, List.not_mem_nil, or_false] at hb
      rcases hb with rfl | rfl | rfl <;> simp [-UInt8.ofNat_add] <;> omega
    · simp only [List.mem_cons, List.not_mem_nil, or_false] at hb
      rcases hb with rfl | rfl | rfl | rfl <;> simp [-UInt8.ofNat_add] <;> omega

theorem B_toNat {c : Char} (h : c.toNat < 128) : (B c).toNat = c.toNat := by
  simp [B]; omega

theorem B_inj {c d : Char} (hc : c.toNat < 128) (hd : d.toNat < 128) : B c = B d ↔ c = d := by
  constructor
  · intro h
    apply char_ext
    rw [← B_toNat hc, ← B_toNat hd, h]
  · rintro rfl; rfl

end PM2
