import Verif.Proof.Escape
/-! # Every text is what its UTF-8 bytes decode to -/

namespace PM2

theorem toNat_ofNat_byte {n : Nat} (h : n < 256) : (UInt8.ofNat n).toNat = n := by
  rw [UInt8.toNat_ofNat']; exact Nat.mod_eq_of_lt h

theorem isCont_iff {b : UInt8} : isCont b = true ↔ 128 ≤ b.toNat ∧ b.toNat ≤ 191 := by
  simp [isCont, le_toNat]

/-- One character is decoded from its bytes. -/
theorem utf8Step_encode (c : Char) {b : UInt8} {bs : List UInt8} (h : String.utf8EncodeChar c = b :: bs)
    (rest : List UInt8) : utf8Step b (bs ++ rest) = .good c rest := by
  have hc : Char.ofNat c.val.toNat = c := Char.ofNat_toNat c
  have hvalid : c.val.toNat < 0xd800 ∨ (0xdfff < c.val.toNat ∧ c.val.toNat < 0x110000) := c.valid
  unfold String.utf8EncodeChar at h
  simp only at h
  generalize hn : c.val.toNat = n at *
  split at h
  · rename_i h1
    simp only [List.cons.injEq] at h
    obtain ⟨rfl, rfl⟩ := h
    have e := toNat_ofNat_byte (n := n) (by omega)
    unfold utf8Step
    rw [if_pos (by rw [UInt8.lt_iff_toNat_lt, e]; simp <;> omega), e, hc]; rfl
  split at h
  · rename_i h1 h2
    simp only [List.cons.injEq] at h
    obtain ⟨rfl, rfl⟩ := h
    have e1 := toNat_ofNat_byte (n := n / 64 % 32 + 192) (by omega)
    have e2 := toNat_ofNat_byte (n := n % 64 + 128) (by omega)
    generalize UInt8.ofNat (n / 64 % 32 + 192) = b at *
    generalize UInt8.ofNat (n % 64 + 128) = b1 at *
    unfold utf8Step
    rw [if_neg (by rw [UInt8.lt_iff_toNat_lt, e1]; simp <;> omega),
      if_pos (by rw [le_toNat, le_toNat, e1]; simp <;> omega)]
    simp only [List.cons_append, List.nil_append]
    rw [if_pos (by rw [isCont_iff, e2]; omega), e1, e2, ← hc]
    exact congrArg (Utf8Step.good · rest) (congrArg Char.ofNat (show (n / 64 % 32 + 192 - 192) * 64 + (n % 64 + 128 - 128) = n by omega))
  split at h
  · rename_i h1 h2 h3
    simp only [List.cons.injEq] at h
    obtain ⟨rfl, rfl⟩ := h
    have e1 := toNat_ofNat_byte (n := n / 4096 % 16 + 224) (by omega)
    have e2 := toNat_ofNat_byte (n := n / 64 % 64 + 128) (by omega)
    have e3 := toNat_ofNat_byte (n := n % 64 + 128) (by omega)
    generalize UInt8.ofNat (n / 4096 % 16 + 224) = b at *
    generalize UInt8.ofNat (n / 64 % 64 + 128) = b1 at *
    generalize UInt8.ofNat (n % 64 + 128) = b2 at *
    unfold utf8Step
    rw [if_neg (by rw [UInt8.lt_iff_toNat_lt, e1]; simp <;> omega),
      if_neg (by rw [le_toNat, le_toNat, e1]; simp <;> omega),
      if_pos (by rw [le_toNat, le_toNat, e1]; simp <;> omega)]
    simp only [List.cons_append, List.nil_append]
    rw [if_pos (by simp only [le_toNat, ← UInt8.toNat_inj, e1, e2]; simp <;> omega),
      if_pos (by rw [isCont_iff, e3]; omega), e1, e2, e3, ← hc]
    exact congrArg (Utf8Step.good · rest) (congrArg Char.ofNat (show (n / 4096 % 16 + 224 - 224) * 4096 + (n / 64 % 64 + 128 - 128) * 64 + (n % 64 + 128 - 128) = n by omega))
  · rename_i h1 h2 h3
    simp only [List.cons.injEq] at h
    obtain ⟨rfl, rfl⟩ := h
    have e1 := toNat_ofNat_byte (n := n / 262144 % 8 + 240) (by omega)
    have e2 := toNat_ofNat_byte (n := n / 4096 % 64 + 128) (by omega)
    have e3 := toNat_ofNat_byte (n := n / 64 % 64 + 128) (by omega)
    have e4 := toNat_ofNat_byte (n := n % 64 + 128) (by omega)
    generalize UInt8.ofNat (n / 262144 % 8 + 240) = b at *
    generalize UInt8.ofNat (n / 4096 % 64 + 128) = b1 at *
    generalize UInt8.ofNat (n / 64 % 64 + 128) = b2 at *
    generalize UInt8.ofNat (n % 64 + 128) = b3 at *
    unfold utf8Step
    rw [if_neg (by rw [UInt8.lt_iff_toNat_lt, e1]; simp <;> omega),
      if_neg (by rw [le_toNat, le_toNat, e1]; simp <;> omega),
      if_neg (by rw [le_toNat, le_toNat, e1]; simp <;> omega),
      if_pos (by rw [le_toNat, le_toNat, e1]; simp <;> omega)]
    simp only [List.cons_append, List.nil_append]
    rw [if_pos (by simp only [le_toNat, ← UInt8.toNat_inj, e1, e2]; simp <;> omega),
      if_pos (by rw [isCont_iff, e3]; omega), if_pos (by rw [isCont_iff, e4]; omega), e1, e2, e3, e4, ← hc]
    exact congrArg (Utf8Step.good · rest) (congrArg Char.ofNat (show (n / 262144 % 8 + 240 - 240) * 262144 + (n / 4096 % 64 + 128 - 128) * 4096 + (n / 64 % 64 + 128 - 128) * 64 + (n % 64 + 128 - 128) = n by omega))

/-- A text is decoded from its bytes. -/
theorem fromUtf8_bytesOf (s : List Char) : ∀ fuel, (bytesOf s).length ≤ fuel →
    fromUtf8 fuel (bytesOf s) = (s, [], none) := by
  induction s with
  | nil => intro fuel _; cases fuel <;> rfl
  | cons c s ih =>
    intro fuel hf
    obtain ⟨b, bs, hb⟩ : ∃ b bs, String.utf8EncodeChar c = b :: bs := by
      cases h : String.utf8EncodeChar c with
      | nil => exact absurd h (by unfold String.utf8EncodeChar; simp only; repeat' (first | exact List.cons_ne_nil _ _ | split))
      | cons b bs => exact ⟨b, bs, rfl⟩
    have e : bytesOf (c :: s) = b :: (bs ++ bytesOf s) := by
      show (c :: s).flatMap String.utf8EncodeChar = _
      rw [List.flatMap_cons, hb]; rfl
    rw [e] at hf ⊢
    cases fuel with
    | zero => simp at hf
    | succ fuel =>
      simp only [fromUtf8, utf8Step_encode c hb]
      rw [ih fuel (by simp at hf; omega)]

end PM2
