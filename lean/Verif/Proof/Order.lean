import Verif.Proof.Bytes
import Verif.Model.Ident
/-! # Comparing strings by their UTF-8 bytes is comparing them by code points -/

namespace PM2

/-- lexicographic comparison by code points -/
def cmpChars : List Char → List Char → Ordering
  | [], [] => .eq
  | [], _ :: _ => .lt
  | _ :: _, [] => .gt
  | c :: s, d :: t => (compare c.toNat d.toNat).then (cmpChars s t)

theorem cmpBytes_append (a s t : List UInt8) : cmpBytes (a ++ s) (a ++ t) = cmpBytes s t := by
  induction a with
  | nil => rfl
  | cons b a ih =>
    simp only [List.cons_append, cmpBytes, ih]
    rw [Nat.compare_eq_eq.mpr rfl]; rfl

theorem cmpBytes_swap : ∀ s t : List UInt8, cmpBytes t s = (cmpBytes s t).swap
  | [], [] => rfl
  | [], _ :: _ => rfl
  | _ :: _, [] => rfl
  | a :: s, b :: t => by
    simp only [cmpBytes, cmpBytes_swap s t, ← Nat.compare_swap b.toNat a.toNat]
    cases compare b.toNat a.toNat <;> rfl

theorem char_lt (c : Char) : c.toNat < 0x110000 := by
  have := c.valid
  rcases this with h | ⟨-, h⟩
  · have : c.val.toNat < 0xd800 := h
    show c.val.toNat < _; omega
  · exact h

theorem cmpBytes_lt_of_head {a b : UInt8} {s t : List UInt8} (h : a.toNat < b.toNat) :
    cmpBytes (a :: s) (b :: t) = .lt := by
  simp only [cmpBytes, Nat.compare_eq_lt.mpr h]; rfl

theorem cmpBytes_cons_eq {a b : UInt8} {s t : List UInt8} (h : a.toNat = b.toNat) :
    cmpBytes (a :: s) (b :: t) = cmpBytes s t := by
  simp only [cmpBytes, Nat.compare_eq_eq.mpr h]; rfl

/-- the bytes as numbers -/
theorem encode_nat (c : Char) : (String.utf8EncodeChar c).map UInt8.toNat =
    if c.toNat ≤ 0x7f then [c.toNat]
    else if c.toNat ≤ 0x7ff then [c.toNat / 64 + 0xc0, c.toNat % 64 + 0x80]
    else if c.toNat ≤ 0xffff then [c.toNat / 4096 + 0xe0, c.toNat / 64 % 64 + 0x80, c.toNat % 64 + 0x80]
    else [c.toNat / 262144 + 0xf0, c.toNat / 4096 % 64 + 0x80, c.toNat / 64 % 64 + 0x80,
      c.toNat % 64 + 0x80] := by
  have h := char_lt c
  have hv : c.val.toNat = c.toNat := rfl
  unfold String.utf8EncodeChar
  change (List.map UInt8.toNat (if c.toNat ≤ 0x7f then _ else if c.toNat ≤ 0x7ff then _ else
    if c.toNat ≤ 0xffff then _ else _)) = _
  repeat' split
  all_goals simp only [List.map_cons, List.map_nil, UInt8.toNat_ofNat', List.cons.injEq, and_true, hv]
  · omega
  · refine ⟨?_, ?_⟩ <;> omega
  · refine ⟨?_, ?_, ?_⟩ <;> omega
  · refine ⟨?_, ?_, ?_, ?_⟩ <;> omega

/-- comparison of lists of numbers -/
def cmpNats : List Nat → List Nat → Ordering
  | [], [] => .eq
  | [], _ :: _ => .lt
  | _ :: _, [] => .gt
  | a :: s, b :: t => (compare a b).then (cmpNats s t)

theorem cmpBytes_nats : ∀ s t : List UInt8, cmpBytes s t = cmpNats (s.map UInt8.toNat) (t.map UInt8.toNat)
  | [], [] => rfl
  | [], _ :: _ => rfl
  | _ :: _, [] => rfl
  | a :: s, b :: t => by simp [cmpBytes, cmpNats, cmpBytes_nats s t]

theorem cmpNats_lt {a b : Nat} {s t : List Nat} (h : a < b) : cmpNats (a :: s) (b :: t) = .lt := by
  simp only [cmpNats, Nat.compare_eq_lt.mpr h]; rfl

theorem cmpNats_eq {a b : Nat} {s t : List Nat} (h : a = b) : cmpNats (a :: s) (b :: t) = cmpNats s t := by
  simp only [cmpNats, Nat.compare_eq_eq.mpr h]; rfl

theorem encode_lt {c d : Char} (h : c.toNat < d.toNat) (s t : List UInt8) :
    cmpBytes (String.utf8EncodeChar c ++ s) (String.utf8EncodeChar d ++ t) = .lt := by
  have hd := char_lt d
  rw [cmpBytes_nats, List.map_append, List.map_append, encode_nat, encode_nat]
  generalize c.toNat = m at *
  generalize d.toNat = n at *
  generalize s.map UInt8.toNat = s
  generalize t.map UInt8.toNat = t
  by_cases h1 : n ≤ 0x7f
  · rw [if_pos (by omega : m ≤ 0x7f), if_pos h1]
    exact cmpNats_lt h
  rw [if_neg h1]
  by_cases h2 : n ≤ 0x7ff
  · rw [if_pos h2]
    by_cases g1 : m ≤ 0x7f
    · rw [if_pos g1]; exact cmpNats_lt (by omega)
    rw [if_neg g1, if_pos (by omega : m ≤ 0x7ff)]
    by_cases k1 : m / 64 < n / 64
    · exact cmpNats_lt (by omega)
    · have : m / 64 = n / 64 := by omega
      simp only [List.cons_append]
      rw [cmpNats_eq (by omega)]
      exact cmpNats_lt (by omega)
  rw [if_neg h2]
  by_cases h3 : n ≤ 0xffff
  · rw [if_pos h3]
    by_cases g1 : m ≤ 0x7f
    · rw [if_pos g1]; exact cmpNats_lt (by omega)
    rw [if_neg g1]
    by_cases g2 : m ≤ 0x7ff
    · rw [if_pos g2]; exact cmpNats_lt (by omega)
    rw [if_neg g2, if_pos (by omega : m ≤ 0xffff)]
    simp only [List.cons_append]
    by_cases k1 : m / 4096 < n / 4096
    · exact cmpNats_lt (by omega)
    · have : m / 4096 = n / 4096 := by omega
      rw [cmpNats_eq (by omega)]
      by_cases k2 : m / 64 % 64 < n / 64 % 64
      · exact cmpNats_lt (by omega)
      · have : m / 64 % 64 = n / 64 % 64 := by omega
        rw [cmpNats_eq (by omega)]
        exact cmpNats_lt (by omega)
  rw [if_neg h3]
  by_cases g1 : m ≤ 0x7f
  · rw [if_pos g1]; exact cmpNats_lt (by omega)
  rw [if_neg g1]
  by_cases g2 : m ≤ 0x7ff
  · rw [if_pos g2]; exact cmpNats_lt (by omega)
  rw [if_neg g2]
  by_cases g3 : m ≤ 0xffff
  · rw [if_pos g3]; exact cmpNats_lt (by omega)
  rw [if_neg g3]
  simp only [List.cons_append]
  by_cases k1 : m / 262144 < n / 262144
  · exact cmpNats_lt (by omega)
  · have : m / 262144 = n / 262144 := by omega
    rw [cmpNats_eq (by omega)]
    by_cases k2 : m / 4096 % 64 < n / 4096 % 64
    · exact cmpNats_lt (by omega)
    · have : m / 4096 % 64 = n / 4096 % 64 := by omega
      rw [cmpNats_eq (by omega)]
      by_cases k3 : m / 64 % 64 < n / 64 % 64
      · exact cmpNats_lt (by omega)
      · have : m / 64 % 64 = n / 64 % 64 := by omega
        rw [cmpNats_eq (by omega)]
        exact cmpNats_lt (by omega)

/-- Byte order is code point order. -/
theorem cmpBytes_chars : ∀ s t : List Char, cmpBytes (bytesOf s) (bytesOf t) = cmpChars s t
  | [], [] => rfl
  | [], c :: t => by
    rw [cmpBytes_nats, show bytesOf (c :: t) = String.utf8EncodeChar c ++ bytesOf t by simp [bytesOf],
      List.map_append, encode_nat]
    repeat' split
    all_goals rfl
  | c :: s, [] => by
    rw [cmpBytes_nats, show bytesOf (c :: s) = String.utf8EncodeChar c ++ bytesOf s by simp [bytesOf],
      List.map_append, encode_nat]
    repeat' split
    all_goals rfl
  | c :: s, d :: t => by
    rw [show bytesOf (c :: s) = String.utf8EncodeChar c ++ bytesOf s by simp [bytesOf],
      show bytesOf (d :: t) = String.utf8EncodeChar d ++ bytesOf t by simp [bytesOf]]
    rcases Nat.lt_trichotomy c.toNat d.toNat with h | h | h
    · rw [encode_lt h]
      simp only [cmpChars, Nat.compare_eq_lt.mpr h]; rfl
    · have := char_ext h
      subst this
      rw [cmpBytes_append, cmpBytes_chars s t]
      simp only [cmpChars, Nat.compare_eq_eq.mpr rfl]; rfl
    · rw [cmpBytes_swap, encode_lt h]
      simp only [cmpChars, Nat.compare_eq_gt.mpr h]; rfl

theorem cmpChars_eq : ∀ {s t : List Char}, cmpChars s t = .eq ↔ s = t
  | [], [] => by simp [cmpChars]
  | [], _ :: _ => by simp [cmpChars]
  | _ :: _, [] => by simp [cmpChars]
  | c :: s, d :: t => by
    simp only [cmpChars, Ordering.then_eq_eq, Nat.compare_eq_eq, cmpChars_eq, List.cons.injEq]
    constructor
    · rintro ⟨h1, h2⟩; exact ⟨char_ext h1, h2⟩
    · rintro ⟨rfl, h⟩; exact ⟨rfl, h⟩

theorem cmpChars_swap : ∀ s t : List Char, cmpChars t s = (cmpChars s t).swap
  | [], [] => rfl
  | [], _ :: _ => rfl
  | _ :: _, [] => rfl
  | a :: s, b :: t => by
    simp only [cmpChars, cmpChars_swap s t, ← Nat.compare_swap b.toNat a.toNat]
    cases compare b.toNat a.toNat <;> rfl

theorem cmpChars_trans : ∀ {s t u : List Char}, cmpChars s t = .lt → cmpChars t u = .lt →
    cmpChars s u = .lt
  | [], [], _, h, _ => by simp [cmpChars] at h
  | _ :: _, [], _, h, _ => by simp [cmpChars] at h
  | [], _ :: _, [], _, h => by simp [cmpChars] at h
  | _ :: _, _ :: _, [], _, h => by simp [cmpChars] at h
  | [], _ :: _, _ :: _, _, _ => rfl
  | a :: s, b :: t, c :: u, h, h' => by
    simp only [cmpChars, Ordering.then_eq_lt, Nat.compare_eq_lt, Nat.compare_eq_eq] at *
    rcases h with h | ⟨h, g⟩ <;> rcases h' with h' | ⟨h', g'⟩
    · exact .inl (by omega)
    · exact .inl (by omega)
    · exact .inl (by omega)
    · exact .inr ⟨by omega, cmpChars_trans g g'⟩

end PM2
