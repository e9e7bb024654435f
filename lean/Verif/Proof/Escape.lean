import Verif.Proof.Value
import Verif.Proof.Shape
/-! # The literal constructors write what the unescaper reads -/

namespace PM2
open Spec

/-! ### Single quotes -/

section
variable {U : Type} {k : StrKind} {I : Unescape U} {bytes : U → List UInt8}

theorem unescapeSingle_sound (L : LawfulUnescape k I bytes) {e : List Char} {u : U}
    (h : (unescapeSingle I e).1 = .ok u) : UnitMeans k e (bytes u) := by
  cases e with
  | nil => simp [unescapeSingle] at h
  | cons c e =>
    simp only [unescapeSingle] at h
    by_cases h1 : c = '\\'
    · rw [if_pos h1] at h
      subst h1
      generalize hx : unescape1 I e = x at h
      obtain ⟨res, r⟩ := x
      cases res with
      | error => simp at h
      | ok u' =>
        cases r with
        | cons => simp at h
        | nil =>
          simp at h; subst h
          obtain ⟨p, hp, hm⟩ := unescape1_sound L hx
          rw [List.append_nil] at hp
          subst hp
          exact .esc hm
    · rw [if_neg h1] at h
      by_cases h2 : c = '\n' ∨ c = '\t' ∨ c = '\''
      · rw [if_pos h2] at h; simp at h
      · rw [if_neg h2] at h
        by_cases h3 : c = '\r'
        · rw [if_pos h3] at h; simp at h
        · rw [if_neg h3] at h
          generalize hx : I.char2unit c = x at h
          cases x with
          | error => simp at h
          | ok u' =>
            cases e with
            | cons => simp at h
            | nil =>
              simp at h; subst h
              obtain ⟨g1, g2⟩ := L.char_ok c u' hx
              rw [g2]
              refine .char ?_ g1
              simp only [not_or] at h2
              simp [h1, h2, h3]

theorem unescapeSingle_suffix (I : Unescape U) (e : List Char) : (unescapeSingle I e).2 <:+ e := by
  cases e with
  | nil => simp [unescapeSingle]
  | cons c e =>
    have key : ∀ (res : UnitRes U) (r : List Char), r <:+ c :: e →
        (match res with
          | .error e => ((.error e, r) : UnitRes U × List Char)
          | .ok u =>
            match r with
            | [] => (.ok u, [])
            | _ :: r => (.error .moreThanOneChar, r)).2 <:+ c :: e := by
      intro res r hr
      cases res with
      | error => exact hr
      | ok u =>
        cases r with
        | nil => exact List.nil_suffix
        | cons d r => exact (List.suffix_cons d r).trans hr
    have hc := List.suffix_cons c e
    simp only [unescapeSingle]
    apply key
    split
    · exact (unescape1_suffix I e).trans hc
    · split
      · exact hc
      · split <;> exact hc

theorem unescapeSingle_fatal (L : LawfulUnescape k I bytes) {e r : List Char} {x : EscapeError}
    (h : unescapeSingle I e = (.error x, r)) : x.isFatal = true := by
  cases e with
  | nil => simp [unescapeSingle] at h; obtain ⟨rfl, -⟩ := h; rfl
  | cons c e =>
    have key : ∀ (p : UnitRes U × List Char), (∀ x r, p = (.error x, r) → x.isFatal = true) →
        (match p.1 with
          | .error e => ((.error e, p.2) : UnitRes U × List Char)
          | .ok u =>
            match p.2 with
            | [] => (.ok u, [])
            | _ :: r => (.error .moreThanOneChar, r)) = (.error x, r) → x.isFatal = true := by
      rintro ⟨res, r'⟩ hp hh
      cases res with
      | error y => simp at hh; exact hh.1 ▸ hp y r' rfl
      | ok u =>
        cases r' with
        | nil => simp at hh
        | cons d r' => simp at hh; obtain ⟨rfl, -⟩ := hh; rfl
    simp only [unescapeSingle] at h
    refine key _ (fun x r hp => ?_) h
    split at hp
    · exact unescape1_fatal L hp
    · split at hp
      · simp at hp; obtain ⟨rfl, -⟩ := hp; rfl
      · split at hp
        · simp at hp; obtain ⟨rfl, -⟩ := hp; rfl
        · simp at hp; exact L.char_fatal c x hp.1

theorem unescapeSingle_complete (L : LawfulUnescape k I bytes) {e : List Char} {m : List UInt8}
    (h : UnitMeans k e m) : ∃ u, (unescapeSingle I e).1 = .ok u ∧ bytes u = m := by
  cases h with
  | @char c h1 h2 =>
    obtain ⟨u, hu⟩ := L.char c h2
    refine ⟨u, ?_, (L.char_ok c u hu).2⟩
    simp at h1
    simp [unescapeSingle, h1, hu]
  | @esc p m hp =>
    obtain ⟨u, h1, h2⟩ := unescape1_complete L hp []
    rw [List.append_nil] at h1
    exact ⟨u, by simp [unescapeSingle, h1], h2⟩

end

theorem unescapeChar_iff (e : List Char) (c : Char) :
    unescapeChar e = .ok c ↔ UnitMeans .str e (String.utf8EncodeChar c) := by
  constructor
  · exact unescapeSingle_sound lawful_str
  · intro h
    obtain ⟨u, h1, h2⟩ := unescapeSingle_complete lawful_str h
    have : u = c := encode_head (s := []) (t := []) (by rw [h2])
    subst this
    exact h1

theorem unescapeByte_iff (e : List Char) (b : UInt8) :
    unescapeByte e = .ok b ↔ UnitMeans .byte e [b] := by
  constructor
  · exact unescapeSingle_sound lawful_byte
  · intro h
    obtain ⟨u, h1, h2⟩ := unescapeSingle_complete lawful_byte h
    simp at h2
    subst h2
    exact h1

/-! ### Hexadecimal digits -/

theorem hexDigitLower_spec {d : Nat} (h : d < 16) :
    HexDigit (hexDigitLower d) ∧ hexDigitVal (hexDigitLower d) = d := by
  have : ∀ d < 16, (('0' ≤ hexDigitLower d ∧ hexDigitLower d ≤ '9') ∨
      ('a' ≤ hexDigitLower d ∧ hexDigitLower d ≤ 'f') ∨ ('A' ≤ hexDigitLower d ∧ hexDigitLower d ≤ 'F')) ∧
      hexDigitVal (hexDigitLower d) = d := by decide
  exact this d h

theorem hexDigitUpper_spec {d : Nat} (h : d < 16) :
    HexDigit (hexDigitUpper d) ∧ hexDigitVal (hexDigitUpper d) = d := by
  have : ∀ d < 16, (('0' ≤ hexDigitUpper d ∧ hexDigitUpper d ≤ '9') ∨
      ('a' ≤ hexDigitUpper d ∧ hexDigitUpper d ≤ 'f') ∨ ('A' ≤ hexDigitUpper d ∧ hexDigitUpper d ≤ 'F')) ∧
      hexDigitVal (hexDigitUpper d) = d := by decide
  exact this d h

theorem stripZeros_spec (ds : List Char) (hne : ds ≠ []) :
    stripZeros ds ≠ [] ∧ (stripZeros ds).length ≤ ds.length ∧ (∀ c ∈ stripZeros ds, c ∈ ds) ∧
      hexNumber (stripZeros ds) = hexNumber ds := by
  induction ds with
  | nil => exact absurd rfl hne
  | cons c ds ih =>
    cases ds with
    | nil => simp [stripZeros]
    | cons d t =>
      unfold stripZeros
      split
      · rename_i hc
        subst hc
        obtain ⟨h1, h2, h3, h4⟩ := ih (by simp)
        refine ⟨h1, by simp at h2 ⊢; omega, fun c hc => List.mem_cons_of_mem _ (h3 c hc), ?_⟩
        rw [h4]
        have : hexDigitVal '0' = 0 := by decide
        simp [hexNumber, this]
      · exact ⟨by simp, Nat.le_refl _, fun c hc => hc, rfl⟩

theorem escapeUnicode_uni (c : Char) : ∃ ds, escapeUnicode c = '\\' :: 'u' :: '{' :: ds ++ ['}'] ∧
    UniText ds c := by
  have hd : ∀ k, HexDigit (hexDigitLower (c.toNat / 16 ^ k % 16)) ∧
      hexDigitVal (hexDigitLower (c.toNat / 16 ^ k % 16)) = c.toNat / 16 ^ k % 16 :=
    fun k => hexDigitLower_spec (Nat.mod_lt _ (by decide))
  have hlt : c.toNat < 16 ^ 6 := by
    have := c.valid
    simp only [UInt32.isValidChar, Nat.isValidChar] at this
    have e : c.toNat = c.val.toNat := rfl
    omega
  refine ⟨_, rfl, ?_⟩
  generalize hL : [hexDigitLower (c.toNat / 16 ^ 5 % 16), hexDigitLower (c.toNat / 16 ^ 4 % 16),
    hexDigitLower (c.toNat / 16 ^ 3 % 16), hexDigitLower (c.toNat / 16 ^ 2 % 16),
    hexDigitLower (c.toNat / 16 ^ 1 % 16), hexDigitLower (c.toNat / 16 ^ 0 % 16)] = ds
  have hne : ds ≠ [] := by rw [← hL]; simp
  have hall : ∀ x ∈ ds, HexDigit x := by
    rw [← hL]
    intro x hx
    simp only [List.mem_cons, List.not_mem_nil, or_false] at hx
    rcases hx with rfl | rfl | rfl | rfl | rfl | rfl <;> exact (hd _).1
  have hnum : hexNumber ds = c.toNat := by
    rw [← hL]
    simp only [hexNumber, List.foldl_cons, List.foldl_nil, (hd _).2]
    omega
  have hlen : ds.length = 6 := by rw [← hL]; rfl
  obtain ⟨h1, h2, h3, h4⟩ := stripZeros_spec ds hne
  have hall' : ∀ x ∈ stripZeros ds, HexDigit x := fun x hx => hall x (h3 x hx)
  have hf : (stripZeros ds).filter (· ≠ '_') = stripZeros ds := by
    rw [List.filter_eq_self]
    intro x hx
    have := hall' x hx
    simp
    rintro rfl
    exact not_hex_us this
  show UniText (stripZeros ds) c
  exact {
    first := by
      cases hs : stripZeros ds with
      | nil => exact absurd hs h1
      | cons d u => exact ⟨d, u, rfl, hall' d (by rw [hs]; exact List.mem_cons_self ..)⟩
    chars := fun x hx => .inl (hall' x hx)
    count := by rw [hf]; omega
    value := by rw [hf, h4, hnum] }

theorem uniText_noCr {ds : List Char} {v : Char} (h : UniText ds v) : '\r' ∉ ds := by
  intro hm
  rcases h.chars _ hm with h | h
  · have := hexDigit_nat h; revert this; decide
  · revert h; decide

/-! ### `char::escape_debug` -/

section
variable [UnicodeTables]

theorem escapeDebug_piece {k : StrKind} (hk : k ≠ .byte) {c : Char} (hc : k = .c → c ≠ '\x00') :
    Piece k (escapeDebug c) (String.utf8EncodeChar c) ∧ '\r' ∉ escapeDebug c := by
  have hok : CharOk k c := by
    cases k with
    | str => trivial
    | byte => exact absurd rfl hk
    | c => exact hc rfl
  have huni : Piece k (escapeUnicode c) (String.utf8EncodeChar c) ∧ '\r' ∉ escapeUnicode c := by
    obtain ⟨ds, h1, h2⟩ := escapeUnicode_uni c
    rw [h1]
    exact ⟨.uni hk h2 hc, by have := uniText_noCr h2; simp [this]⟩
  unfold escapeDebug
  by_cases h0 : c = '\x00'
  · rw [if_pos h0]
    subst h0
    refine ⟨?_, by decide⟩
    exact .zero (fun h => hc h rfl)
  rw [if_neg h0]
  by_cases h1 : c = '\t'
  · rw [if_pos h1]; subst h1; exact ⟨.simple (by decide), by decide⟩
  rw [if_neg h1]
  by_cases h2 : c = '\r'
  · rw [if_pos h2]; subst h2; exact ⟨.simple (by decide), by decide⟩
  rw [if_neg h2]
  by_cases h3 : c = '\n'
  · rw [if_pos h3]; subst h3; exact ⟨.simple (by decide), by decide⟩
  rw [if_neg h3]
  by_cases h4 : c = '\\'
  · rw [if_pos h4]; subst h4; exact ⟨.simple (by decide), by decide⟩
  rw [if_neg h4]
  by_cases h5 : c = '"'
  · rw [if_pos h5]; subst h5; exact ⟨.simple (by decide), by decide⟩
  rw [if_neg h5]
  by_cases h6 : c = '\''
  · rw [if_pos h6]; subst h6; exact ⟨.simple (by decide), by decide⟩
  rw [if_neg h6]
  split
  · exact huni
  · split
    · exact ⟨.char h5 h4 h2 hok, by simp; exact fun h => h2 h.symm⟩
    · exact huni

/-- `escape_utf8` writes text that stands for the given text. -/
theorem escapeUtf8_append {k : StrKind} (hk : k ≠ .byte) {s t : List Char} {n : List UInt8}
    (hs : k = .c → '\x00' ∉ s) (ht : Means k t n) (hcr : '\r' ∉ t) :
    Means k (escapeUtf8 s ++ t) (bytesOf s ++ n) ∧ '\r' ∉ escapeUtf8 s ++ t := by
  induction s with
  | nil => exact ⟨ht, hcr⟩
  | cons c s ih =>
    obtain ⟨i1, i2⟩ := ih (fun h hm => hs h (List.mem_cons_of_mem _ hm))
    have hc : k = .c → c ≠ '\x00' := fun h hc => hs h (by rw [hc]; exact List.mem_cons_self ..)
    unfold escapeUtf8
    rw [bytesOf_cons]
    have key : ∀ p, Piece k p (String.utf8EncodeChar c) ∧ '\r' ∉ p →
        Means k (p ++ escapeUtf8 s ++ t) (String.utf8EncodeChar c ++ bytesOf s ++ n) ∧
          '\r' ∉ p ++ escapeUtf8 s ++ t := by
      rintro p ⟨h1, h2⟩
      rw [List.append_assoc, List.append_assoc]
      exact ⟨.piece h1 i1, fun h => (List.mem_append.mp h).elim h2 i2⟩
    apply key
    by_cases h0 : c = '\x00'
    · rw [if_pos h0]
      subst h0
      have hz : k ≠ .c := fun h => hc h rfl
      have z1 : Piece k ['\\', '0'] (String.utf8EncodeChar '\x00') ∧ '\r' ∉ ['\\', '0'] :=
        ⟨.zero hz, by decide⟩
      have z2 : Piece k ['\\', 'x', '0', '0'] (String.utf8EncodeChar '\x00') ∧
          '\r' ∉ ['\\', 'x', '0', '0'] :=
        ⟨Piece.hex (a := '0') (b := '0') (by unfold HexDigit; decide) (by unfold HexDigit; decide)
          (fun _ => by decide) (fun h => absurd h hz), by decide⟩
      split
      · split
        · exact z2
        · exact z1
      · exact z1
    · rw [if_neg h0]
      split
      · rename_i h1
        subst h1
        exact ⟨.char (by decide) (by decide) (by decide) (charOk_of (by decide) (by decide)), by decide⟩
      · exact escapeDebug_piece hk hc

theorem escapeUtf8_means {k : StrKind} (hk : k ≠ .byte) {s : List Char} (hs : k = .c → '\x00' ∉ s) :
    Means k (escapeUtf8 s) (bytesOf s) ∧ '\r' ∉ escapeUtf8 s := by
  have := escapeUtf8_append hk hs .nil (by simp)
  simpa using this

end

/-! ### Bytes -/

theorem escapeByteHex_piece {k : StrKind} (hk : k ≠ .str) {b : UInt8} (hb : k = .c → b ≠ 0) :
    Piece k (escapeByteHex b) [b] ∧ '\r' ∉ escapeByteHex b := by
  have hlt : b.toNat < 256 := b.toNat_lt
  obtain ⟨h1, h2⟩ := hexDigitUpper_spec (d := b.toNat / 16) (by omega)
  obtain ⟨h3, h4⟩ := hexDigitUpper_spec (d := b.toNat % 16) (by omega)
  have hn : hexNumber [hexDigitUpper (b.toNat / 16), hexDigitUpper (b.toNat % 16)] = b.toNat := by
    rw [hexNumber_two, h2, h4]; omega
  refine ⟨?_, ?_⟩
  · have := Piece.hex (k := k) h1 h3 (fun h => absurd h hk) (fun h => by
      rw [hn]; intro hz; exact hb h (UInt8.toNat_inj.mp (by simpa using hz)))
    rw [hn, uint8_ofNat_toNat] at this
    exact this
  · have g1 := hexDigit_nat h1
    have g3 := hexDigit_nat h3
    unfold escapeByteHex
    simp only [List.mem_cons, List.not_mem_nil, or_false, not_or]
    refine ⟨by decide, by decide, fun h => ?_, fun h => ?_⟩
    · rw [← h] at g1; revert g1; decide
    · rw [← h] at g3; revert g3; decide

theorem byteChar_encode {b : UInt8} (h : b.toNat < 128) :
    (byteChar b).toNat = b.toNat ∧ String.utf8EncodeChar (byteChar b) = [b] := by
  refine ⟨charOfNat_toNat (by omega), ?_⟩
  unfold byteChar
  rw [encode_ofNat h, uint8_ofNat_toNat]

theorem byteChar_ne {b : UInt8} {c : Char} (hb : b.toNat < 128) (h : b ≠ B c) : byteChar b ≠ c := by
  intro hc
  apply h
  rw [← hc]
  unfold B
  rw [(byteChar_encode hb).1, uint8_ofNat_toNat]

theorem le_toNat {a b : UInt8} : a ≤ b ↔ a.toNat ≤ b.toNat := UInt8.le_iff_toNat_le

/-- `byte_string` writes text that stands for the given bytes. -/
theorem escapeBytes_means (bs : List UInt8) : Means .byte (escapeBytes bs) bs ∧ '\r' ∉ escapeBytes bs := by
  induction bs with
  | nil => exact ⟨.nil, by simp [escapeBytes]⟩
  | cons b bs ih =>
    obtain ⟨i1, i2⟩ := ih
    unfold escapeBytes
    have key : ∀ p, Piece .byte p [b] ∧ '\r' ∉ p →
        Means .byte (p ++ escapeBytes bs) (b :: bs) ∧ '\r' ∉ p ++ escapeBytes bs := by
      rintro p ⟨h1, h2⟩
      exact ⟨.piece h1 i1, by simp [h2, i2]⟩
    apply key
    by_cases h0 : b = B '\x00'
    · rw [if_pos h0]
      subst h0
      have z1 : Piece .byte ['\\', '0'] [B '\x00'] ∧ '\r' ∉ ['\\', '0'] :=
        ⟨.zero (by decide), by decide⟩
      have z2 : Piece .byte ['\\', 'x', '0', '0'] [B '\x00'] ∧ '\r' ∉ ['\\', 'x', '0', '0'] :=
        ⟨Piece.hex (a := '0') (b := '0') (by unfold HexDigit; decide) (by unfold HexDigit; decide)
          (by decide) (by decide), by decide⟩
      split
      · split
        · exact z2
        · exact z1
      · exact z1
    rw [if_neg h0]
    by_cases h1 : b = B '\t'
    · rw [if_pos h1]; subst h1; exact ⟨.simple (by decide), by decide⟩
    rw [if_neg h1]
    by_cases h2 : b = B '\n'
    · rw [if_pos h2]; subst h2; exact ⟨.simple (by decide), by decide⟩
    rw [if_neg h2]
    by_cases h3 : b = B '\r'
    · rw [if_pos h3]; subst h3; exact ⟨.simple (by decide), by decide⟩
    rw [if_neg h3]
    by_cases h4 : b = B '"'
    · rw [if_pos h4]; subst h4; exact ⟨.simple (by decide), by decide⟩
    rw [if_neg h4]
    by_cases h5 : b = B '\\'
    · rw [if_pos h5]; subst h5; exact ⟨.simple (by decide), by decide⟩
    rw [if_neg h5]
    split
    · rename_i hr
      have hlt : b.toNat < 128 := by
        have := le_toNat.mp hr.2
        simp at this; omega
      obtain ⟨g1, g2⟩ := byteChar_encode hlt
      refine ⟨?_, by simp; exact fun h => byteChar_ne hlt h3 h.symm⟩
      rw [← g2]
      exact .char (byteChar_ne hlt h4) (byteChar_ne hlt h5) (byteChar_ne hlt h3)
        (by show (byteChar b).toNat < 128; omega)
    · exact escapeByteHex_piece (by decide) (by simp)

/-! ### `Literal::c_string` -/

theorem ofNat_valid {n : Nat} (h : n.isValidChar) : (Char.ofNat n).toNat = n :=
  charFromU32_iff.mp (by unfold charFromU32; rw [if_pos h])

theorem ofNat_byte {b : UInt8} {n : Nat} (h : n = b.toNat) : UInt8.ofNat n = b := by
  rw [h]; exact uint8_ofNat_toNat b

/-- A decoded character encodes to the bytes it was decoded from. -/
theorem utf8Step_good {b : UInt8} {bs rest : List UInt8} {c : Char} (h : utf8Step b bs = .good c rest) :
    b :: bs = String.utf8EncodeChar c ++ rest := by
  have hv : ∀ n, n.isValidChar → (Char.ofNat n).val.toNat = n := fun n hn => ofNat_valid hn
  unfold utf8Step at h
  split at h
  · rename_i hb
    have hb' := UInt8.lt_iff_toNat_lt.mp hb
    simp at hb'
    simp at h
    obtain ⟨rfl, rfl⟩ := h
    rw [encode_ofNat hb', uint8_ofNat_toNat]
    rfl
  split at h
  · rename_i hb
    have h1 := le_toNat.mp hb.1
    have h2 := le_toNat.mp hb.2
    simp at h1 h2
    split at h
    · simp at h
    · rename_i b1 r1
      split at h
      · rename_i hc
        simp [isCont] at hc
        have g1 := le_toNat.mp hc.1
        have g2 := le_toNat.mp hc.2
        simp at g1 g2
        simp at h
        obtain ⟨rfl, rfl⟩ := h
        have e := hv ((b.toNat - 192) * 64 + (b1.toNat - 128)) (by left; omega)
        unfold String.utf8EncodeChar
        rw [e]
        simp only
        rw [if_neg (by omega), if_pos (by omega), ofNat_byte (b := b) (by omega),
          ofNat_byte (b := b1) (by omega)]
        rfl
      · simp at h
  split at h
  · rename_i hb
    have h1 := le_toNat.mp hb.1
    have h2 := le_toNat.mp hb.2
    simp at h1 h2
    split at h
    · simp at h
    · rename_i b1 r1
      split at h
      · rename_i hc
        have hx : 128 ≤ b1.toNat ∧ b1.toNat ≤ 191 ∧ (b.toNat = 224 → 160 ≤ b1.toNat) ∧
            (b.toNat = 237 → b1.toNat ≤ 159) := by
          simp only [le_toNat, ← UInt8.toNat_inj] at hc
          simp at hc
          omega
        split at h
        · simp at h
        · rename_i b2 r2
          split at h
          · rename_i hc2
            simp [isCont] at hc2
            have g1 := le_toNat.mp hc2.1
            have g2 := le_toNat.mp hc2.2
            simp at g1 g2
            simp at h
            obtain ⟨rfl, rfl⟩ := h
            have e := hv ((b.toNat - 224) * 4096 + (b1.toNat - 128) * 64 + (b2.toNat - 128))
              (by unfold Nat.isValidChar; omega)
            unfold String.utf8EncodeChar
            rw [e]
            simp only
            rw [if_neg (by omega), if_neg (by omega), if_pos (by omega), ofNat_byte (b := b) (by omega),
              ofNat_byte (b := b1) (by omega), ofNat_byte (b := b2) (by omega)]
            rfl
          · simp at h
      · simp at h
  split at h
  · rename_i hb
    have h1 := le_toNat.mp hb.1
    have h2 := le_toNat.mp hb.2
    simp at h1 h2
    split at h
    · simp at h
    · rename_i b1 r1
      split at h
      · rename_i hc
        have hx : 128 ≤ b1.toNat ∧ b1.toNat ≤ 191 ∧ (b.toNat = 240 → 144 ≤ b1.toNat) ∧
            (b.toNat = 244 → b1.toNat ≤ 143) := by
          simp only [le_toNat, ← UInt8.toNat_inj] at hc
          simp at hc
          omega
        split at h
        · simp at h
        · rename_i b2 r2
          split at h
          · rename_i hc2
            simp [isCont] at hc2
            have g1 := le_toNat.mp hc2.1
            have g2 := le_toNat.mp hc2.2
            simp at g1 g2
            split at h
            · simp at h
            · rename_i b3 r3
              split at h
              · rename_i hc3
                simp [isCont] at hc3
                have g3 := le_toNat.mp hc3.1
                have g4 := le_toNat.mp hc3.2
                simp at g3 g4
                simp at h
                obtain ⟨rfl, rfl⟩ := h
                have e := hv ((b.toNat - 240) * 262144 + (b1.toNat - 128) * 4096 +
                  (b2.toNat - 128) * 64 + (b3.toNat - 128)) (by unfold Nat.isValidChar; omega)
                unfold String.utf8EncodeChar
                rw [e]
                simp only
                rw [if_neg (by omega), if_neg (by omega), if_neg (by omega), ofNat_byte (b := b) (by omega),
                  ofNat_byte (b := b1) (by omega), ofNat_byte (b := b2) (by omega),
                  ofNat_byte (b := b3) (by omega)]
                rfl
              · simp at h
          · simp at h
      · simp at h
  · simp at h

/-- An error of the decoder names at least one byte. -/
theorem utf8Step_bad {b : UInt8} {bs : List UInt8} {e : Option Nat} (h : utf8Step b bs = .bad e) :
    ∀ n, e = some n → 1 ≤ n := by
  intro n hn
  subst hn
  unfold utf8Step at h
  repeat' split at h
  all_goals first
    | (simp at h; omega)
    | simp at h

theorem fromUtf8_spec (fuel : Nat) (bytes : List UInt8) (hf : bytes.length ≤ fuel) {v : List Char}
    {r : List UInt8} {e : Option (Option Nat)} (h : fromUtf8 fuel bytes = (v, r, e)) :
    bytes = bytesOf v ++ r ∧ (e = none → r = []) ∧
      (∀ o, e = some o → r ≠ [] ∧ ∀ n, o = some n → 1 ≤ n) := by
  induction fuel generalizing bytes v r e with
  | zero =>
    have : bytes = [] := List.length_eq_zero_iff.mp (by omega)
    subst this
    simp [fromUtf8] at h
    obtain ⟨rfl, rfl, rfl⟩ := h
    exact ⟨rfl, fun _ => rfl, fun o ho => by simp at ho⟩
  | succ fuel ih =>
    cases bytes with
    | nil =>
      simp [fromUtf8] at h
      obtain ⟨rfl, rfl, rfl⟩ := h
      exact ⟨rfl, fun _ => rfl, fun o ho => by simp at ho⟩
    | cons b bs =>
      simp only [fromUtf8] at h
      cases hs : utf8Step b bs with
      | bad e' =>
        rw [hs] at h
        simp at h
        obtain ⟨rfl, rfl, rfl⟩ := h
        refine ⟨rfl, fun ho => by simp at ho, fun o ho => ⟨by simp, fun n hn => ?_⟩⟩
        simp at ho
        subst ho
        exact utf8Step_bad hs n hn
      | good c rest =>
        rw [hs] at h
        simp only at h
        generalize hx : fromUtf8 fuel rest = x at h
        obtain ⟨v', r', e'⟩ := x
        simp at h
        obtain ⟨rfl, rfl, rfl⟩ := h
        have hb := utf8Step_good hs
        have hl : rest.length ≤ fuel := by
          have := congrArg List.length hb
          rw [List.length_append, String.length_utf8EncodeChar] at this
          have hp := utf8Size_pos c
          simp at this hf
          omega
        obtain ⟨i1, i2, i3⟩ := ih rest hl hx
        refine ⟨?_, i2, i3⟩
        rw [hb, bytesOf_cons, List.append_assoc, ← i1]

section
variable [UnicodeTables]

omit [UnicodeTables] in
theorem hexBytes_append {bs : List UInt8} (hz : (0 : UInt8) ∉ bs) {t : List Char} {n : List UInt8}
    (ht : Means .c t n) (hcr : '\r' ∉ t) :
    Means .c (bs.flatMap escapeByteHex ++ t) (bs ++ n) ∧ '\r' ∉ bs.flatMap escapeByteHex ++ t := by
  induction bs with
  | nil => exact ⟨ht, hcr⟩
  | cons b bs ih =>
    obtain ⟨i1, i2⟩ := ih (fun h => hz (List.mem_cons_of_mem _ h))
    obtain ⟨g1, g2⟩ := escapeByteHex_piece (k := .c) (b := b) (by decide)
      (fun _ h => hz (by rw [h]; exact List.mem_cons_self ..))
    rw [List.flatMap_cons, List.append_assoc]
    exact ⟨.piece (m := [b]) g1 i1, fun h => (List.mem_append.mp h).elim g2 i2⟩

omit [UnicodeTables] in
theorem nul_bytes {v : List Char} (h : '\x00' ∈ v) : (0 : UInt8) ∈ bytesOf v := by
  unfold bytesOf
  rw [List.mem_flatMap]
  exact ⟨_, h, by decide⟩

theorem cStringLoop_means (fuel : Nat) (bytes : List UInt8) (hf : bytes.length ≤ fuel)
    (hz : (0 : UInt8) ∉ bytes) :
    ∃ t, cStringLoop fuel bytes = .ok t ∧ Means .c t bytes ∧ '\r' ∉ t := by
  induction fuel generalizing bytes with
  | zero =>
    have : bytes = [] := List.length_eq_zero_iff.mp (by omega)
    subst this
    exact ⟨[], rfl, .nil, by simp⟩
  | succ fuel ih =>
    cases bytes with
    | nil => exact ⟨[], rfl, .nil, by simp⟩
    | cons b bs =>
      simp only [cStringLoop]
      generalize hx : fromUtf8 (b :: bs).length (b :: bs) = x
      obtain ⟨v, r, e⟩ := x
      obtain ⟨h1, h2, h3⟩ := fromUtf8_spec _ _ (Nat.le_refl _) hx
      rw [h1] at hz
      have hv : '\x00' ∉ v := fun h => hz (List.mem_append_left _ (nul_bytes h))
      have hzr : (0 : UInt8) ∉ r := fun h => hz (List.mem_append_right _ h)
      cases e with
      | none =>
        have := h2 rfl
        subst this
        rw [List.append_nil] at h1
        obtain ⟨g1, g2⟩ := escapeUtf8_means (k := .c) (by decide) (fun _ => hv)
        exact ⟨_, rfl, by rw [h1]; exact g1, g2⟩
      | some o =>
        obtain ⟨hr, ho⟩ := h3 o rfl
        have hn : 1 ≤ o.getD r.length := by
          cases o with
          | none =>
            simp only [Option.getD_none]
            exact List.length_pos_iff.mpr hr
          | some n => exact ho n rfl
        have hrl : r.length ≤ (b :: bs).length := by
          rw [h1, List.length_append]; omega
        have hr1 : 1 ≤ r.length := List.length_pos_iff.mpr hr
        obtain ⟨t, i1, i2, i3⟩ := ih (r.drop (o.getD r.length))
          (by rw [List.length_drop]; simp at hrl hf; omega)
          (fun h => hzr (List.mem_of_mem_drop h))
        simp only [i1]
        obtain ⟨g1, g2⟩ := hexBytes_append (bs := r.take (o.getD r.length))
          (fun h => hzr (List.mem_of_mem_take h)) i2 i3
        rw [List.take_append_drop] at g1
        obtain ⟨k1, k2⟩ := escapeUtf8_append (k := .c) (s := v) (by decide) (fun _ => hv) g1 g2
        refine ⟨_, rfl, ?_, ?_⟩
        · rw [h1, List.append_assoc]; exact k1
        · rw [List.append_assoc]; exact k2

/-! ### The literals -/

theorem litString_value (s : List Char) : StrText .str (litString s) ∧ HasValue .str (litString s) (bytesOf s) := by
  obtain ⟨h1, h2⟩ := escapeUtf8_means (k := .str) (s := s) (by decide) (by simp)
  exact ⟨.cooked (k := .str) (h1.cooked h2), .cooked (k := .str) h1⟩

omit [UnicodeTables] in
theorem litByteString_value (bs : List UInt8) :
    StrText .byte (litByteString bs) ∧ HasValue .byte (litByteString bs) bs := by
  obtain ⟨h1, h2⟩ := escapeBytes_means bs
  have e : litByteString bs = kindPrefix .byte ++ '"' :: escapeBytes bs ++ ['"'] := by
    simp [litByteString, kindPrefix]
  rw [e]
  exact ⟨.cooked (h1.cooked h2), .cooked h1⟩

theorem litCString_value (bs : List UInt8) (hz : (0 : UInt8) ∉ bs) :
    ∃ x, litCString bs = .ok x ∧ StrText .c x ∧ HasValue .c x bs := by
  obtain ⟨t, h1, h2, h3⟩ := cStringLoop_means bs.length bs (Nat.le_refl _) hz
  refine ⟨_, by unfold litCString; rw [h1]; rfl, ?_, ?_⟩
  · have := StrText.cooked (k := .c) (h2.cooked h3)
    simpa [kindPrefix] using this
  · have := HasValue.cooked h2
    simpa [kindPrefix] using this

omit [UnicodeTables] in
theorem charElem_of_piece {p : List Char} {m : List UInt8} (h : Piece .str p m) : CharElem p := by
  cases h with
  | char _ h2 _ _ => exact .char h2
  | simple hm =>
    refine .simple ?_
    have := simple_mem.mpr ⟨_, hm⟩
    simp only [List.mem_cons, List.not_mem_nil, or_false] at this ⊢
    rcases this with h | h | h | h | h | h <;> simp [h]
  | zero => exact .simple (by decide)
  | hex h1 h2 h3 _ =>
    have := h3 rfl
    rw [hexNumber_two] at this
    exact .hex (hexDigit_low h1 (by omega)) h2
  | uni _ h2 _ => exact .uni h2

theorem litCharacter_value (c : Char) : ∃ e, litCharacter c = '\'' :: e ++ ['\''] ∧ CharElem e ∧
    UnitMeans .str e (String.utf8EncodeChar c) := by
  refine ⟨_, rfl, ?_⟩
  by_cases hq : c = '"'
  · rw [if_pos hq]
    exact ⟨.char (by rw [hq]; decide), .char (by rw [hq]; decide) trivial⟩
  · rw [if_neg hq]
    obtain ⟨h1, -⟩ := escapeDebug_piece (k := .str) (c := c) (by decide) (by simp)
    refine ⟨charElem_of_piece h1, ?_⟩
    generalize hp : escapeDebug c = p at h1
    generalize hm : String.utf8EncodeChar c = m at h1
    cases h1 with
    | @char d g1 g2 g3 g4 =>
      refine .char ?_ g4
      unfold escapeDebug at hp
      repeat' split at hp
      all_goals first
        | (simp at hp; done)
        | (simp [escapeUnicode] at hp; done)
        | (simp at hp; subst hp; simp; simp_all)
    | simple g => exact .esc (.simple g)
    | zero g => exact .esc (.zero g)
    | hex g1 g2 g3 g4 => exact .esc (.hex g1 g2 g3 g4)
    | uni g1 g2 g3 => exact .esc (.uni g1 g2 g3)

end

theorem byteElem_of_piece {p : List Char} {m : List UInt8} (h : Piece .byte p m) : ByteElem p := by
  cases h with
  | char _ h2 _ h4 => exact .char h2 h4
  | simple hm =>
    refine .simple ?_
    have := simple_mem.mpr ⟨_, hm⟩
    simp only [List.mem_cons, List.not_mem_nil, or_false] at this ⊢
    rcases this with h | h | h | h | h | h <;> simp [h]
  | zero => exact .simple (by decide)
  | hex h1 h2 h3 _ => exact .hex h1 h2
  | uni h1 _ _ => exact absurd rfl h1

theorem litByteCharacter_value (b : UInt8) : ∃ e, litByteCharacter b = 'b' :: '\'' :: e ++ ['\''] ∧
    ByteElem e ∧ UnitMeans .byte e [b] := by
  refine ⟨_, rfl, ?_⟩
  have hs : ∀ c x, (c, x) ∈ simpleEscapes → ByteElem ['\\', c] ∧ UnitMeans .byte ['\\', c] [x] :=
    fun c x h => ⟨byteElem_of_piece (.simple h), .esc (.simple h)⟩
  by_cases h0 : b = B '\x00'
  · rw [if_pos h0]; subst h0; exact ⟨.simple (by decide), .esc (.zero (by decide))⟩
  rw [if_neg h0]
  by_cases h1 : b = B '\t'
  · rw [if_pos h1]; subst h1; exact hs _ _ (by decide)
  rw [if_neg h1]
  by_cases h2 : b = B '\n'
  · rw [if_pos h2]; subst h2; exact hs _ _ (by decide)
  rw [if_neg h2]
  by_cases h3 : b = B '\r'
  · rw [if_pos h3]; subst h3; exact hs _ _ (by decide)
  rw [if_neg h3]
  by_cases h4 : b = B '\''
  · rw [if_pos h4]; subst h4; exact hs _ _ (by decide)
  rw [if_neg h4]
  by_cases h5 : b = B '\\'
  · rw [if_pos h5]; subst h5; exact hs _ _ (by decide)
  rw [if_neg h5]
  split
  · rename_i hr
    have hlt : b.toNat < 128 := by
      have := le_toNat.mp hr.2
      simp at this; omega
    obtain ⟨g1, g2⟩ := byteChar_encode hlt
    refine ⟨.char (byteChar_ne hlt h5) (by omega), ?_⟩
    rw [← g2]
    refine .char ?_ (by show (byteChar b).toNat < 128; omega)
    simp [byteChar_ne hlt h1, byteChar_ne hlt h2, byteChar_ne hlt h3, byteChar_ne hlt h4,
      byteChar_ne hlt h5]
  · obtain ⟨g1, -⟩ := escapeByteHex_piece (k := .byte) (b := b) (by decide) (by simp)
    exact ⟨byteElem_of_piece g1, .esc g1⟩

end PM2
