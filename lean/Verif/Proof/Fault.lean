import Verif.Proof.Escape
import Verif.Spec.Fault
/-! # The unescaper reports exactly the faults of the text -/

set_option linter.unusedSectionVars false

namespace PM2
open Spec

/-! ### Unicode escapes -/

theorem unicodeEscapeLoop_err {s r : List Char} {v n : Nat} {e : EscapeError}
    (h : unicodeEscapeLoop s v n = (.error e, r)) :
    ∃ ds, (∀ c ∈ ds, HexDigit c ∨ c = '_') ∧
      ((s = ds ∧ r = [] ∧ e = .unclosedUnicodeEscape) ∨
       (∃ c, s = ds ++ c :: r ∧ ¬ HexDigit c ∧ c ≠ '_' ∧ c ≠ '}' ∧ e = .invalidCharInUnicodeEscape) ∨
       (s = ds ++ '}' :: r ∧ 6 < n + (uniDigits ds).length ∧ e = .overlongUnicodeEscape)) := by
  induction s generalizing v n with
  | nil =>
    simp [unicodeEscapeLoop] at h
    exact ⟨[], by simp, .inl ⟨rfl, h.2, h.1.symm⟩⟩
  | cons c s ih =>
    unfold unicodeEscapeLoop at h
    have step : ∀ {v' n'}, unicodeEscapeLoop s v' n' = (.error e, r) → (HexDigit c ∨ c = '_') →
        (n' + 0 = n + (uniDigits [c]).length) → ∃ ds, (∀ c ∈ ds, HexDigit c ∨ c = '_') ∧
      ((c :: s = ds ∧ r = [] ∧ e = .unclosedUnicodeEscape) ∨
       (∃ d, c :: s = ds ++ d :: r ∧ ¬ HexDigit d ∧ d ≠ '_' ∧ d ≠ '}' ∧ e = .invalidCharInUnicodeEscape) ∨
       (c :: s = ds ++ '}' :: r ∧ 6 < n + (uniDigits ds).length ∧ e = .overlongUnicodeEscape)) := by
      intro v' n' h' hc hn
      obtain ⟨ds, g1, g2⟩ := ih h'
      refine ⟨c :: ds, ?_, ?_⟩
      · intro d hd
        rcases List.mem_cons.mp hd with rfl | hd
        · exact hc
        · exact g1 d hd
      · have hl : (uniDigits (c :: ds)).length = (uniDigits [c]).length + (uniDigits ds).length := by
          have : c :: ds = [c] ++ ds := rfl
          rw [this]; unfold uniDigits; rw [List.filter_append, List.length_append]
        rcases g2 with ⟨rfl, g3, g4⟩ | ⟨d, rfl, g3⟩ | ⟨rfl, g3, g4⟩
        · exact .inl ⟨rfl, g3, g4⟩
        · exact .inr (.inl ⟨d, rfl, g3⟩)
        · exact .inr (.inr ⟨rfl, by omega, g4⟩)
    by_cases h1 : c = '_'
    · rw [if_pos h1] at h
      exact step h (.inr h1) (by subst h1; rfl)
    · rw [if_neg h1] at h
      by_cases h2 : c = '}'
      · rw [if_pos h2] at h
        subst h2
        by_cases h3 : n > 6
        · simp [h3] at h
          exact ⟨[], by simp, .inr (.inr ⟨by rw [h.2]; rfl, by simp [uniDigits]; omega, h.1.symm⟩)⟩
        · simp [h3] at h
      · rw [if_neg h2] at h
        cases hv : hexVal c with
        | none =>
          simp [hv] at h
          refine ⟨[], by simp, .inr (.inl ⟨c, by rw [h.2]; rfl, fun hx => ?_, h1, h2, h.1.symm⟩)⟩
          rw [hexVal_iff.mpr ⟨hx, rfl⟩] at hv; simp at hv
        | some d =>
          obtain ⟨hd, rfl⟩ := hexVal_iff.mp hv
          simp only [hv] at h
          have hl : (uniDigits [c]).length = 1 := by simp [uniDigits, h1]
          split at h
          · exact step h (.inl hd) (by omega)
          · exact step h (.inl hd) (by omega)

theorem unicodeEscapeLoop_skip {ds : List Char} (hds : ∀ c ∈ ds, HexDigit c ∨ c = '_') (s : List Char)
    (v n : Nat) : ∃ v', unicodeEscapeLoop (ds ++ s) v n = unicodeEscapeLoop s v' (n + (uniDigits ds).length) := by
  induction ds generalizing v n with
  | nil => exact ⟨v, rfl⟩
  | cons c ds ih =>
    have hds' : ∀ c ∈ ds, HexDigit c ∨ c = '_' := fun d hd => hds d (List.mem_cons_of_mem _ hd)
    rw [List.cons_append]
    by_cases h1 : c = '_'
    · obtain ⟨v', hv⟩ := ih hds' v n
      refine ⟨v', ?_⟩
      rw [unicodeEscapeLoop, if_pos h1, hv]
      simp [uniDigits, h1]
    · rcases hds c (List.mem_cons_self ..) with hd | hd
      · have hb : c ≠ '}' := by rintro rfl; exact hex_not_brace hd
        have hl : n + (uniDigits (c :: ds)).length = n + 1 + (uniDigits ds).length := by
          simp [uniDigits, h1]; omega
        rw [unicodeEscapeLoop, if_neg h1, if_neg hb, hexVal_iff.mpr ⟨hd, rfl⟩, hl]
        simp only
        split
        · exact ih hds' _ _
        · exact ih hds' _ _
      · exact absurd hd h1

theorem uniDigits_tail {d : Char} {u : List Char} (hd : HexDigit d) :
    (uniDigits (d :: u)).length = 1 + (uniDigits u).length := by
  have h1 : d ≠ '_' := by rintro rfl; exact hex_not_underscore hd
  simp [uniDigits, h1]; omega

/-- After the brace, on a text that begins with digits. -/
theorem unicodeEscape_skip {ds : List Char} (h : UniDigits ds) (s : List Char) :
    ∃ v', unicodeEscape ('{' :: ds ++ s) = unicodeEscapeLoop s v' (uniDigits ds).length := by
  obtain ⟨d, u, rfl, hd⟩ := h.first
  have h1 : d ≠ '_' := by rintro rfl; exact hex_not_underscore hd
  have h2 : d ≠ '}' := by rintro rfl; exact hex_not_brace hd
  obtain ⟨v', hv⟩ := unicodeEscapeLoop_skip (ds := u) (fun e he => h.chars e (List.mem_cons_of_mem _ he)) s
    (hexDigitVal d) 1
  refine ⟨v', ?_⟩
  simp only [List.cons_append]
  unfold unicodeEscape
  simp only [ne_eq, not_true_eq_false, if_false]
  rw [if_neg h1, if_neg h2, hexVal_iff.mpr ⟨hd, rfl⟩]
  simp only
  rw [hv, uniDigits_tail hd]

/-- A text in braces with at most six digits has a number. -/
theorem unicodeEscape_number {ds r : List Char} (h : UniDigits ds) (hn : (uniDigits ds).length ≤ 6) :
    unicodeEscape ('{' :: ds ++ '}' :: r) = (.ok (hexNumber (uniDigits ds)), r) := by
  obtain ⟨d, u, rfl, hd⟩ := h.first
  have h1 : d ≠ '_' := by rintro rfl; exact hex_not_underscore hd
  have h2 : d ≠ '}' := by rintro rfl; exact hex_not_brace hd
  rw [uniDigits_tail hd] at hn
  simp only [List.cons_append]
  unfold unicodeEscape
  simp only [ne_eq, not_true_eq_false, if_false]
  rw [if_neg h1, if_neg h2, hexVal_iff.mpr ⟨hd, rfl⟩]
  simp only
  rw [unicodeEscapeLoop_complete u r _ 1 (fun e he => h.chars e (List.mem_cons_of_mem _ he)) hn]
  simp [uniDigits, h1, hexNumber]

theorem unicodeEscape_number_iff {s r : List Char} {x : Nat} : unicodeEscape s = (.ok x, r) ↔
    ∃ ds, s = '{' :: ds ++ '}' :: r ∧ UniDigits ds ∧ (uniDigits ds).length ≤ 6 ∧
      x = hexNumber (uniDigits ds) := by
  constructor
  · intro h
    cases s with
    | nil => simp [unicodeEscape] at h
    | cons b s =>
      unfold unicodeEscape at h
      by_cases hb : b = '{'
      · subst hb
        simp only [ne_eq, not_true_eq_false, if_false] at h
        cases s with
        | nil => simp at h
        | cons d s =>
          simp only at h
          by_cases h1 : d = '_'
          · simp [h1] at h
          · by_cases h2 : d = '}'
            · simp [h2] at h
            · rw [if_neg h1, if_neg h2] at h
              cases hv : hexVal d with
              | none => simp [hv] at h
              | some v =>
                simp only [hv] at h
                obtain ⟨hd, rfl⟩ := hexVal_iff.mp hv
                obtain ⟨ds, rfl, g1, g2, g3⟩ := unicodeEscapeLoop_sound h
                refine ⟨d :: ds, rfl, ⟨⟨d, ds, rfl, hd⟩, ?_⟩, ?_, ?_⟩
                · intro e he
                  rcases List.mem_cons.mp he with rfl | he
                  · exact .inl hd
                  · exact g1 e he
                · rw [uniDigits_tail hd]; exact g2
                · rw [g3]; simp [uniDigits, h1, hexNumber]
      · simp [hb] at h
  · rintro ⟨ds, rfl, h1, h2, rfl⟩
    exact unicodeEscape_number h1 h2

/-- The faults of the text after `\u`. -/
theorem unicodeEscape_err {k : StrKind} {s r : List Char} {e : EscapeError}
    (h : unicodeEscape s = (.error e, r)) : ∃ p, s = p ++ r ∧ EscFault k ('u' :: p) r e := by
  cases s with
  | nil =>
    simp [unicodeEscape] at h
    obtain ⟨rfl, rfl⟩ := h
    exact ⟨[], rfl, .noBraceEnd⟩
  | cons b s =>
    unfold unicodeEscape at h
    by_cases hb : b = '{'
    · subst hb
      simp only [ne_eq, not_true_eq_false, if_false] at h
      cases s with
      | nil =>
        simp at h
        obtain ⟨rfl, rfl⟩ := h
        exact ⟨['{'], rfl, .unclosed (.inl rfl)⟩
      | cons d s =>
        simp only at h
        by_cases h1 : d = '_'
        · simp [h1] at h
          obtain ⟨rfl, rfl⟩ := h
          exact ⟨['{', d], rfl, h1 ▸ .underscore⟩
        · by_cases h2 : d = '}'
          · simp [h2] at h
            obtain ⟨rfl, rfl⟩ := h
            exact ⟨['{', d], rfl, h2 ▸ .empty⟩
          · rw [if_neg h1, if_neg h2] at h
            cases hv : hexVal d with
            | none =>
              simp [hv] at h
              obtain ⟨rfl, rfl⟩ := h
              refine ⟨['{', d], rfl, .uniChar (ds := []) (.inl rfl) (fun hx => ?_) h1 h2⟩
              rw [hexVal_iff.mpr ⟨hx, rfl⟩] at hv; simp at hv
            | some v =>
              simp only [hv] at h
              obtain ⟨hd, rfl⟩ := hexVal_iff.mp hv
              obtain ⟨ds, g1, g2⟩ := unicodeEscapeLoop_err h
              have hu : UniDigits (d :: ds) := ⟨⟨d, ds, rfl, hd⟩, fun e he => by
                rcases List.mem_cons.mp he with rfl | he
                · exact .inl hd
                · exact g1 e he⟩
              rcases g2 with ⟨rfl, rfl, rfl⟩ | ⟨c, rfl, g3, g4, g5, rfl⟩ | ⟨rfl, g3, rfl⟩
              · exact ⟨'{' :: d :: s, by simp, .unclosed (.inr hu)⟩
              · exact ⟨'{' :: d :: ds ++ [c], by simp, .uniChar (.inr hu) g3 g4 g5⟩
              · exact ⟨'{' :: d :: ds ++ ['}'], by simp, .overlong hu (by rw [uniDigits_tail hd]; exact g3)⟩
    · simp [hb] at h
      obtain ⟨rfl, rfl⟩ := h
      exact ⟨[b], rfl, .noBrace hb⟩

theorem hexEscape_err {k : StrKind} {s r : List Char} {e : EscapeError}
    (h : hexEscape s = (.error e, r)) : ∃ p, s = p ++ r ∧ EscFault k ('x' :: p) r e := by
  cases s with
  | nil =>
    simp [hexEscape] at h
    obtain ⟨rfl, rfl⟩ := h
    exact ⟨[], rfl, .hexShort (by simp) (by simp)⟩
  | cons a s =>
    unfold hexEscape at h
    cases ha : hexVal a with
    | none =>
      simp [ha] at h
      obtain ⟨rfl, rfl⟩ := h
      refine ⟨[a], rfl, .hexChar (ds := []) (by simp) (by simp) (fun hx => ?_)⟩
      rw [hexVal_iff.mpr ⟨hx, rfl⟩] at ha; simp at ha
    | some va =>
      have h1 := (hexVal_iff.mp ha).1
      simp only [ha] at h
      cases s with
      | nil =>
        simp at h
        obtain ⟨rfl, rfl⟩ := h
        exact ⟨[a], rfl, .hexShort (by simp) (by simpa using h1)⟩
      | cons b s =>
        simp only at h
        cases hb : hexVal b with
        | none =>
          simp [hb] at h
          obtain ⟨rfl, rfl⟩ := h
          refine ⟨[a, b], rfl, .hexChar (ds := [a]) (by simp) (by simpa using h1) (fun hx => ?_)⟩
          rw [hexVal_iff.mpr ⟨hx, rfl⟩] at hb; simp at hb
        | some vb => simp [hb] at h

/-! ### One unit -/

/-- How the three implementations of `Unescape` fail. -/
structure FaultLaws {U : Type} (k : StrKind) (I : Unescape U) : Prop where
  zero : k = .c → I.zeroResult = .error .nulInCStr
  char_byte : k = .byte → ∀ c : Char, 128 ≤ c.toNat → I.char2unit c = .error .nonAsciiCharInByte
  char_c : k = .c → I.char2unit '\x00' = .error .nulInCStr
  hex_str : k = .str → ∀ n, 128 ≤ n → n < 256 → I.hex2unit (UInt8.ofNat n) = .error .outOfRangeHexEscape
  hex_c : k = .c → I.hex2unit (UInt8.ofNat 0) = .error .nulInCStr
  uni_byte : k = .byte → ∀ r, I.unicode2unit r = .error .unicodeEscapeInByte
  uni_err : k ≠ .byte → ∀ e, I.unicode2unit (.error e) = .error e
  uni_c : k = .c → I.unicode2unit (.ok '\x00') = .error .nulInCStr

theorem faultLaws_str : FaultLaws .str unescapeStrImpl where
  zero h := by simp at h
  char_byte h := by simp at h
  char_c h := by simp at h
  hex_str _ n h1 h2 := by
    have : ¬ UInt8.ofNat n < 128 := by
      rw [UInt8.lt_iff_toNat_lt, ofNat_toNat_small h2]
      exact Nat.not_lt.mpr h1
    simp [unescapeStrImpl, this]
  hex_c h := by simp at h
  uni_byte h := by simp at h
  uni_err _ e := rfl
  uni_c h := by simp at h

theorem faultLaws_byte : FaultLaws .byte unescapeByteImpl where
  zero h := by simp at h
  char_byte _ c h := by
    have : ¬ c.toNat < 128 := by omega
    simp only [unescapeByteImpl, char2byte, if_neg this]
  char_c h := by simp at h
  hex_str h := by simp at h
  hex_c h := by simp at h
  uni_byte _ r := rfl
  uni_err h := absurd rfl h
  uni_c h := by simp at h

theorem faultLaws_c : FaultLaws .c unescapeCImpl where
  zero _ := rfl
  char_byte h := by simp at h
  char_c _ := rfl
  hex_str h := by simp at h
  hex_c _ := rfl
  uni_byte h := by simp at h
  uni_err _ e := rfl
  uni_c _ := rfl

section
variable {U : Type} {k : StrKind} {I : Unescape U} {bytes : U → List UInt8}

theorem simpleEscape_none {c : Char} (h : simpleEscape c = none) :
    c ∉ ['n', 'r', 't', '\\', '\'', '"'] := by
  intro hm
  obtain ⟨b, hb⟩ := simple_mem.mp hm
  rw [simpleEscape_iff.mpr hb] at h; simp at h

theorem hexNumber_lt {a b : Char} (ha : HexDigit a) (hb : HexDigit b) : hexNumber [a, b] < 256 := by
  rw [hexNumber_two]
  have := hexDigitVal_lt ha
  have := hexDigitVal_lt hb
  omega

theorem unicodeChar_cases (v : Nat) :
    (0x10FFFF < v ∧ unicodeChar v = .error .outOfRangeUnicodeEscape) ∨
    (0xD800 ≤ v ∧ v ≤ 0xDFFF ∧ unicodeChar v = .error .loneSurrogateUnicodeEscape) ∨
    (∃ c : Char, c.toNat = v ∧ unicodeChar v = .ok c) := by
  unfold unicodeChar
  by_cases h1 : v > 0x10FFFF
  · exact .inl ⟨h1, by rw [if_pos h1]⟩
  · rw [if_neg h1]
    cases hf : charFromU32 v with
    | some c => exact .inr (.inr ⟨c, charFromU32_iff.mp hf, rfl⟩)
    | none =>
      right; left
      unfold charFromU32 at hf
      split at hf
      · simp at hf
      · rename_i hv
        have : ¬ (v < 0xD800 ∨ 0xDFFF < v ∧ v < 0x110000) := hv
        refine ⟨by omega, by omega, rfl⟩

theorem unescape1_err (L : LawfulUnescape k I bytes) (F : FaultLaws k I) {s r : List Char} {e : EscapeError}
    (h : unescape1 I s = (.error e, r)) : ∃ p, s = p ++ r ∧ EscFault k p r e := by
  cases s with
  | nil =>
    simp [unescape1] at h
    obtain ⟨rfl, rfl⟩ := h
    exact ⟨[], rfl, .lone⟩
  | cons c s =>
    unfold unescape1 at h
    simp only at h
    by_cases h0 : c = '0'
    · subst h0
      simp only [if_true, Prod.mk.injEq] at h
      obtain ⟨h, rfl⟩ := h
      have hk : k = .c := by
        apply Classical.byContradiction
        intro hk
        obtain ⟨u, hu⟩ := L.zero hk
        rw [hu] at h; simp at h
      rw [F.zero hk] at h
      simp at h; subst h
      exact ⟨['0'], rfl, .zero hk⟩
    · rw [if_neg h0] at h
      cases hs : simpleEscape c with
      | some b => simp [hs] at h
      | none =>
        simp only [hs] at h
        by_cases hx : c = 'x'
        · rw [if_pos hx] at h
          subst hx
          split at h
          · rename_i b r' he
            obtain ⟨a, d, rfl, ha, hd, rfl⟩ := hexEscape_sound he
            simp only [Prod.mk.injEq] at h
            obtain ⟨h, rfl⟩ := h
            have hlt := hexNumber_lt ha hd
            by_cases h1 : k = .str ∧ 128 ≤ hexNumber [a, d]
            · rw [F.hex_str h1.1 _ h1.2 hlt] at h
              simp at h; subst h
              exact ⟨['x', a, d], rfl, .hexRange h1.1 ha hd h1.2⟩
            · by_cases h2 : k = .c ∧ hexNumber [a, d] = 0
              · rw [h2.2, F.hex_c h2.1] at h
                simp at h; subst h
                exact ⟨['x', a, d], rfl, .hexZero h2.1 ha hd h2.2⟩
              · obtain ⟨u, hu⟩ := L.hex _ hlt (fun hk => by
                    have : ¬ 128 ≤ hexNumber [a, d] := fun hh => h1 ⟨hk, hh⟩
                    omega) (fun hk hh => h2 ⟨hk, hh⟩)
                rw [hu] at h; simp at h
          · rename_i e' r' he
            simp only [Prod.mk.injEq, Except.error.injEq] at h
            obtain ⟨rfl, rfl⟩ := h
            obtain ⟨p, rfl, hp⟩ := hexEscape_err (k := k) he
            exact ⟨'x' :: p, rfl, hp⟩
        · rw [if_neg hx] at h
          by_cases hu : c = 'u'
          · rw [if_pos hu] at h
            subst hu
            split at h
            · rename_i v r' he
              obtain ⟨ds, rfl, g1, g2, rfl⟩ := unicodeEscape_number_iff.mp he
              simp only [Prod.mk.injEq] at h
              obtain ⟨h, rfl⟩ := h
              refine ⟨'u' :: '{' :: ds ++ ['}'], by simp, ?_⟩
              by_cases hk : k = .byte
              · rw [F.uni_byte hk] at h
                simp at h; subst h
                exact .uniByte hk g1 g2
              · rcases unicodeChar_cases (hexNumber (uniDigits ds)) with ⟨k1, k2⟩ | ⟨k1, k2, k3⟩ | ⟨c, k1, k2⟩
                · rw [k2, F.uni_err hk] at h
                  simp at h; subst h
                  exact .uniRange hk g1 g2 k1
                · rw [k3, F.uni_err hk] at h
                  simp at h; subst h
                  exact .surrogate hk g1 g2 k1 k2
                · rw [k2] at h
                  by_cases hz : k = .c ∧ c = '\x00'
                  · obtain ⟨hz, rfl⟩ := hz
                    rw [F.uni_c hz] at h
                    simp at h; subst h
                    exact .uniZero hz g1 g2 k1.symm
                  · obtain ⟨u, hu⟩ := L.uni c hk (fun h1 h2 => hz ⟨h1, h2⟩)
                    rw [hu] at h; simp at h
            · rename_i e' r' he
              simp only [Prod.mk.injEq, Except.error.injEq] at h
              obtain ⟨rfl, rfl⟩ := h
              obtain ⟨p, rfl, hp⟩ := unicodeEscape_err (k := k) he
              exact ⟨'u' :: p, rfl, hp⟩
          · rw [if_neg hu] at h
            simp at h
            obtain ⟨rfl, rfl⟩ := h
            refine ⟨[c], rfl, .unknown ?_⟩
            have := simpleEscape_none hs
            simp at this ⊢
            simp [h0, hx, hu, this]

theorem unescape1_fault (F : FaultLaws k I) {p r : List Char} {e : EscapeError} (h : EscFault k p r e) :
    unescape1 I (p ++ r) = (.error e, r) := by
  have hx : ∀ s, unescape1 I ('x' :: s) = match hexEscape s with
      | (.ok b, rest) => (I.hex2unit b, rest)
      | (.error e, rest) => (.error e, rest) := fun s => by
    rw [unescape1, if_neg (by decide)]; rfl
  have hu : ∀ s, unescape1 I ('u' :: s) = match unicodeEscape s with
      | (.ok v, rest) => (I.unicode2unit (unicodeChar v), rest)
      | (.error e, rest) => (.error e, rest) := fun s => by
    rw [unescape1, if_neg (by decide)]; rfl
  have num : ∀ {ds r}, UniDigits ds → (uniDigits ds).length ≤ 6 →
      unescape1 I ('u' :: '{' :: ds ++ ['}'] ++ r) =
        (I.unicode2unit (unicodeChar (hexNumber (uniDigits ds))), r) := by
    intro ds r h1 h2
    have e : 'u' :: '{' :: ds ++ ['}'] ++ r = 'u' :: ('{' :: ds ++ '}' :: r) := by simp
    rw [e, hu, unicodeEscape_number h1 h2]
  cases h with
  | lone => rfl
  | @unknown c r hc =>
    simp at hc
    have hs : simpleEscape c = none := by
      cases hs : simpleEscape c with
      | none => rfl
      | some b =>
        have := simple_mem.mpr ⟨b, simpleEscape_iff.mp hs⟩
        simp at this
        rcases this with h | h | h | h | h | h <;> simp [h] at hc
    simp [unescape1, hc.1, hs, hc.2.1, hc.2.2.1]
  | zero hk => simp [unescape1, F.zero hk]
  | @hexShort ds h1 h2 =>
    rw [List.cons_append, hx]
    match ds, h1, h2 with
    | [], _, _ => rfl
    | [a], _, h2 =>
      simp only [List.mem_singleton, forall_eq] at h2
      simp [hexEscape, hexVal_iff.mpr ⟨h2, rfl⟩]
  | @hexChar ds c r h1 h2 h3 =>
    rw [List.cons_append, List.cons_append, hx]
    match ds, h1, h2 with
    | [], _, _ => simp [hexEscape, hexVal_none.mpr h3]
    | [a], _, h2 =>
      simp only [List.mem_singleton, forall_eq] at h2
      simp [hexEscape, hexVal_iff.mpr ⟨h2, rfl⟩, hexVal_none.mpr h3]
  | @hexRange a b r hk ha hb hn =>
    show unescape1 I ('x' :: a :: b :: r) = _
    rw [hx, hexEscape_complete ha hb]
    simp only [F.hex_str hk _ hn (hexNumber_lt ha hb)]
  | @hexZero a b r hk ha hb hn =>
    show unescape1 I ('x' :: a :: b :: r) = _
    rw [hx, hexEscape_complete ha hb]
    simp only [hn, F.hex_c hk]
  | noBraceEnd => rw [List.append_nil, hu]; rfl
  | @noBrace c r hc =>
    show unescape1 I ('u' :: c :: r) = _
    rw [hu]
    simp [unicodeEscape, hc]
  | @empty r => show unescape1 I ('u' :: '{' :: '}' :: r) = _; rw [hu]; simp [unicodeEscape]
  | @underscore r => show unescape1 I ('u' :: '{' :: '_' :: r) = _; rw [hu]; simp [unicodeEscape]
  | @unclosed ds hds =>
    rw [List.append_nil, hu]
    rcases hds with rfl | hds
    · rfl
    · obtain ⟨v, hv⟩ := unicodeEscape_skip hds []
      rw [List.append_nil] at hv
      rw [hv]; rfl
  | @uniChar ds c r hds h1 h2 h3 =>
    have e : 'u' :: '{' :: ds ++ [c] ++ r = 'u' :: ('{' :: ds ++ c :: r) := by simp
    rw [e, hu]
    rcases hds with rfl | hds
    · simp [unicodeEscape, h2, h3, hexVal_none.mpr h1]
    · obtain ⟨v, hv⟩ := unicodeEscape_skip hds (c :: r)
      rw [hv]
      simp [unicodeEscapeLoop, h2, h3, hexVal_none.mpr h1]
  | @overlong ds r hds hn =>
    have e : 'u' :: '{' :: ds ++ ['}'] ++ r = 'u' :: ('{' :: ds ++ '}' :: r) := by simp
    rw [e, hu]
    obtain ⟨v, hv⟩ := unicodeEscape_skip hds ('}' :: r)
    rw [hv]
    have : (uniDigits ds).length > 6 := hn
    simp [unicodeEscapeLoop, this]
  | uniByte hk h1 h2 => rw [num h1 h2, F.uni_byte hk]
  | @uniRange ds r hk h1 h2 h3 =>
    rw [num h1 h2]
    rcases unicodeChar_cases (hexNumber (uniDigits ds)) with ⟨k1, k2⟩ | ⟨k1, k2, k3⟩ | ⟨c, k1, k2⟩
    · rw [k2, F.uni_err hk]
    · omega
    · exfalso
      have hv : c.toNat.isValidChar := c.valid
      rcases hv with hv | ⟨_, hv⟩ <;> omega
  | @surrogate ds r hk h1 h2 h3 h4 =>
    rw [num h1 h2]
    rcases unicodeChar_cases (hexNumber (uniDigits ds)) with ⟨k1, k2⟩ | ⟨k1, k2, k3⟩ | ⟨c, k1, k2⟩
    · omega
    · rw [k3, F.uni_err hk]
    · exfalso
      have hv : c.toNat.isValidChar := c.valid
      rcases hv with hv | ⟨_, hv⟩ <;> omega
  | @uniZero ds r hk h1 h2 h3 =>
    rw [num h1 h2, h3]
    have : unicodeChar 0 = .ok '\x00' := rfl
    rw [this, F.uni_c hk]

theorem charFault_iff (L : LawfulUnescape k I bytes) (F : FaultLaws k I) {c : Char} {e : EscapeError} :
    I.char2unit c = .error e ↔ CharFault k c e := by
  constructor
  · intro h
    have hno : ¬ CharOk k c := by
      intro hc
      obtain ⟨u, hu⟩ := L.char c hc
      rw [hu] at h; simp at h
    cases k with
    | str => simp [CharOk] at hno
    | byte =>
      have hc : 128 ≤ c.toNat := Nat.not_lt.mp hno
      rw [F.char_byte rfl c hc] at h
      simp at h; subst h
      exact .nonAscii rfl hc
    | c =>
      have hc : c = '\x00' := Classical.not_not.mp hno
      subst hc
      rw [F.char_c rfl] at h
      simp at h; subst h
      exact .nul rfl
  · intro h
    cases h with
    | nonAscii hk hc => exact F.char_byte hk _ hc
    | nul hk => exact F.char_c hk

theorem unit1_err (L : LawfulUnescape k I bytes) (F : FaultLaws k I) {c : Char} {s r : List Char}
    {e : EscapeError} (h : unit1 I c s = (.error e, r)) : ∃ p, s = p ++ r ∧ Fault k (c :: p) r e := by
  unfold unit1 at h
  split at h
  · rename_i hc; subst hc
    obtain ⟨p, hp, hf⟩ := unescape1_err L F h
    exact ⟨p, hp, .esc hf⟩
  · split at h
    · rename_i hc; subst hc
      simp at h; obtain ⟨rfl, rfl⟩ := h
      exact ⟨[], rfl, .quote⟩
    · split at h
      · rename_i hc; subst hc
        simp at h; obtain ⟨rfl, rfl⟩ := h
        exact ⟨[], rfl, .cr⟩
      · simp only [Prod.mk.injEq] at h
        obtain ⟨h, rfl⟩ := h
        exact ⟨[], rfl, .char ((charFault_iff L F).mp h)⟩

theorem charFault_ne {c d : Char} {e : EscapeError} (h : CharFault k c e)
    (hd : d.toNat < 128 ∧ d ≠ '\x00') : c ≠ d := by
  rintro rfl
  cases h with
  | nonAscii _ h => omega
  | nul => exact hd.2 rfl

theorem unit1_fault (L : LawfulUnescape k I bytes) (F : FaultLaws k I) {p r : List Char} {e : EscapeError}
    (h : Fault k p r e) : ∃ c q, p = c :: q ∧ unit1 I c (q ++ r) = (.error e, r) := by
  cases h with
  | quote => exact ⟨_, [], rfl, by simp [unit1]⟩
  | cr => exact ⟨_, [], rfl, by simp [unit1]⟩
  | @char c r e hc =>
    refine ⟨c, [], rfl, ?_⟩
    have h1 := charFault_ne hc (d := '\\') (by decide)
    have h2 := charFault_ne hc (d := '"') (by decide)
    have h3 := charFault_ne hc (d := '\r') (by decide)
    simp [unit1, h1, h2, h3, (charFault_iff L F).mpr hc]
  | @esc p r e hp => exact ⟨'\\', p, rfl, by simp [unit1, unescape1_fault F hp]⟩

/-! ### The whole text -/

/-- A call as a report. -/
def Call.report (bytes : U → List UInt8) (c : Call U) : Report :=
  (c.start, c.stop, match c.res with
    | .ok u => .ok (bytes u)
    | .error e => .error e)

theorem skip_report {w t : List Char} {n : Nat} (h1 : ∀ c ∈ w, isSkipped c = true)
    (h2 : ∀ c t', t = c :: t' → isSkipped c = false) :
    (skipAsciiWhitespace (U := U) (w ++ t) n).1.map (Call.report bytes) = contWarnings n w t := by
  have hsp : (w ++ t).takeWhile isSkipped = w ∧ (w ++ t).dropWhile isSkipped = t := by
    have e := takeWhile_dropWhile isSkipped (w ++ t)
    exact (split_unique (p := isSkipped) e.symm
      (fun c hc => List.all_eq_true.mp (List.all_takeWhile (p := isSkipped)) c hc)
      (fun c r hr => dropWhile_head hr) h1 h2)
  have hsz : '\\'.utf8Size = 1 ∧ '\n'.utf8Size = 1 := ⟨rfl, rfl⟩
  have e1 : n + strLen ('\\' :: '\n' :: w) = n + 2 + strLen w := by
    simp only [strLen_cons]; omega
  have e2 : ∀ c, n + strLen ('\\' :: '\n' :: w ++ [c]) = n + 2 + strLen w + c.utf8Size := by
    intro c
    simp only [strLen_append, strLen_cons, strLen_nil]; omega
  unfold skipAsciiWhitespace contWarnings
  simp only [hsp, List.map_append, e1]
  congr 1
  · by_cases hn : '\n' ∈ w
    · simp [hn, Call.report]
    · simp [hn]
  · cases t with
    | nil => rfl
    | cons c t =>
      simp only [e2]
      split <;> simp [Call.report]

theorem runs_reports (L : LawfulUnescape k I bytes) (F : FaultLaws k I) {n : Nat} {s : List Char}
    {cs : List (Call U)} (h : Runs I n s cs) : Reports k n s (cs.map (Call.report bytes)) := by
  induction h with
  | nil => exact .nil
  | @cont n w t cs h1 h2 _ ih =>
    rw [List.map_append, skip_report h1 h2]
    refine .cont (fun c hc => isSkipped_iff.mp (h1 c hc))
      (fun c t' ht hcs => by have := h2 c t' ht; rw [isSkipped_iff.mpr hcs] at this; simp at this) ?_
    have e1 : n + strLen ('\\' :: '\n' :: w) = n + 2 + strLen w := by
      have hsz : '\\'.utf8Size = 1 ∧ '\n'.utf8Size = 1 := ⟨rfl, rfl⟩
      simp only [strLen_cons]; omega
    rw [e1]; exact ih
  | @unit n c p t res cs h1 h2 _ ih =>
    rw [List.map_cons]
    cases res with
    | ok u =>
      obtain ⟨p', e, hp⟩ := unit1_sound L h2
      rw [← List.append_cancel_right e] at hp
      exact .piece hp ih
    | error e =>
      obtain ⟨p', e', hp⟩ := unit1_err L F h2
      rw [← List.append_cancel_right e'] at hp
      refine .fault hp ?_ ih
      rintro ⟨r, hr⟩
      simp only [List.cons_append, List.nil_append, List.cons.injEq] at hr
      exact h1 ⟨hr.1.symm, startsWithChar_nl.mpr ⟨r, hr.2.symm⟩⟩

theorem fault_ne_nil {p r : List Char} {e : EscapeError} (h : Fault k p r e) : p ≠ [] := by
  cases h <;> simp

/-- The specification admits one sequence of reports. -/
theorem reports_unique (L : LawfulUnescape k I bytes) (F : FaultLaws k I) {n : Nat} {s : List Char}
    {a b : List Report} (ha : Reports k n s a) (hb : Reports k n s b) : a = b := by
  have piece_fault : ∀ {p t m q u e}, p ++ t = q ++ u → Piece k p m → Fault k q u e → False := by
    intro p t m q u e h hp hq
    obtain ⟨c, q', rfl, hc⟩ := unit1_fault L F hq
    cases p with
    | nil => exact piece_ne_nil hp rfl
    | cons d p =>
      simp only [List.cons_append, List.cons.injEq] at h
      obtain ⟨rfl, h⟩ := h
      obtain ⟨u', hu, -⟩ := unit1_complete L hp t
      rw [h, hc] at hu; simp at hu
  have piece_nl : ∀ {p t m r}, p ++ t = '\\' :: '\n' :: r → Piece k p m → False := by
    intro p t m r h hp
    cases p with
    | nil => exact piece_ne_nil hp rfl
    | cons d p =>
      simp only [List.cons_append, List.cons.injEq] at h
      obtain ⟨rfl, h⟩ := h
      obtain ⟨d, q, rfl, hd⟩ := piece_not_cont hp
      simp only [List.cons_append, List.cons.injEq] at h
      exact hd h.1
  induction ha generalizing b with
  | nil =>
    generalize hs : ([] : List Char) = s at hb
    cases hb with
    | nil => rfl
    | piece hp => simp at hs; exact absurd hs.1 (piece_ne_nil hp)
    | fault hp => simp at hs; exact absurd hs.1 (fault_ne_nil hp)
    | cont => simp at hs
  | @piece n p t m rs hp _ ih =>
    generalize hs : p ++ t = s at hb
    cases hb with
    | nil => simp at hs; exact absurd hs.1 (piece_ne_nil hp)
    | @piece _ q t' m' rs' hq hb' =>
      cases p with
      | nil => exact absurd rfl (piece_ne_nil hp)
      | cons c p =>
        cases q with
        | nil => exact absurd rfl (piece_ne_nil hq)
        | cons d q =>
          simp only [List.cons_append, List.cons.injEq] at hs
          obtain ⟨rfl, hs⟩ := hs
          obtain ⟨u1, h1, g1⟩ := unit1_complete L hp t
          obtain ⟨u2, h2, g2⟩ := unit1_complete L hq t'
          rw [hs, h2] at h1
          simp at h1
          obtain ⟨rfl, rfl⟩ := h1
          rw [List.append_cancel_right hs] at ih ⊢
          rw [ih hb', ← g1, ← g2]
    | fault hq => exact absurd hq (fun hq => piece_fault hs hp hq)
    | cont => exact absurd hp (fun hp => piece_nl (by simpa using hs) hp)
  | @fault n p t e rs hp hn _ ih =>
    generalize hs : p ++ t = s at hb
    cases hb with
    | nil => simp at hs; exact absurd hs.1 (fault_ne_nil hp)
    | piece hq => exact absurd hq (fun hq => piece_fault hs.symm hq hp)
    | @fault _ q t' e' rs' hq _ hb' =>
      obtain ⟨c, p', rfl, h1⟩ := unit1_fault L F hp
      obtain ⟨d, q', rfl, h2⟩ := unit1_fault L F hq
      simp only [List.cons_append, List.cons.injEq] at hs
      obtain ⟨rfl, hs⟩ := hs
      rw [hs, h2] at h1
      simp at h1
      obtain ⟨rfl, rfl⟩ := h1
      rw [List.append_cancel_right hs] at ih ⊢
      rw [ih hb']
    | cont => exact absurd ⟨_, by rw [hs]; simp; rfl⟩ hn
  | @cont n w t rs h1 h2 _ ih =>
    generalize hs : '\\' :: '\n' :: w ++ t = s at hb
    cases hb with
    | nil => simp at hs
    | piece hq => exact absurd hq (fun hq => piece_nl (by simpa using hs.symm) hq)
    | fault hq hn => exact absurd ⟨w ++ t, by rw [← hs]; simp⟩ hn
    | @cont _ w' t' rs' g1 g2 hb' =>
      simp only [List.cons_append, List.cons.injEq, true_and] at hs
      have := split_unique (p := isSkipped) hs (fun c hc => isSkipped_iff.mpr (h1 c hc))
        (fun c r hr => by
          cases hsk : isSkipped c with
          | false => rfl
          | true => exact absurd (isSkipped_iff.mp hsk) (h2 c r hr))
        (fun c hc => isSkipped_iff.mpr (g1 c hc))
        (fun c r hr => by
          cases hsk : isSkipped c with
          | false => rfl
          | true => exact absurd (isSkipped_iff.mp hsk) (g2 c r hr))
      obtain ⟨rfl, rfl⟩ := this
      rw [ih hb']

/-- The calls of the unescaper are the reports. -/
theorem unescape_reports {ε : Type} (L : LawfulUnescape k I bytes) (F : FaultLaws k I) (s : List Char) :
    ∃ cs, (unescape I s : Res ε _) = .ok cs ∧
      ∀ rs, Reports k 0 s rs ↔ rs = cs.map (Call.report bytes) := by
  obtain ⟨cs, h1, h2⟩ := unescape_runs (ε := ε) I s
  refine ⟨cs, h1, fun rs => ⟨fun h => reports_unique L F h (runs_reports L F h2), ?_⟩⟩
  rintro rfl
  exact runs_reports L F h2


/-! ### Raw literals -/

/-- How the three implementations of `CheckRaw` convert characters. -/
def RawLaw {R : Type} (k : StrKind) (raw : Char → UnitRes R) (bytes : R → List UInt8) : Prop :=
  ∀ c, (CharOk k c ∧ ∃ u, raw c = .ok u ∧ bytes u = String.utf8EncodeChar c) ∨
    ∃ e, raw c = .error e ∧ CharFault k c e

theorem rawLaw_str : RawLaw .str char2rawStr String.utf8EncodeChar :=
  fun c => .inl ⟨trivial, c, rfl, rfl⟩

theorem rawLaw_byte : RawLaw .byte char2rawByte (fun b => [b]) := by
  intro c
  by_cases h : c.toNat < 128
  · refine .inl ⟨h, B c, ?_, (encode_ascii h).symm⟩
    simp only [char2rawByte, char2byte, if_pos h]
    rfl
  · exact .inr ⟨.nonAsciiCharInByte, by simp only [char2rawByte, char2byte, if_neg h],
      .nonAscii rfl (Nat.not_lt.mp h)⟩

theorem rawLaw_c : RawLaw .c char2rawC String.utf8EncodeChar := by
  intro c
  by_cases h : c = '\x00'
  · subst h; exact .inr ⟨_, rfl, .nul rfl⟩
  · exact .inl ⟨h, c, by simp [char2rawC, h], rfl⟩

theorem checkRawLoop_reports {ε R : Type} {raw : Char → UnitRes R} {bytes : R → List UInt8}
    (L : RawLaw k raw bytes) (len : Nat) (s : List Char) (hl : strLen s ≤ len) :
    ∃ cs, (checkRawLoop raw len s : Res ε _) = .ok cs ∧
      RawReports k (len - strLen s) s (cs.map (Call.report bytes)) := by
  induction s with
  | nil => exact ⟨[], rfl, .nil⟩
  | cons c s ih =>
    rw [strLen_cons] at hl
    obtain ⟨cs, h1, h2⟩ := ih (by omega)
    refine ⟨⟨len - strLen s - c.utf8Size, len - strLen s,
      if c = '\r' then .error .bareCarriageReturnInRawString else raw c⟩ :: cs, ?_, ?_⟩
    · simp only [checkRawLoop, subUsize_ok (show strLen s ≤ len by omega), Res.ok_bind,
        subUsize_ok (show c.utf8Size ≤ len - strLen s by omega), h1]
    · have e2 : len - strLen s = len - strLen (c :: s) + c.utf8Size := by rw [strLen_cons]; omega
      rw [List.map_cons]
      simp only [Call.report, e2, Nat.add_sub_cancel]
      refine .char ?_ (by rw [← e2]; exact h2)
      by_cases hc : c = '\r'
      · subst hc; exact .cr
      · rw [if_neg hc]
        rcases L c with ⟨g1, u, g2, g3⟩ | ⟨e, g2, g3⟩
        · rw [g2]; simp only [g3]; exact .char hc g1
        · rw [g2]; exact .fault g3

theorem rawChar_unique {c : Char} {a b : Except EscapeError (List UInt8)} (ha : RawChar k c a)
    (hb : RawChar k c b) : a = b := by
  have hf : ∀ {e}, CharFault k c e → ¬ CharOk k c := by
    intro e h
    cases h with
    | nonAscii hk h => subst hk; exact Nat.not_lt.mpr h
    | nul hk => subst hk; exact fun h => h rfl
  cases ha with
  | char h1 h2 =>
    cases hb with
    | char => rfl
    | cr => exact absurd rfl h1
    | fault h => exact absurd h2 (hf h)
  | cr =>
    cases hb with
    | char h1 => exact absurd rfl h1
    | cr => rfl
    | fault h => exact absurd rfl (charFault_ne h (by decide))
  | fault h =>
    cases hb with
    | char _ h2 => exact absurd h2 (hf h)
    | cr => exact absurd rfl (charFault_ne h (by decide))
    | fault h' =>
      cases h with
      | nonAscii hk _ =>
        cases h' with
        | nonAscii => rfl
        | nul hk' => simp [hk] at hk'
      | nul hk =>
        cases h' with
        | nonAscii hk' => simp [hk] at hk'
        | nul => rfl

theorem rawReports_unique {n : Nat} {s : List Char} {a b : List Report} (ha : RawReports k n s a)
    (hb : RawReports k n s b) : a = b := by
  induction ha generalizing b with
  | nil => cases hb; rfl
  | char h1 _ ih =>
    cases hb with
    | char h2 hb => rw [rawChar_unique h1 h2, ih hb]

/-- The calls of `check_raw` are the reports. -/
theorem checkRaw_reports {ε R : Type} {raw : Char → UnitRes R} {bytes : R → List UInt8}
    (L : RawLaw k raw bytes) (s : List Char) :
    ∃ cs, (checkRaw raw s : Res ε _) = .ok cs ∧
      ∀ rs, RawReports k 0 s rs ↔ rs = cs.map (Call.report bytes) := by
  obtain ⟨cs, h1, h2⟩ := checkRawLoop_reports (ε := ε) L (strLen s) s (Nat.le_refl _)
  rw [Nat.sub_self] at h2
  refine ⟨cs, h1, fun rs => ⟨fun h => rawReports_unique h h2, ?_⟩⟩
  rintro rfl
  exact h2

/-! ### Single quotes -/

theorem unescapeSingle_err (L : LawfulUnescape k I bytes) (F : FaultLaws k I) {s r : List Char}
    {e : EscapeError} (h : unescapeSingle I s = (.error e, r)) : ∃ p, s = p ++ r ∧ UnitFault k p r e := by
  cases s with
  | nil =>
    simp [unescapeSingle] at h
    obtain ⟨rfl, rfl⟩ := h
    exact ⟨[], rfl, .none⟩
  | cons c s =>
    simp only [unescapeSingle] at h
    by_cases h1 : c = '\\'
    · rw [if_pos h1] at h
      subst h1
      generalize hx : unescape1 I s = x at h
      obtain ⟨res, r'⟩ := x
      cases res with
      | error e' =>
        simp at h
        obtain ⟨rfl, rfl⟩ := h
        obtain ⟨p, rfl, hp⟩ := unescape1_err L F hx
        exact ⟨_, rfl, .esc hp⟩
      | ok u =>
        cases r' with
        | nil => simp at h
        | cons d r' =>
          simp at h
          obtain ⟨rfl, rfl⟩ := h
          obtain ⟨p, rfl, hp⟩ := unescape1_sound L hx
          exact ⟨'\\' :: p ++ [d], by simp, .more (.esc hp)⟩
    · rw [if_neg h1] at h
      by_cases h2 : c = '\n' ∨ c = '\t' ∨ c = '\''
      · rw [if_pos h2] at h
        simp at h
        obtain ⟨rfl, rfl⟩ := h
        exact ⟨[c], rfl, .bare (by simpa using h2)⟩
      · rw [if_neg h2] at h
        by_cases h3 : c = '\r'
        · rw [if_pos h3] at h
          simp at h
          obtain ⟨rfl, rfl⟩ := h
          exact ⟨[c], rfl, h3 ▸ .cr⟩
        · rw [if_neg h3] at h
          generalize hx : I.char2unit c = x at h
          cases x with
          | error e' =>
            simp at h
            obtain ⟨rfl, rfl⟩ := h
            exact ⟨[c], rfl, .char ((charFault_iff L F).mp hx)⟩
          | ok u =>
            cases s with
            | nil => simp at h
            | cons d s =>
              simp at h
              obtain ⟨rfl, rfl⟩ := h
              refine ⟨[c] ++ [d], rfl, .more (.char ?_ (L.char_ok c u hx).1)⟩
              simp only [not_or] at h2
              simp [h1, h2, h3]

theorem unescapeSingle_fault (L : LawfulUnescape k I bytes) (F : FaultLaws k I) {p r : List Char}
    {e : EscapeError} (h : UnitFault k p r e) : unescapeSingle I (p ++ r) = (.error e, r) := by
  cases h with
  | none => rfl
  | @bare c r hc =>
    simp only [List.mem_cons, List.not_mem_nil, or_false] at hc
    rcases hc with rfl | rfl | rfl <;> simp [unescapeSingle]
  | cr => simp [unescapeSingle]
  | @char c r e hc =>
    have h1 := charFault_ne hc (d := '\\') (by decide)
    have h2 := charFault_ne hc (d := '\n') (by decide)
    have h3 := charFault_ne hc (d := '\r') (by decide)
    have h4 := charFault_ne hc (d := '\t') (by decide)
    have h5 := charFault_ne hc (d := '\'') (by decide)
    simp [unescapeSingle, h1, h2, h3, h4, h5, (charFault_iff L F).mpr hc]
  | @esc p r e hp => simp [unescapeSingle, unescape1_fault F hp]
  | @more x m c r hx =>
    cases hx with
    | @char d h1 h2 =>
      obtain ⟨u, hu⟩ := L.char d h2
      simp at h1
      simp [unescapeSingle, h1, hu]
    | @esc p m hp =>
      obtain ⟨u, h1, -⟩ := unescape1_complete L hp (c :: r)
      simp [unescapeSingle, h1]

theorem unitFault_iff (L : LawfulUnescape k I bytes) (F : FaultLaws k I) (s : List Char) (e : EscapeError) :
    (unescapeSingle I s).1 = .error e ↔ ∃ p r, s = p ++ r ∧ UnitFault k p r e := by
  constructor
  · intro h
    obtain ⟨p, h1, h2⟩ := unescapeSingle_err L F (s := s) (r := (unescapeSingle I s).2) (e := e) (by
      rw [← h])
    exact ⟨p, _, h1, h2⟩
  · rintro ⟨p, r, rfl, h⟩
    rw [unescapeSingle_fault L F h]

theorem checkSingle_iff {ε : Type} (L : LawfulUnescape k I bytes) (F : FaultLaws k I) (s : List Char)
    (es : List (Nat × Nat × EscapeError)) :
    (checkSingle I s : Res ε _) = .ok es ↔ UnitErrors k s es := by
  constructor
  · intro h
    generalize hx : unescapeSingle I s = x at h
    obtain ⟨res, r⟩ := x
    cases res with
    | ok u =>
      simp [checkSingle, hx] at h
      subst h
      exact .ok (unescapeSingle_sound L (u := u) (by rw [hx]))
    | error e =>
      obtain ⟨p, rfl, hp⟩ := unescapeSingle_err L F hx
      have hle : strLen r ≤ strLen (p ++ r) := by rw [strLen_append]; omega
      simp only [checkSingle, hx, subUsize_ok hle, Res.ok_bind, Res.ok.injEq] at h
      subst h
      have : strLen (p ++ r) - strLen r = strLen p := by rw [strLen_append]; omega
      rw [this]
      exact .error hp
  · intro h
    cases h with
    | ok hm =>
      obtain ⟨u, hu, -⟩ := unescapeSingle_complete L hm
      generalize hx : unescapeSingle I s = x at hu
      obtain ⟨res, r⟩ := x
      simp only at hu
      subst hu
      simp [checkSingle, hx]
    | @error p r e hp =>
      have hle : strLen r ≤ strLen (p ++ r) := by rw [strLen_append]; omega
      have : strLen (p ++ r) - strLen r = strLen p := by rw [strLen_append]; omega
      simp only [checkSingle, unescapeSingle_fault L F hp, subUsize_ok hle, Res.ok_bind, this]

/-! ### Errors among reports -/

theorem errorCalls_report (cs : List (Call U)) :
    errorCalls cs = errorsOf (cs.map (Call.report bytes)) := by
  unfold errorCalls errorsOf
  rw [List.filterMap_map]
  congr 1
  funext c
  simp only [Function.comp, Call.report]
  cases c.res <;> rfl

theorem collect_reports {cs : List (Call U)} {e : EscapeError} :
    collectCalls cs = .error e ↔
      ((errorsOf (cs.map (Call.report bytes))).filter (fun x => x.2.2.isFatal)).getLast?.map (·.2.2) = some e := by
  have key : cs.filterMap (fun c => match c.res with
      | .error e => if e.isFatal then some e else none
      | .ok _ => none) =
      ((errorsOf (cs.map (Call.report bytes))).filter (fun x => x.2.2.isFatal)).map (·.2.2) := by
    rw [← errorCalls_report]
    unfold errorCalls
    induction cs with
    | nil => rfl
    | cons c cs ih =>
      rw [List.filterMap_cons, List.filterMap_cons]
      cases hc : c.res with
      | ok u => simpa using ih
      | error x =>
        cases hf : x.isFatal with
        | true => simp [hf, ih]
        | false => simp [hf, ih]
  unfold collectCalls
  dsimp only
  erw [key]
  rw [List.getLast?_map]
  cases ((errorsOf (cs.map (Call.report bytes))).filter (fun x => x.2.2.isFatal)).getLast? <;> simp

end

/-- What an accessor returns on a text that is not a literal of its kind, and on a literal whose text has
no meaning. -/
theorem valueOf_err {U V : Type} {k : StrKind} {I : Unescape U} {bytes : U → List UInt8}
    (L : LawfulUnescape k I bytes) (F : FaultLaws k I) (cooked : List U → V) (raw : List Char → V)
    (repr : List Char) :
    (∀ e, valueOf I (kindPrefix k ++ ['"']) (kindPrefix k ++ ['r']) cooked raw repr =
        .err (.failedToUnescape e) ↔
      ∃ t rs, repr = cookedText k t ∧ Reports k 0 t rs ∧
        ((errorsOf rs).filter (fun x => x.2.2.isFatal)).getLast?.map (·.2.2) = some e) ∧
    (valueOf I (kindPrefix k ++ ['"']) (kindPrefix k ++ ['r']) cooked raw repr =
        .err .invalidLiteralKind ↔
      (∀ t, repr ≠ cookedText k t) ∧ ∀ n v, repr ≠ rawText k n v) := by
  have hq : '"'.utf8Size = 1 := rfl
  by_cases hc : ∃ t, repr = cookedText k t
  · obtain ⟨t, ht⟩ := hc
    have h0 : repr = (kindPrefix k ++ ['"']) ++ (t ++ ['"']) := by rw [ht]; simp [cookedText]
    obtain ⟨cs, g1, g2⟩ := unescape_reports (ε := ConversionError) L F t
    have h1 : startsWith repr (kindPrefix k ++ ['"']) = true := startsWith_iff.mpr ⟨_, h0⟩
    have hl : strLen repr = strLen (kindPrefix k ++ ['"']) + strLen t + 1 := by
      rw [h0]; simp only [strLen_append, strLen_cons, strLen_nil]; omega
    have hv : valueOf I (kindPrefix k ++ ['"']) (kindPrefix k ++ ['r']) cooked raw repr =
        match collectCalls cs with
        | .error e => .err (.failedToUnescape e)
        | .ok us => .ok (cooked us) := by
      unfold valueOf
      rw [if_pos h1, sliceFrom_eq h0 rfl]
      simp only [Res.ok_bind]
      rw [if_pos (endsWithChar_iff.mpr ⟨t, rfl⟩), subUsize_ok (by omega)]
      simp only [Res.ok_bind]
      rw [slice_mid (a := kindPrefix k ++ ['"']) (b := t) (c := ['"']) (by rw [h0]; simp) rfl
        (by omega)]
      simp only [Res.ok_bind]
      rw [g1]
      rfl
    rw [hv]
    constructor
    · intro e
      constructor
      · intro h
        refine ⟨t, _, ht, (g2 _).mpr rfl, collect_reports.mp ?_⟩
        cases hcc : collectCalls cs with
        | ok us => rw [hcc] at h; simp at h
        | error e' => rw [hcc] at h; simp at h; rw [h]
      · rintro ⟨t', rs, ht', hr, he⟩
        rw [ht] at ht'
        rw [← cookedText_inj ht'] at hr
        rw [(g2 rs).mp hr] at he
        rw [collect_reports.mpr he]
    · constructor
      · intro h
        cases hcc : collectCalls cs with
        | ok us => rw [hcc] at h; simp at h
        | error e' => rw [hcc] at h; simp at h
      · rintro ⟨h, -⟩
        exact absurd ht (h t)
  · have hne : ∀ t, repr ≠ cookedText k t := fun t ht => hc ⟨t, ht⟩
    rcases valueOf_spec L cooked raw repr with ⟨t, ht, -⟩ | ⟨n, w, ht, h1⟩ | ⟨h1, h2, h3⟩
    · exact absurd ht (hne t)
    · rw [h1]
      refine ⟨fun e => ⟨fun h => by simp at h, ?_⟩, fun h => by simp at h, ?_⟩
      · rintro ⟨t, _, ht, -⟩; exact absurd ht (hne t)
      · rintro ⟨-, h⟩; exact absurd ht (h n w)
    · rw [h3]
      refine ⟨fun e => ⟨fun h => by simp at h, ?_⟩, fun _ => ⟨h1, h2⟩, fun _ => rfl⟩
      rintro ⟨t, _, ht, -⟩; exact absurd ht (hne t)

end PM2
