import Verif.Proof.Escape
import Verif.Spec.Spelling
import Verif.Spec.Decide
/-! # C96: the spelling of the literals made from values -/

set_option linter.unusedSectionVars false

namespace PM2.Props
open Spec

/-! ### Digits -/

/-- The number of digits, least significant first. -/
private def numR : List Char → Nat
  | [] => 0
  | d :: r => hexDigitVal d + 16 * numR r

private theorem hexNumber_rev (r : List Char) : hexNumber r.reverse = numR r := by
  unfold hexNumber
  rw [List.foldl_reverse]
  induction r with
  | nil => rfl
  | cons d r ih => rw [List.foldr_cons, ih, numR]; omega

private theorem lower_inj : ∀ a ∈ "0123456789abcdef".toList, ∀ b ∈ "0123456789abcdef".toList,
    hexDigitVal a = hexDigitVal b → a = b := by decide +kernel

private theorem upper_inj : ∀ a ∈ "0123456789ABCDEF".toList, ∀ b ∈ "0123456789ABCDEF".toList,
    hexDigitVal a = hexDigitVal b → a = b := by decide +kernel

private theorem lower_lt : ∀ a ∈ "0123456789abcdef".toList, hexDigitVal a < 16 ∧ (hexDigitVal a = 0 → a = '0') := by
  decide +kernel

private theorem upper_lt : ∀ a ∈ "0123456789ABCDEF".toList, hexDigitVal a < 16 := by
  decide +kernel

private theorem numR_pos {r : List Char} (hr : ∀ d ∈ r, d ∈ "0123456789abcdef".toList) (hne : r ≠ [])
    (h0 : r.getLast? ≠ some '0') : 0 < numR r := by
  induction r with
  | nil => exact absurd rfl hne
  | cons d r ih =>
    unfold numR
    cases r with
    | nil =>
      have hd := lower_lt d (hr d (List.mem_cons_self ..))
      have : hexDigitVal d ≠ 0 := fun h => h0 (by rw [hd.2 h]; rfl)
      omega
    | cons e r =>
      have := ih (fun x hx => hr x (List.mem_cons_of_mem _ hx)) (by simp) (by simpa using h0)
      omega

private theorem numR_inj {r r' : List Char} (hr : ∀ d ∈ r, d ∈ "0123456789abcdef".toList)
    (hr' : ∀ d ∈ r', d ∈ "0123456789abcdef".toList) (h0 : r.getLast? ≠ some '0')
    (h0' : r'.getLast? ≠ some '0') (h : numR r = numR r') : r = r' := by
  induction r generalizing r' with
  | nil =>
    cases r' with
    | nil => rfl
    | cons d r' =>
      have := numR_pos hr' (by simp) h0'
      rw [← h] at this
      simp [numR] at this
  | cons d r ih =>
    cases r' with
    | nil =>
      have := numR_pos hr (by simp) h0
      rw [h] at this
      simp [numR] at this
    | cons d' r' =>
      have hd := lower_lt d (hr d (List.mem_cons_self ..))
      have hd' := lower_lt d' (hr' d' (List.mem_cons_self ..))
      unfold numR at h
      have e1 := lower_inj d (hr d (List.mem_cons_self ..)) d' (hr' d' (List.mem_cons_self ..)) (by omega)
      have e2 : numR r = numR r' := by omega
      have tl : ∀ {x : Char} {y : List Char}, (x :: y).getLast? ≠ some '0' → y.getLast? ≠ some '0' := by
        intro x y hh
        cases y with
        | nil => simp
        | cons z y => simpa using hh
      rw [e1, ih (fun x hx => hr x (List.mem_cons_of_mem _ hx)) (fun x hx => hr' x (List.mem_cons_of_mem _ hx))
        (tl h0) (tl h0') e2]

private theorem digits_unique {n : Nat} {ds es : List Char} (hd : Digits "0123456789abcdef" n ds)
    (he : Digits "0123456789abcdef" n es) (hd0 : ds.head? ≠ some '0') (he0 : es.head? ≠ some '0') : ds = es := by
  have := numR_inj (r := ds.reverse) (r' := es.reverse) (fun d h => hd.1 d (List.mem_reverse.mp h))
    (fun d h => he.1 d (List.mem_reverse.mp h)) (by simpa using hd0) (by simpa using he0)
    (by rw [← hexNumber_rev, ← hexNumber_rev, List.reverse_reverse, List.reverse_reverse, hd.2, he.2])
  exact List.reverse_inj.mp this

private theorem hex_unique {b : UInt8} {t u : List Char} (ht : HexSpelling b t) (hu : HexSpelling b u) : t = u := by
  obtain ⟨h1, h2⟩ := ht
  obtain ⟨h3, h4⟩ := hu
  rename_i h l h' l'
  rw [hexNumber_two] at h2 h4
  have a1 := h1 h (by simp); have a2 := h1 l (by simp); have a3 := h3 h' (by simp); have a4 := h3 l' (by simp)
  have b1 := upper_lt _ a1; have b2 := upper_lt _ a2; have b3 := upper_lt _ a3; have b4 := upper_lt _ a4
  rw [upper_inj _ a1 _ a3 (by omega), upper_inj _ a2 _ a4 (by omega)]

private theorem hexDigitUpper_mem : ∀ d < 16, hexDigitUpper d ∈ "0123456789ABCDEF".toList := by decide +kernel
private theorem hexDigitLower_mem : ∀ d < 16, hexDigitLower d ∈ "0123456789abcdef".toList := by decide +kernel

private theorem escapeByteHex_spelling (b : UInt8) : HexSpelling b (escapeByteHex b) := by
  have hlt : b.toNat < 256 := b.toNat_lt
  refine .mk ⟨?_, ?_⟩
  · intro d hd
    simp only [List.mem_cons, List.not_mem_nil, or_false] at hd
    rcases hd with rfl | rfl
    · exact hexDigitUpper_mem _ (by omega)
    · exact hexDigitUpper_mem _ (by omega)
  · rw [hexNumber_two, (hexDigitUpper_spec (by omega)).2, (hexDigitUpper_spec (by omega)).2]
    omega

/-! ### Characters -/

private theorem stripZeros_head (ds : List Char) (h : hexNumber ds ≠ 0) : (stripZeros ds).head? ≠ some '0' := by
  induction ds with
  | nil => simp [stripZeros]
  | cons c ds ih =>
    cases ds with
    | nil =>
      simp only [stripZeros, List.head?_cons, ne_eq, Option.some.injEq]
      rintro rfl
      exact h (by decide)
    | cons d t =>
      unfold stripZeros
      split
      · rename_i hc
        subst hc
        refine ih ?_
        have : hexDigitVal '0' = 0 := by decide
        simpa [hexNumber, this] using h
      · rename_i hc
        simpa using hc

private theorem escapeUnicode_digits {c : Char} (hc : c ≠ '\x00') : ∃ ds,
    escapeUnicode c = '\\' :: 'u' :: '{' :: ds ++ ['}'] ∧ Digits "0123456789abcdef" c.toNat ds ∧ ds ≠ [] ∧
      ds.head? ≠ some '0' := by
  have hd : ∀ k, hexDigitLower (c.toNat / 16 ^ k % 16) ∈ "0123456789abcdef".toList ∧
      hexDigitVal (hexDigitLower (c.toNat / 16 ^ k % 16)) = c.toNat / 16 ^ k % 16 :=
    fun k => ⟨hexDigitLower_mem _ (Nat.mod_lt _ (by decide)), (hexDigitLower_spec (Nat.mod_lt _ (by decide))).2⟩
  have hlt : c.toNat < 16 ^ 6 := by
    have := c.valid
    simp only [UInt32.isValidChar, Nat.isValidChar] at this
    have e : c.toNat = c.val.toNat := rfl
    omega
  have hpos : c.toNat ≠ 0 := fun h => hc (char_ext h)
  refine ⟨_, rfl, ?_⟩
  generalize hL : [hexDigitLower (c.toNat / 16 ^ 5 % 16), hexDigitLower (c.toNat / 16 ^ 4 % 16),
    hexDigitLower (c.toNat / 16 ^ 3 % 16), hexDigitLower (c.toNat / 16 ^ 2 % 16),
    hexDigitLower (c.toNat / 16 ^ 1 % 16), hexDigitLower (c.toNat / 16 ^ 0 % 16)] = ds
  have hne : ds ≠ [] := by rw [← hL]; simp
  have hall : ∀ x ∈ ds, x ∈ "0123456789abcdef".toList := by
    rw [← hL]
    intro x hx
    simp only [List.mem_cons, List.not_mem_nil, or_false] at hx
    rcases hx with rfl | rfl | rfl | rfl | rfl | rfl <;> exact (hd _).1
  have hnum : hexNumber ds = c.toNat := by
    rw [← hL]
    simp only [hexNumber, List.foldl_cons, List.foldl_nil, (hd _).2]
    omega
  obtain ⟨h1, h2, h3, h4⟩ := stripZeros_spec ds hne
  show Digits _ _ (stripZeros ds) ∧ stripZeros ds ≠ [] ∧ _
  exact ⟨⟨fun x hx => hall x (h3 x hx), by rw [h4, hnum]⟩, h1, stripZeros_head ds (by rw [hnum]; exact hpos)⟩

section
variable [UnicodeTables]

private theorem escapeDebug_spelling {q c : Char} (hq : q ∈ ['"', '\'']) :
    CharSpelling q c (if c ∈ ['"', '\''] ∧ c ≠ q then [c] else escapeDebug c) := by
  split
  · rename_i h
    exact .otherQuote h.1 h.2
  rename_i hnq
  have hshort : ∀ e, (c, e) ∈ shortEscapes → CharSpelling q c ['\\', e] := fun e => .short
  unfold escapeDebug
  split
  · rename_i h; subst h; exact hshort _ (by decide)
  split
  · rename_i h; subst h; exact hshort _ (by decide)
  split
  · rename_i h; subst h; exact hshort _ (by decide)
  split
  · rename_i h; subst h; exact hshort _ (by decide)
  split
  · rename_i h; subst h; exact hshort _ (by decide)
  rename_i h0 h1 h2 h3 h4
  have hns : ∀ e, (c, e) ∉ shortEscapes := by
    intro e he
    simp only [shortEscapes, List.mem_cons, Prod.mk.injEq, List.not_mem_nil, or_false] at he
    rcases he with ⟨h, -⟩ | ⟨h, -⟩ | ⟨h, -⟩ | ⟨h, -⟩ | ⟨h, -⟩
    · exact h0 h
    · exact h1 h
    · exact h3 h
    · exact h2 h
    · exact h4 h
  by_cases hm : c ∈ ['"', '\'']
  · have : c = q := Classical.byContradiction fun h => hnq ⟨hm, h⟩
    subst this
    simp only [List.mem_cons, List.not_mem_nil, or_false] at hm
    rcases hm with rfl | rfl
    · exact .quote
    · exact .quote
  rw [if_neg (fun h => hm (by rw [h]; simp)), if_neg (fun h => hm (by rw [h]; simp))]
  have huni : printable c = false ∨ graphemeExtend c = true → CharSpelling q c (escapeUnicode c) := by
    intro h
    obtain ⟨ds, e1, e2, e3, e4⟩ := escapeUnicode_digits h0
    rw [e1]
    exact .uni hns hm h e2 e3 e4
  split
  · rename_i h; exact huni (.inr h)
  split
  · rename_i h1 h2
    exact .plain hns hm h2 (by simpa using h1)
  · rename_i h; exact huni (.inl (by simpa using h))

private theorem short_unique : ∀ x ∈ shortEscapes, ∀ y ∈ shortEscapes, x.1 = y.1 → x.2 = y.2 := by decide
private theorem short_quote : ∀ x ∈ shortEscapes, x.1 ∉ ['"', '\''] := by decide

theorem charSpelling_unique {q c : Char} (hq : q ∈ ['"', '\'']) {t u : List Char} (ht : CharSpelling q c t)
    (hu : CharSpelling q c u) : t = u := by
  cases ht with
  | short h =>
    cases hu with
    | short h' => exact congrArg (fun e => ['\\', e]) (short_unique _ h _ h' rfl)
    | quote => exact absurd hq (short_quote _ h)
    | otherQuote h' => exact absurd h' (short_quote _ h)
    | plain h' => exact absurd h (h' _)
    | uni h' => exact absurd h (h' _)
  | quote =>
    cases hu with
    | short h' => exact absurd hq (short_quote _ h')
    | quote => rfl
    | otherQuote _ h' => exact absurd rfl h'
    | plain _ h' => exact absurd hq h'
    | uni _ h' => exact absurd hq h'
  | otherQuote h h2 =>
    cases hu with
    | short h' => exact absurd h (short_quote _ h')
    | quote => exact absurd rfl h2
    | otherQuote => rfl
    | plain _ h' => exact absurd h h'
    | uni _ h' => exact absurd h h'
  | plain h h2 h3 h4 =>
    cases hu with
    | short h' => exact absurd h' (h _)
    | quote => exact absurd hq h2
    | otherQuote h' => exact absurd h' h2
    | plain => rfl
    | uni _ _ h' => rw [h3, h4] at h'; simp at h'
  | uni h h2 h3 h4 h5 h6 =>
    cases hu with
    | short h' => exact absurd h' (h _)
    | quote => exact absurd hq h2
    | otherQuote h' => exact absurd h' h2
    | plain _ _ h' h'' => rw [h', h''] at h3; simp at h3
    | uni _ _ _ h4' _ h6' => rw [digits_unique h4 h4' h6 h6']

private theorem octal_iff (c : Char) : c ∈ "01234567".toList ↔ '0' ≤ c ∧ c ≤ '7' := by
  constructor
  · intro h
    have : ∀ c ∈ "01234567".toList, '0' ≤ c ∧ c ≤ '7' := by decide +kernel
    exact this c h
  · rintro ⟨h1, h2⟩
    have h1' : 48 ≤ c.toNat := h1
    have h2' : c.toNat ≤ 55 := h2
    have : ∀ k < 8, Char.ofNat (48 + k) ∈ "01234567".toList := by decide +kernel
    have := this (c.toNat - 48) (by omega)
    rwa [show 48 + (c.toNat - 48) = c.toNat by omega, Char.ofNat_toNat] at this

private theorem escapeUtf8_spelling (s : List Char) : StringSpelling s (escapeUtf8 s) := by
  induction s with
  | nil => exact .nil
  | cons c s ih =>
    unfold escapeUtf8
    have hd := escapeDebug_spelling (q := '"') (c := c) (by decide)
    by_cases h0 : c = '\x00'
    · rw [if_pos h0]
      subst h0
      have z : (∀ d ∈ s.head?, d ∉ "01234567".toList) →
          StringSpelling ('\x00' :: s) (['\\', '0'] ++ escapeUtf8 s) :=
        fun h => .char (fun _ => h) (.short (by decide)) ih
      cases s with
      | nil => exact z (by simp)
      | cons n s =>
        simp only
        split
        · rename_i h
          exact .nul ((octal_iff n).mpr h) ih
        · rename_i h
          exact z (fun d hd => by
            have : n = d := by simpa using hd
            subst this
            exact fun hm => h ((octal_iff n).mp hm))
    · rw [if_neg h0]
      split
      · rename_i h1
        subst h1
        exact .char (fun h => absurd h h0) (by simpa using hd) ih
      · rename_i h1
        refine .char (fun h => absurd h h0) ?_ ih
        rw [if_neg] at hd
        · exact hd
        · rintro ⟨h, h'⟩
          simp only [List.mem_cons, List.not_mem_nil, or_false] at h
          rcases h with h | h
          · exact h' h
          · exact h1 h

private theorem stringSpelling_unique {s t u : List Char} (ht : StringSpelling s t) (hu : StringSpelling s u) :
    t = u := by
  induction ht generalizing u with
  | nil => cases hu; rfl
  | nul h _ ih =>
    cases hu with
    | nul h' h2 => rw [ih h2]
    | char h' => exact absurd h (h' rfl _ rfl)
  | char h h2 _ ih =>
    cases hu with
    | nul h' => exact absurd h' (h rfl _ rfl)
    | char h' h2' h3' => rw [charSpelling_unique (by decide) h2 h2', ih h3']

/-- **C96**, `Literal::string`. -/
theorem C96_string (s x : List Char) : litString s = x ↔ ∃ t, StringSpelling s t ∧ x = '"' :: t ++ ['"'] := by
  constructor
  · rintro rfl
    exact ⟨_, escapeUtf8_spelling s, rfl⟩
  · rintro ⟨t, h, rfl⟩
    rw [← stringSpelling_unique (escapeUtf8_spelling s) h]
    rfl

/-- **C96**, `Literal::character`. -/
theorem C96_character (c : Char) (x : List Char) :
    litCharacter c = x ↔ ∃ t, CharSpelling '\'' c t ∧ x = '\'' :: t ++ ['\''] := by
  have h : CharSpelling '\'' c (if c = '"' then [c] else escapeDebug c) := by
    have := escapeDebug_spelling (q := '\'') (c := c) (by decide)
    have e : (c ∈ ['"', '\''] ∧ c ≠ '\'') ↔ c = '"' := by
      simp only [List.mem_cons, List.not_mem_nil, or_false]
      constructor
      · rintro ⟨h | h, h'⟩
        · exact h
        · exact absurd h h'
      · rintro rfl; exact ⟨.inl rfl, by decide⟩
    simpa only [e] using this
  constructor
  · rintro rfl
    exact ⟨_, h, rfl⟩
  · rintro ⟨t, ht, rfl⟩
    rw [← charSpelling_unique (by decide) h ht]
    rfl

end

/-! ### Bytes -/

private theorem byte_short {b : UInt8} {c e : Char} (h : (c, e) ∈ shortEscapes) (hb : b = B c) (q : Char) :
    ByteSpelling q b ['\\', e] := by
  have hc : ∀ x ∈ shortEscapes, (B x.1).toNat = x.1.toNat := by decide
  exact .short h (by rw [hb]; exact hc _ h)

private theorem toNat_of_ne {b : UInt8} {c : Char} (h : b ≠ B c) : b.toNat ≠ c.toNat := by
  intro e
  apply h
  have : b.toNat < 256 := b.toNat_lt
  unfold B
  rw [← e]
  exact (uint8_ofNat_toNat b).symm

private theorem byte_rest {q : Char} (hq : q ∈ ['"', '\'']) {b : UInt8} (h0 : b ≠ B '\x00') (h1 : b ≠ B '\t')
    (h2 : b ≠ B '\n') (h3 : b ≠ B '\r') (h4 : b ≠ B q) (h5 : b ≠ B '\\') :
    ByteSpelling q b (if 0x20 ≤ b ∧ b ≤ 0x7E then [byteChar b] else escapeByteHex b) := by
  split
  · rename_i h
    have g1 := le_toNat.mp h.1
    have g2 := le_toNat.mp h.2
    simp at g1 g2
    have hlt : b.toNat < 128 := by omega
    have hn : (byteChar b).toNat = b.toNat := ofNat_valid (by left; omega)
    refine .plain (byteChar_ne hlt h5) (byteChar_ne hlt h4) ?_ ?_ hn.symm
    · show 32 ≤ (byteChar b).toNat
      omega
    · show (byteChar b).toNat ≤ 126
      omega
  · rename_i h
    refine .hex ?_ ?_ (escapeByteHex_spelling b)
    · simp only [le_toNat] at h
      simp at h
      omega
    · intro c e he
      simp only [shortEscapes, List.mem_cons, Prod.mk.injEq, List.not_mem_nil, or_false] at he
      rcases he with ⟨h, -⟩ | ⟨h, -⟩ | ⟨h, -⟩ | ⟨h, -⟩ | ⟨h, -⟩ <;> rw [h]
      · exact toNat_of_ne h0
      · exact toNat_of_ne h1
      · exact toNat_of_ne h2
      · exact toNat_of_ne h3
      · exact toNat_of_ne h5

private theorem byteSpelling_unique {q : Char} (hq : q ∈ ['"', '\'']) {b : UInt8} {t u : List Char}
    (ht : ByteSpelling q b t) (hu : ByteSpelling q b u) : t = u := by
  have su : ∀ x ∈ shortEscapes, ∀ y ∈ shortEscapes, x.1.toNat = y.1.toNat → x.2 = y.2 := by decide
  have sq : ∀ x ∈ shortEscapes, ∀ q ∈ ['"', '\''], x.1.toNat ≠ q.toNat := by decide
  have sp : ∀ x ∈ shortEscapes, ∀ c, c ≠ '\\' → ' ' ≤ c → x.1.toNat ≠ c.toNat := by
    intro x hx c hc hs e
    have : ∀ x ∈ shortEscapes, x.1 = '\\' ∨ x.1.toNat < 32 := by decide
    have hs' : 32 ≤ c.toNat := hs
    rcases this x hx with h | h
    · exact hc (char_ext (by rw [← e, h]))
    · omega
  have hq2 : 32 ≤ q.toNat ∧ q.toNat ≤ 126 := by
    have : ∀ q ∈ ['"', '\''], 32 ≤ q.toNat ∧ q.toNat ≤ 126 := by decide
    exact this q hq
  cases ht with
  | short h e =>
    cases hu with
    | short h' e' => exact congrArg (fun e => ['\\', e]) (su _ h _ h' (by rw [← e, ← e']))
    | quote e' => exact absurd (by rw [← e, ← e']) (sq _ h q hq)
    | plain h1 _ h2 _ e' => exact absurd (by rw [← e, ← e']) (sp _ h _ h1 h2)
    | hex _ h' => exact absurd e (h' _ _ h)
  | quote e =>
    cases hu with
    | short h' e' => exact absurd (by rw [← e, ← e']) (sq _ h' q hq)
    | quote => rfl
    | plain _ h1 _ _ e' => exact absurd (char_ext (by rw [← e, ← e'])) h1
    | hex h' => omega
  | plain h1 h2 h3 h4 e =>
    have h3' : 32 ≤ Char.toNat _ := h3
    have h4' : Char.toNat _ ≤ 126 := h4
    cases hu with
    | short h' e' => exact absurd (by rw [← e, ← e']) (sp _ h' _ h1 h3)
    | quote e' => exact absurd (char_ext (by rw [← e, ← e'])) h2
    | plain _ _ _ _ e' => rw [char_ext (e.symm.trans e')]
    | hex h' => omega
  | hex h1 h2 h3 =>
    cases hu with
    | short h' e' => exact absurd e' (h2 _ _ h')
    | quote e' => omega
    | plain _ _ h3 h4 e' =>
      have h3' : 32 ≤ Char.toNat _ := h3
      have h4' : Char.toNat _ ≤ 126 := h4
      omega
    | hex _ _ h3' => exact hex_unique h3 h3'

private theorem escapeBytes_spelling (bs : List UInt8) : BytesSpelling bs (escapeBytes bs) := by
  induction bs with
  | nil => exact .nil
  | cons b bs ih =>
    unfold escapeBytes
    by_cases h0 : b = B '\x00'
    · rw [if_pos h0]
      have hz : b = 0 := h0
      subst hz
      have z : (∀ d ∈ bs.head?, ¬ (48 ≤ d.toNat ∧ d.toNat ≤ 55)) →
          BytesSpelling (0 :: bs) (['\\', '0'] ++ escapeBytes bs) :=
        fun h => .byte (fun _ => h) (.short (c := '\x00') (by decide) rfl) ih
      have hoct : ∀ n : UInt8, (B '0' ≤ n ∧ n ≤ B '7') ↔ 48 ≤ n.toNat ∧ n.toNat ≤ 55 := by
        intro n
        rw [le_toNat, le_toNat]
        exact Iff.rfl
      cases bs with
      | nil => exact z (by simp)
      | cons n bs =>
        simp only
        split
        · rename_i h
          have := (hoct n).mp h
          exact .nul this.1 this.2 ih
        · rename_i h
          exact z (fun d hd => by
            have : n = d := by simpa using hd
            subst this
            exact fun h' => h ((hoct n).mpr h'))
    · have hb0 : b ≠ 0 := h0
      rw [if_neg h0]
      refine .byte (fun h => absurd h hb0) ?_ ih
      split
      · rename_i h; exact byte_short (by decide) h _
      split
      · rename_i h; exact byte_short (by decide) h _
      split
      · rename_i h; exact byte_short (by decide) h _
      split
      · rename_i h
        exact .quote (by rw [h]; rfl)
      split
      · rename_i h; exact byte_short (by decide) h _
      rename_i h1 h2 h3 h4 h5
      exact byte_rest (by decide) h0 h1 h2 h3 h4 h5

private theorem bytesSpelling_unique {s : List UInt8} {t u : List Char} (ht : BytesSpelling s t)
    (hu : BytesSpelling s u) : t = u := by
  induction ht generalizing u with
  | nil => cases hu; rfl
  | nul h g _ ih =>
    cases hu with
    | nul h' g' h2 => rw [ih h2]
    | byte h' => exact absurd ⟨h, g⟩ (h' rfl _ rfl)
  | byte h h2 _ ih =>
    cases hu with
    | nul h' g' => exact absurd ⟨h', g'⟩ (h rfl _ rfl)
    | byte h' h2' h3' => rw [byteSpelling_unique (by decide) h2 h2', ih h3']

/-- **C96**, `Literal::byte_string`. -/
theorem C96_byte_string (bs : List UInt8) (x : List Char) :
    litByteString bs = x ↔ ∃ t, BytesSpelling bs t ∧ x = 'b' :: '"' :: t ++ ['"'] := by
  constructor
  · rintro rfl
    exact ⟨_, escapeBytes_spelling bs, rfl⟩
  · rintro ⟨t, h, rfl⟩
    rw [← bytesSpelling_unique (escapeBytes_spelling bs) h]
    rfl

/-- **C96**, `Literal::byte_character`. -/
theorem C96_byte_character (b : UInt8) (x : List Char) :
    litByteCharacter b = x ↔ ∃ t, ByteSpelling '\'' b t ∧ x = 'b' :: '\'' :: t ++ ['\''] := by
  have h : ∃ t, ByteSpelling '\'' b t ∧ litByteCharacter b = 'b' :: '\'' :: t ++ ['\''] := by
    refine ⟨_, ?_, rfl⟩
    split
    · rename_i h; exact byte_short (by decide) h _
    split
    · rename_i h; exact byte_short (by decide) h _
    split
    · rename_i h; exact byte_short (by decide) h _
    split
    · rename_i h; exact byte_short (by decide) h _
    split
    · rename_i h
      exact .quote (by rw [h]; rfl)
    split
    · rename_i h; exact byte_short (by decide) h _
    rename_i h0 h1 h2 h3 h4 h5
    exact byte_rest (by decide) h0 h1 h2 h3 h4 h5
  obtain ⟨t, h1, h2⟩ := h
  rw [h2]
  constructor
  · rintro rfl
    exact ⟨t, h1, rfl⟩
  · rintro ⟨u, hu, rfl⟩
    rw [byteSpelling_unique (by decide) h1 hu]

/-! ### UTF-8 -/

/-- The decoder takes the encoding of a character. -/
theorem utf8Step_encode (c : Char) (rest : List UInt8) : ∃ b bs,
    String.utf8EncodeChar c ++ rest = b :: bs ∧ utf8Step b bs = .good c rest := by
  have hval : c.toNat = c.val.toNat := rfl
  have hvalid := c.valid
  simp only [UInt32.isValidChar, Nat.isValidChar] at hvalid
  have hof : ∀ n, n = c.val.toNat → Char.ofNat n = c := by
    intro n hn; rw [hn, ← hval, Char.ofNat_toNat]
  have hb : ∀ n, n < 256 → (UInt8.ofNat n).toNat = n := fun n hn => ofNat_toNat_small hn
  generalize hv : c.val.toNat = v at *
  unfold String.utf8EncodeChar
  rw [hv]
  simp only
  split
  · rename_i h1
    refine ⟨_, _, List.cons_append, ?_⟩
    unfold utf8Step
    rw [if_pos (by rw [UInt8.lt_iff_toNat_lt, hb _ (by omega)]; simpa using by omega), hb _ (by omega), hof _ rfl]
    rfl
  split
  · rename_i h1 h2
    refine ⟨_, _, List.cons_append, ?_⟩
    have e1 := hb (v / 64 % 32 + 192) (by omega)
    have e2 := hb (v % 64 + 128) (by omega)
    unfold utf8Step isCont
    simp only [UInt8.lt_iff_toNat_lt, le_toNat, e1, e2, List.cons_append, List.nil_append, Bool.and_eq_true,
      decide_eq_true_eq]
    simp only [UInt8.reduceToNat]
    rw [if_neg (by omega), if_pos (by omega), if_pos (by omega), hof _ (by omega)]
  split
  · rename_i h1 h2 h3
    refine ⟨_, _, List.cons_append, ?_⟩
    have e1 := hb (v / 4096 % 16 + 224) (by omega)
    have e2 := hb (v / 64 % 64 + 128) (by omega)
    have e3 := hb (v % 64 + 128) (by omega)
    unfold utf8Step isCont
    simp only [UInt8.lt_iff_toNat_lt, le_toNat, ← UInt8.toNat_inj, e1, e2, e3, List.cons_append, List.nil_append,
      Bool.and_eq_true, decide_eq_true_eq]
    simp only [UInt8.reduceToNat]
    rw [if_neg (by omega), if_neg (by omega), if_pos (by omega), if_pos (by omega), if_pos (by omega),
      hof _ (by omega)]
  · rename_i h1 h2 h3
    refine ⟨_, _, List.cons_append, ?_⟩
    have e1 := hb (v / 262144 % 8 + 240) (by omega)
    have e2 := hb (v / 4096 % 64 + 128) (by omega)
    have e3 := hb (v / 64 % 64 + 128) (by omega)
    have e4 := hb (v % 64 + 128) (by omega)
    unfold utf8Step isCont
    simp only [UInt8.lt_iff_toNat_lt, le_toNat, ← UInt8.toNat_inj, e1, e2, e3, e4, List.cons_append,
      List.nil_append, Bool.and_eq_true, decide_eq_true_eq]
    simp only [UInt8.reduceToNat]
    rw [if_neg (by omega), if_neg (by omega), if_neg (by omega), if_pos (by omega), if_pos (by omega),
      if_pos (by omega), if_pos (by omega), hof _ (by omega)]

/-- No character is encoded where the decoder fails. -/
private theorem bad_no_char {b : UInt8} {bs : List UInt8} {e : Option Nat} (h : utf8Step b bs = .bad e) (c : Char) :
    ¬ String.utf8EncodeChar c <+: b :: bs := by
  rintro ⟨rest, hr⟩
  obtain ⟨b', bs', h1, h2⟩ := utf8Step_encode c rest
  rw [hr] at h1
  cases h1
  rw [h] at h2
  exact Utf8Step.noConfusion h2

private theorem cont_bad {b : UInt8} (h : isCont b = true) (bs : List UInt8) : utf8Step b bs = .bad (some 1) := by
  unfold isCont at h
  simp only [le_toNat, Bool.and_eq_true, decide_eq_true_eq] at h
  unfold utf8Step
  simp only [UInt8.lt_iff_toNat_lt, le_toNat]
  simp only [UInt8.reduceToNat] at h ⊢
  rw [if_neg (by omega), if_neg (by omega), if_neg (by omega), if_neg (by omega)]

/-- The bytes of an error after the first are continuation bytes. -/
private theorem bad_rest {b : UInt8} {bs : List UInt8} {e : Option Nat} (h : utf8Step b bs = .bad e) :
    ∀ x ∈ bs.take (e.getD (bs.length + 1) - 1), isCont x = true := by
  have key : ∀ x : UInt8, (128 ≤ x.toNat ∧ x.toNat ≤ 191) → isCont x = true := by
    intro x hx
    unfold isCont
    simp only [le_toNat, Bool.and_eq_true, decide_eq_true_eq]
    simpa only [UInt8.reduceToNat] using hx
  unfold utf8Step at h
  split at h
  · simp at h
  split at h
  · split at h
    · cases h; simp
    · split at h
      · simp at h
      · cases h; simp
  split at h
  · split at h
    · cases h; simp
    · rename_i b1 _
      split at h
      · rename_i hc
        have hx := key b1 (by
          simp only [le_toNat, ← UInt8.toNat_inj] at hc
          simp only [UInt8.reduceToNat] at hc
          omega)
        split at h
        · cases h; simpa using hx
        · split at h
          · simp at h
          · cases h; simpa using hx
      · cases h; simp
  split at h
  · split at h
    · cases h; simp
    · rename_i b1 _
      split at h
      · rename_i hc
        have hx := key b1 (by
          simp only [le_toNat, ← UInt8.toNat_inj] at hc
          simp only [UInt8.reduceToNat] at hc
          omega)
        split at h
        · cases h; simpa using hx
        · split at h
          · rename_i hc2
            split at h
            · cases h; simpa using ⟨hx, hc2⟩
            · split at h
              · simp at h
              · cases h; simpa using ⟨hx, hc2⟩
          · cases h; simpa using hx
      · cases h; simp
  · cases h; simp

section
variable [UnicodeTables]

private theorem hex_run {cs bs : List UInt8} {t : List Char} (hc : ∀ x ∈ cs, isCont x = true)
    (ht : CStringSpelling bs t) : CStringSpelling (cs ++ bs) (cs.flatMap escapeByteHex ++ t) := by
  induction cs with
  | nil => exact ht
  | cons b cs ih =>
    rw [List.flatMap_cons, List.append_assoc]
    exact .byte (bad_no_char (cont_bad (hc b (List.mem_cons_self ..)) _)) (escapeByteHex_spelling b)
      (ih fun x hx => hc x (List.mem_cons_of_mem _ hx))

private theorem chars_run {v : List Char} {bs : List UInt8} {t : List Char} (h0 : '\x00' ∉ v)
    (ht : CStringSpelling bs t) : CStringSpelling (bytesOf v ++ bs) (escapeUtf8 v ++ t) := by
  induction v with
  | nil => exact ht
  | cons c v ih =>
    have hs := escapeUtf8_spelling (c :: v)
    have i := ih (fun h => h0 (List.mem_cons_of_mem _ h))
    rw [bytesOf_cons, List.append_assoc]
    generalize hx : c :: v = x at hs
    generalize hy : escapeUtf8 (c :: v) = y at hs
    rw [hx] at hy
    rw [hy] at hs
    cases hs with
    | nil => simp at hx
    | nul => cases hx; exact absurd (List.mem_cons_self ..) h0
    | char _ hp hr =>
      cases hx
      rw [hy, stringSpelling_unique hr (escapeUtf8_spelling _), List.append_assoc]
      exact .char hp i

/-- Where `from_utf8` stops, the decoder fails. -/
private theorem fromUtf8_stop (fuel : Nat) (bytes : List UInt8) {v : List Char} {r : List UInt8} {o : Option Nat}
    (h : fromUtf8 fuel bytes = (v, r, some o)) : ∃ b bs, r = b :: bs ∧ utf8Step b bs = .bad o := by
  induction fuel generalizing bytes v with
  | zero => simp [fromUtf8] at h
  | succ fuel ih =>
    cases bytes with
    | nil => simp [fromUtf8] at h
    | cons b bs =>
      simp only [fromUtf8] at h
      cases hs : utf8Step b bs with
      | bad e' =>
        rw [hs] at h
        simp at h
        obtain ⟨rfl, rfl, rfl⟩ := h
        exact ⟨b, bs, rfl, hs⟩
      | good c rest =>
        rw [hs] at h
        simp only at h
        generalize hx : fromUtf8 fuel rest = x at h
        obtain ⟨v', r', e'⟩ := x
        simp at h
        obtain ⟨rfl, rfl, rfl⟩ := h
        exact ih rest hx

private theorem cStringLoop_spelling (fuel : Nat) (bytes : List UInt8) (hf : bytes.length ≤ fuel)
    (hz : (0 : UInt8) ∉ bytes) : ∃ t, cStringLoop fuel bytes = .ok t ∧ CStringSpelling bytes t := by
  induction fuel generalizing bytes with
  | zero =>
    have : bytes = [] := List.length_eq_zero_iff.mp (by omega)
    subst this
    exact ⟨[], rfl, .nil⟩
  | succ fuel ih =>
    cases bytes with
    | nil => exact ⟨[], rfl, .nil⟩
    | cons b bs =>
      simp only [cStringLoop]
      generalize hx : fromUtf8 (b :: bs).length (b :: bs) = x
      obtain ⟨v, r, e⟩ := x
      obtain ⟨h1, h2, h3⟩ := fromUtf8_spec _ _ (Nat.le_refl _) hx
      rw [h1] at hz
      have hv : '\x00' ∉ v := fun h => hz (List.mem_append_left _ (nul_bytes h))
      have hzr : (0 : UInt8) ∉ r := fun h => hz (List.mem_append_right _ h)
      cases e with
      | none =>
        have := h2 rfl
        subst this
        refine ⟨_, rfl, ?_⟩
        have := chars_run hv .nil
        rw [List.append_nil (escapeUtf8 v)] at this
        rwa [h1]
      | some o =>
        obtain ⟨rb, rs, rfl, hbad⟩ := fromUtf8_stop _ _ hx
        have hn : 1 ≤ o.getD (rb :: rs).length := by
          cases o with
          | none => simp
          | some n => exact (h3 _ rfl).2 n rfl
        have hrl : (rb :: rs).length ≤ (b :: bs).length := by
          rw [h1, List.length_append]; omega
        have hcont := bad_rest hbad
        have hdec : o.getD (rs.length + 1) = (o.getD (rb :: rs).length) := rfl
        rw [hdec] at hcont
        generalize hm : o.getD (rb :: rs).length = m at hn hcont
        obtain ⟨m, rfl⟩ : ∃ k, m = k + 1 := ⟨m - 1, by omega⟩
        obtain ⟨t, i1, i2⟩ := ih ((rb :: rs).drop (m + 1))
          (by rw [List.length_drop]; simp at hrl hf ⊢; omega)
          (fun h => hzr (List.mem_of_mem_drop h))
        simp only [hm, i1]
        refine ⟨_, rfl, ?_⟩
        rw [h1, List.append_assoc]
        refine chars_run hv ?_
        have := hex_run (bs := rs.drop m) hcont i2
        rw [Nat.add_sub_cancel, List.take_append_drop] at this
        rw [List.take_succ_cons, List.flatMap_cons, List.append_assoc]
        exact .byte (bad_no_char hbad) (escapeByteHex_spelling rb) this

private theorem cStringSpelling_unique {s : List UInt8} {t u : List Char} (ht : CStringSpelling s t)
    (hu : CStringSpelling s u) : t = u := by
  induction ht generalizing u with
  | nil =>
    generalize hs : ([] : List UInt8) = s at hu
    cases hu with
    | nil => rfl
    | @char c bs p t h1 h2 =>
      obtain ⟨b, bs', g1, -⟩ := utf8Step_encode c bs
      rw [g1] at hs
      simp at hs
    | byte => simp at hs
  | @char c bs p t h1 h2 ih =>
    generalize hs : String.utf8EncodeChar c ++ bs = s at hu
    obtain ⟨b, bs', g1, g2⟩ := utf8Step_encode c bs
    cases hu with
    | nil => rw [g1] at hs; simp at hs
    | @char c' bs₂ p' t' h1' h2' =>
      obtain ⟨b', bs₂', k1, k2⟩ := utf8Step_encode c' bs₂
      rw [← hs, g1] at k1
      cases k1
      rw [g2] at k2
      cases k2
      rw [charSpelling_unique (by decide) h1 h1', ih h2']
    | byte h => exact absurd ⟨bs, hs⟩ (h c)
  | @byte b bs p t h1 h2 _ ih =>
    generalize hs : b :: bs = s at hu
    cases hu with
    | nil => simp at hs
    | @char c bs₂ => exact absurd ⟨bs₂, hs.symm⟩ (h1 c)
    | byte _ h2' h3' =>
      cases hs
      rw [hex_unique h2 h2', ih h3']

/-- **C96**, `Literal::c_string`. -/
theorem C96_c_string (bs : List UInt8) (hz : (0 : UInt8) ∉ bs) (x : List Char) :
    litCString bs = .ok x ↔ ∃ t, CStringSpelling bs t ∧ x = 'c' :: '"' :: t ++ ['"'] := by
  obtain ⟨t, h1, h2⟩ := cStringLoop_spelling bs.length bs (Nat.le_refl _) hz
  have e : litCString bs = .ok ('c' :: '"' :: t ++ ['"']) := by
    unfold litCString
    rw [h1]
    rfl
  rw [e]
  constructor
  · intro h
    cases h
    exact ⟨t, h2, rfl⟩
  · rintro ⟨u, hu, rfl⟩
    rw [cStringSpelling_unique h2 hu]

end

/-! ### Examples -/

section
attribute [local instance] sampleTables

/-- A NUL before a digit, a quote, a tab, and a letter. -/
example : StringSpelling ['\x00', '1', '"', '\t', 'a'] "\\x001\\\"\\ta".toList :=
  .nul (by decide) (.char (by decide) (.plain (by simp [shortEscapes]) (by decide) (by decide +kernel) (by decide +kernel))
    (.char (by decide) .quote (.char (by decide) (.short (by decide)) (.char (by decide)
      (.plain (by simp [shortEscapes]) (by decide) (by decide +kernel) (by decide +kernel)) .nil))))

example : litString ['\x00', '1', '"', '\t', 'a'] = "\"\\x001\\\"\\ta\"".toList := by decide +kernel

/-- Three bytes of an encoding that is broken by a letter: they are written in hexadecimal, the letter is not. -/
example : litCString [0xF0, 0x90, 0x80, 97] = .ok "c\"\\xF0\\x90\\x80a\"".toList := by decide +kernel

example : litByteString [32, 0xFF] = "b\" \\xFF\"".toList := by decide +kernel

end

end PM2.Props
