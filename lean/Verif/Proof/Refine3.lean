import Verif.Proof.Refine2
/-! # Refinement, part 3: string, byte and character literals -/

set_option linter.unusedSectionVars false

namespace PM2

variable {ο : Type} [Pos ο] [LawfulPos ο]
section
variable [UnicodeTables]

theorem cookedStringLoop_eq : ∀ (fuel : Nat) (s : List Char) (input : Cursor ο), Bnd input →
    s.length < fuel → ∀ (pre : List Char) (i : Nat), input.rest = pre ++ s → i = strLen pre →
      cookedStringLoop fuel input s i = lift input ((P.cooked .str s).map P.literalSuffix) := by
  intro fuel
  induction fuel with
  | zero => intro s input hb hf; omega
  | succ fuel ih =>
    intro s input hb hf pre i h hi
    cases s with
    | nil => simp [cookedStringLoop, P.cooked_nil]
    | cons c s =>
      simp at hf
      rw [P.cooked_cons]
      unfold cookedStringLoop
      by_cases hq : c = '"'
      · rw [if_pos hq, if_pos hq]
        exact finish_eq hb (t := pre ++ [c]) (by simp [h]) (by subst hq; simp [hi]; rfl)
      · rw [if_neg hq, if_neg hq]
        simp only [P.cookedUnit]
        by_cases hcr : c = '\r'
        · rw [if_pos hcr, if_pos hcr]
          cases s with
          | nil => rfl
          | cons c2 s =>
            simp only
            by_cases hn : c2 = '\n'
            · rw [if_pos hn, if_pos hn]
              simp at hf
              exact ih s input hb (by omega) (pre ++ [c, c2]) (i + 2) (by simp [h])
                (by subst hcr hn; simp [hi]; rfl)
            · rw [if_neg hn, if_neg hn]; rfl
        · rw [if_neg hcr, if_neg hcr]
          by_cases hbs : c = '\\'
          · rw [if_pos hbs, if_pos hbs]
            have hsz : c.utf8Size = 1 := by subst hbs; rfl
            cases s with
            | nil => simp [P.esc]
            | cons c2 s =>
              simp at hf
              simp only [P.esc]
              by_cases hx : c2 = 'x'
              · rw [if_pos hx, if_pos hx, backslashXChar_eq]
                cases hxe : P.xEsc .str s with
                | none => rfl
                | some r =>
                  obtain ⟨t, hl, hsl, rfl, -⟩ := P.xEsc_stable hxe
                  simp only [liftI, Res.ok_bind]
                  simp at hf
                  exact ih r input hb (by omega) (pre ++ [c, c2] ++ t) _ (by simp [h])
                    (by have h2 : c2.utf8Size = 1 := by { subst hx; rfl }
                        simp [hi, hsz, h2]; omega)
              · rw [if_neg hx, if_neg hx]
                by_cases he : c2 = 'n' ∨ c2 = 'r' ∨ c2 = 't' ∨ c2 = '\\' ∨ c2 = '\'' ∨ c2 = '"'
                · rw [if_pos he, if_pos (by rcases he with h | h | h | h | h | h <;> simp [h])]
                  have h2 : c2.utf8Size = 1 := by rcases he with h | h | h | h | h | h <;> subst h <;> rfl
                  exact ih s input hb (by omega) (pre ++ [c, c2]) (i + 2) (by simp [h])
                    (by simp [hi, hsz, h2])
                · rw [if_neg he]
                  by_cases h0 : c2 = '0'
                  · rw [if_pos (by simp [h0]), if_pos h0]
                    exact ih s input hb (by omega) (pre ++ [c, c2]) (i + 2) (by simp [h])
                      (by subst h0; simp [hi, hsz]; rfl)
                  · rw [if_neg (fun h => by
                      rcases h with h | h | h | h | h | h | h <;> simp [h] at he h0), if_neg h0]
                    by_cases hu : c2 = 'u'
                    · rw [if_pos hu, if_pos hu, backslashU_eq]
                      cases hue : P.uEsc s with
                      | none => rfl
                      | some x =>
                        obtain ⟨v, r⟩ := x
                        obtain ⟨t, ht, rfl, -⟩ := P.uEsc_stable hue
                        simp at hf
                        have := List.length_pos_iff.mpr ht
                        simp only [liftU, Res.ok_bind]
                        exact ih r input hb (by omega) (pre ++ [c, c2] ++ t) _ (by simp [h])
                          (by have h2 : c2.utf8Size = 1 := by { subst hu; rfl }
                              simp [hi, hsz, h2]; omega)
                    · rw [if_neg hu, if_neg hu]
                      by_cases hnl : c2 = '\n' ∨ c2 = '\r'
                      · rw [if_pos hnl]
                        have h2 : c2.utf8Size = 1 := by rcases hnl with h | h <;> subst h <;> rfl
                        have hs : s <:+ input.rest := ⟨pre ++ [c, c2], by simp [h]⟩
                        rw [advance_eq hb (t := pre ++ [c, c2]) (r := s) (by simp [h])
                          (by simp [hi, hsz, h2]), Res.ok_bind,
                          trailingBackslash_eq (hb.to hs), Cursor.to_rest]
                        have key : ∀ o : Option (List Char),
                            (∀ r, o = some r → ∃ t, s = t ++ r) →
                            ((lift (input.to s) o >>= fun input =>
                              cookedStringLoop fuel input input.rest 0) =
                            lift input (Option.map P.literalSuffix
                              (match o with | some r => P.cooked .str r | none => none))) := by
                          intro o ho
                          cases o with
                          | none => rfl
                          | some r =>
                            obtain ⟨t, rfl⟩ := ho r rfl
                            have hr : r <:+ input.rest := (List.suffix_append t r).trans hs
                            simp only [lift_some, Res.ok_bind]
                            rw [Cursor.to_to hs (List.suffix_append t r), Cursor.to_rest]
                            simp at hf
                            rw [ih r (input.to r) (hb.to hr) (by omega) [] 0 rfl rfl]
                            exact lift_to hr _ (fun r' h => P.cookedSuf_suffix h)
                        rcases hnl with h' | h'
                        · rw [if_neg (by subst h'; decide), if_pos h']
                          exact key _ (fun r hr => by
                            obtain ⟨t, e, -⟩ := P.trailing_stable hr; exact ⟨t, e⟩)
                        · rw [if_pos (by subst h'; rfl), if_neg (by subst h'; decide), if_pos h']
                          have := key (P.crTrailing s) (fun r hr => by
                            obtain ⟨t, e, -⟩ := P.crTrailing_stable hr; exact ⟨t, e⟩)
                          rw [this]
                          cases s <;> rfl
                      · rw [if_neg hnl, if_neg (fun h => hnl (Or.inl h)),
                          if_neg (fun h => hnl (Or.inr h))]
                        rfl
          · rw [if_neg hbs, if_neg hbs]
            simp only [P.badChar]
            exact ih s input hb (by omega) (pre ++ [c]) _ (by simp [h]) (by simp [hi])

theorem cookedString_eq {c : Cursor ο} (hb : Bnd c) :
    cookedString c = lift c ((P.cooked .str c.rest).map P.literalSuffix) :=
  cookedStringLoop_eq _ c.rest c hb (by omega) [] 0 rfl rfl

theorem cookedCStringLoop_eq : ∀ (fuel : Nat) (s : List Char) (input : Cursor ο), Bnd input →
    s.length < fuel → ∀ (pre : List Char) (i : Nat), input.rest = pre ++ s → i = strLen pre →
      cookedCStringLoop fuel input s i = lift input ((P.cooked .c s).map P.literalSuffix) := by
  intro fuel
  induction fuel with
  | zero => intro s input hb hf; omega
  | succ fuel ih =>
    intro s input hb hf pre i h hi
    cases s with
    | nil => simp [cookedCStringLoop, P.cooked_nil]
    | cons c s =>
      simp at hf
      rw [P.cooked_cons]
      unfold cookedCStringLoop
      by_cases hq : c = '"'
      · rw [if_pos hq, if_pos hq]
        exact finish_eq hb (t := pre ++ [c]) (by simp [h]) (by subst hq; simp [hi]; rfl)
      · rw [if_neg hq, if_neg hq]
        simp only [P.cookedUnit]
        by_cases hcr : c = '\r'
        · rw [if_pos hcr, if_pos hcr]
          cases s with
          | nil => rfl
          | cons c2 s =>
            simp only
            by_cases hn : c2 = '\n'
            · rw [if_pos hn, if_pos hn]
              simp at hf
              exact ih s input hb (by omega) (pre ++ [c, c2]) (i + 2) (by simp [h])
                (by subst hcr hn; simp [hi]; rfl)
            · rw [if_neg hn, if_neg hn]; rfl
        · rw [if_neg hcr, if_neg hcr]
          by_cases hbs : c = '\\'
          · rw [if_pos hbs, if_pos hbs]
            have hsz : c.utf8Size = 1 := by subst hbs; rfl
            cases s with
            | nil => simp [P.esc]
            | cons c2 s =>
              simp at hf
              simp only [P.esc]
              by_cases hx : c2 = 'x'
              · rw [if_pos hx, if_pos hx, backslashXNonzero_eq]
                cases hxe : P.xEsc .c s with
                | none => rfl
                | some r =>
                  obtain ⟨t, hl, hsl, rfl, -⟩ := P.xEsc_stable hxe
                  simp only [liftI, Res.ok_bind]
                  simp at hf
                  exact ih r input hb (by omega) (pre ++ [c, c2] ++ t) _ (by simp [h])
                    (by have h2 : c2.utf8Size = 1 := by { subst hx; rfl }
                        simp [hi, hsz, h2]; omega)
              · rw [if_neg hx, if_neg hx]
                by_cases he : c2 = 'n' ∨ c2 = 'r' ∨ c2 = 't' ∨ c2 = '\\' ∨ c2 = '\'' ∨ c2 = '"'
                · rw [if_pos he, if_pos he]
                  have h2 : c2.utf8Size = 1 := by rcases he with h | h | h | h | h | h <;> subst h <;> rfl
                  exact ih s input hb (by omega) (pre ++ [c, c2]) (i + 2) (by simp [h])
                    (by simp [hi, hsz, h2])
                · rw [if_neg he]
                  by_cases h0 : c2 = '0'
                  · subst h0
                    simp
                  · rw [if_neg he, if_neg h0]
                    by_cases hu : c2 = 'u'
                    · rw [if_pos hu, if_pos hu, backslashU_eq]
                      cases hue : P.uEsc s with
                      | none => rfl
                      | some x =>
                        obtain ⟨v, r⟩ := x
                        obtain ⟨t, ht, rfl, -⟩ := P.uEsc_stable hue
                        simp at hf
                        have := List.length_pos_iff.mpr ht
                        simp only [liftU, Res.ok_bind]
                        simp only [reduceCtorEq, if_false, true_and]
                        by_cases hv : v = '\x00'
                        · rw [if_pos hv, if_pos hv]; rfl
                        rw [if_neg hv, if_neg hv]
                        simp only
                        exact ih r input hb (by omega) (pre ++ [c, c2] ++ t) _ (by simp [h])
                          (by have h2 : c2.utf8Size = 1 := by { subst hu; rfl }
                              simp [hi, hsz, h2]; omega)
                    · rw [if_neg hu, if_neg hu]
                      by_cases hnl : c2 = '\n' ∨ c2 = '\r'
                      · rw [if_pos hnl]
                        have h2 : c2.utf8Size = 1 := by rcases hnl with h | h <;> subst h <;> rfl
                        have hs : s <:+ input.rest := ⟨pre ++ [c, c2], by simp [h]⟩
                        rw [advance_eq hb (t := pre ++ [c, c2]) (r := s) (by simp [h])
                          (by simp [hi, hsz, h2]), Res.ok_bind,
                          trailingBackslash_eq (hb.to hs), Cursor.to_rest]
                        have key : ∀ o : Option (List Char),
                            (∀ r, o = some r → ∃ t, s = t ++ r) →
                            ((lift (input.to s) o >>= fun input =>
                              cookedCStringLoop fuel input input.rest 0) =
                            lift input (Option.map P.literalSuffix
                              (match o with | some r => P.cooked .c r | none => none))) := by
                          intro o ho
                          cases o with
                          | none => rfl
                          | some r =>
                            obtain ⟨t, rfl⟩ := ho r rfl
                            have hr : r <:+ input.rest := (List.suffix_append t r).trans hs
                            simp only [lift_some, Res.ok_bind]
                            rw [Cursor.to_to hs (List.suffix_append t r), Cursor.to_rest]
                            simp at hf
                            rw [ih r (input.to r) (hb.to hr) (by omega) [] 0 rfl rfl]
                            exact lift_to hr _ (fun r' h => P.cookedSuf_suffix h)
                        rcases hnl with h' | h'
                        · rw [if_neg (by subst h'; decide), if_pos h']
                          exact key _ (fun r hr => by
                            obtain ⟨t, e, -⟩ := P.trailing_stable hr; exact ⟨t, e⟩)
                        · rw [if_pos (by subst h'; rfl), if_neg (by subst h'; decide), if_pos h']
                          have := key (P.crTrailing s) (fun r hr => by
                            obtain ⟨t, e, -⟩ := P.crTrailing_stable hr; exact ⟨t, e⟩)
                          rw [this]
                          cases s <;> rfl
                      · rw [if_neg hnl, if_neg (fun h => hnl (Or.inl h)),
                          if_neg (fun h => hnl (Or.inr h))]
                        rfl
          · rw [if_neg hbs, if_neg hbs]
            simp only [P.badChar, beq_iff_eq]
            by_cases h0 : c = '\x00'
            · rw [if_pos h0, if_pos h0]; rfl
            rw [if_neg h0, if_neg h0]
            simp only
            exact ih s input hb (by omega) (pre ++ [c]) _ (by simp [h]) (by simp [hi])

theorem cookedCString_eq {c : Cursor ο} (hb : Bnd c) :
    cookedCString c = lift c ((P.cooked .c c.rest).map P.literalSuffix) :=
  cookedCStringLoop_eq _ c.rest c hb (by omega) [] 0 rfl rfl

theorem char_le_iff {c d : Char} : c ≤ d ↔ c.toNat ≤ d.toNat := UInt32.le_iff_toNat_le

theorem B_le_iff {c d : Char} (hc : c.toNat < 128) (hd : d.toNat < 128) : B c ≤ B d ↔ c ≤ d := by
  rw [UInt8.le_iff_toNat_le, B_toNat hc, B_toNat hd, char_le_iff]

theorem isHexChar_ascii {c : Char} (hc : isHexChar c = true) : c.toNat < 128 := by
  simp only [isHexChar, Bool.or_eq_true, Bool.and_eq_true, decide_eq_true_eq] at hc
  rcases hc with (h | h) | h <;> exact Nat.lt_of_le_of_lt h.2 (by decide)

theorem isHexByte_B {c : Char} (hc : c.toNat < 128) : isHexByte (B c) = isHexChar c := by
  simp only [isHexByte, isHexChar]
  simp only [B_le_iff hc (show '9'.toNat < 128 by decide), B_le_iff (show '0'.toNat < 128 by decide) hc,
    B_le_iff hc (show 'f'.toNat < 128 by decide), B_le_iff (show 'a'.toNat < 128 by decide) hc,
    B_le_iff hc (show 'F'.toNat < 128 by decide), B_le_iff (show 'A'.toNat < 128 by decide) hc]

theorem isHexByte_high {b : UInt8} (hb : ¬ b < 128) : isHexByte b = false := by
  rw [UInt8.lt_iff_toNat_lt] at hb
  have h1 : (B '9').toNat = 57 := rfl
  have h2 : (B 'f').toNat = 102 := rfl
  have h3 : (B 'F').toNat = 70 := rfl
  simp only [isHexByte, UInt8.le_iff_toNat_le, h1, h2, h3]
  simp at hb ⊢; omega

theorem isHexByte_head {c : Char} {b : UInt8} (hlt : b < 128 ↔ c.toNat < 128)
    (hasc : c.toNat < 128 → b = B c) : isHexByte b = isHexChar c := by
  by_cases h : c.toNat < 128
  · rw [hasc h, isHexByte_B h]
  · rw [isHexByte_high (fun hb => h (hlt.mp hb))]
    cases hx : isHexChar c with
    | false => rfl
    | true => exact absurd (isHexChar_ascii hx) h

theorem backslashXByte_eq (s : List Char) (i : Nat) :
    backslashXByte (bytesOf s) i = match P.xEsc .byte s with
      | some r => .ok (bytesOf r, i + 2)
      | none => .err () := by
  cases s with
  | nil => rfl
  | cons c1 s =>
    obtain ⟨b, l, e, hl, hB, hlt, hasc, hsz⟩ := bytes_cons c1 s
    rw [e]
    simp only [backslashXByte]
    have hx := isHexByte_head hlt (fun h => (hasc h).2)
    by_cases h1 : isHexChar c1 = true
    · obtain ⟨rfl, rfl⟩ := hasc (isHexChar_ascii h1)
      rw [if_pos (by rw [hx]; exact h1), List.nil_append]
      cases s with
      | nil => rfl
      | cons c2 s =>
        obtain ⟨b2, l2, e2, hl2, hB2, hlt2, hasc2, hsz2⟩ := bytes_cons c2 s
        rw [e2]
        simp only [P.xEsc]
        have hx2 := isHexByte_head hlt2 (fun h => (hasc2 h).2)
        by_cases h2 : isHexChar c2 = true
        · obtain ⟨rfl, rfl⟩ := hasc2 (isHexChar_ascii h2)
          rw [if_pos (by rw [hx2]; exact h2), if_pos ⟨h1, h2⟩]; rfl
        · rw [if_neg (by rw [hx2]; exact h2), if_neg (fun h => h2 h.2)]
    · rw [if_neg (by rw [hx]; exact h1)]
      cases s with
      | nil => rfl
      | cons c2 s =>
        simp only [P.xEsc]
        rw [if_neg (fun h => h1 h.1)]

theorem cookedByteStringLoop_eq : ∀ (fuel : Nat) (s : List Char) (input : Cursor ο), Bnd input →
    strLen s < fuel → ∀ (pre : List Char) (i : Nat), input.rest = pre ++ s → i = strLen pre →
      cookedByteStringLoop fuel input (bytesOf s) i =
        lift input ((P.cooked .byte s).map P.literalSuffix) := by
  intro fuel
  induction fuel with
  | zero => intro s input hb hf; omega
  | succ fuel ih =>
    intro s input hb hf pre i h hi
    cases s with
    | nil => simp [cookedByteStringLoop, P.cooked_nil]
    | cons c s =>
      simp at hf
      have hpos := utf8Size_pos c
      rw [P.cooked_cons]
      obtain ⟨b, l, e, hl, hB, hlt, hasc, hsz⟩ := bytes_cons c s
      rw [e]
      unfold cookedByteStringLoop
      simp only
      by_cases hq : c = '"'
      · rw [if_pos ((hB '"' (by decide)).mpr hq), if_pos hq]
        exact finish_eq hb (t := pre ++ [c]) (by simp [h]) (by subst hq; simp [hi]; rfl)
      · rw [if_neg (fun h => hq ((hB '"' (by decide)).mp h)), if_neg hq]
        simp only [P.cookedUnit]
        by_cases hcr : c = '\r'
        · rw [if_pos ((hB '\r' (by decide)).mpr hcr), if_pos hcr]
          obtain ⟨rfl, rfl⟩ := hasc (by subst hcr; decide)
          rw [List.nil_append]
          cases s with
          | nil => rfl
          | cons c2 s =>
            obtain ⟨b2, l2, e2, hl2, hB2, hlt2, hasc2, hsz2⟩ := bytes_cons c2 s
            rw [e2]
            simp only
            by_cases hn : c2 = '\n'
            · rw [if_pos ((hB2 '\n' (by decide)).mpr hn), if_pos hn]
              obtain ⟨rfl, rfl⟩ := hasc2 (by subst hn; decide)
              simp at hf
              have := utf8Size_pos c2
              exact ih s input hb (by omega) (pre ++ [c, c2]) (i + 2) (by simp [h])
                (by subst hcr hn; simp [hi]; rfl)
            · rw [if_neg (fun h => hn ((hB2 '\n' (by decide)).mp h)), if_neg hn]; rfl
        · rw [if_neg (fun h => hcr ((hB '\r' (by decide)).mp h)), if_neg hcr]
          by_cases hbs : c = '\\'
          · rw [if_pos ((hB '\\' (by decide)).mpr hbs), if_pos hbs]
            have hsz : c.utf8Size = 1 := by subst hbs; rfl
            obtain ⟨rfl, rfl⟩ := hasc (by subst hbs; decide)
            rw [List.nil_append]
            cases s with
            | nil => simp [P.esc]
            | cons c2 s =>
              simp at hf
              have hpos2 := utf8Size_pos c2
              obtain ⟨b2, l2, e2, hl2, hB2, hlt2, hasc2, hsz2⟩ := bytes_cons c2 s
              rw [e2]
              simp only [P.esc]
              by_cases hx : c2 = 'x'
              · rw [if_pos ((hB2 'x' (by decide)).mpr hx), if_pos hx]
                obtain ⟨rfl, rfl⟩ := hasc2 (by subst hx; decide)
                rw [List.nil_append, backslashXByte_eq]
                cases hxe : P.xEsc .byte s with
                | none => rfl
                | some r =>
                  obtain ⟨t, hl, hsl, rfl, -⟩ := P.xEsc_stable hxe
                  simp only [Res.ok_bind]
                  simp at hf
                  exact ih r input hb (by omega) (pre ++ [c, c2] ++ t) _ (by simp [h])
                    (by have h2 : c2.utf8Size = 1 := by { subst hx; rfl }
                        simp [hi, hsz, h2]; omega)
              · rw [if_neg (fun h => hx ((hB2 'x' (by decide)).mp h)), if_neg hx]
                have hiff : (b2 = B 'n' ∨ b2 = B 'r' ∨ b2 = B 't' ∨ b2 = B '\\' ∨ b2 = B '0' ∨
                    b2 = B '\'' ∨ b2 = B '"') ↔ (c2 = 'n' ∨ c2 = 'r' ∨ c2 = 't' ∨ c2 = '\\' ∨
                    c2 = '0' ∨ c2 = '\'' ∨ c2 = '"') := by
                  rw [hB2 'n' (by decide), hB2 'r' (by decide), hB2 't' (by decide),
                    hB2 '\\' (by decide), hB2 '0' (by decide), hB2 '\'' (by decide),
                    hB2 '"' (by decide)]
                by_cases he : c2 = 'n' ∨ c2 = 'r' ∨ c2 = 't' ∨ c2 = '\\' ∨ c2 = '\'' ∨ c2 = '"'
                · rw [if_pos he, if_pos (by rw [hiff]; rcases he with h | h | h | h | h | h <;> simp [h])]
                  have h2 : c2.utf8Size = 1 := by rcases he with h | h | h | h | h | h <;> subst h <;> rfl
                  obtain ⟨rfl, rfl⟩ := hasc2
                    (by rcases he with h | h | h | h | h | h <;> subst h <;> decide)
                  exact ih s input hb (by omega) (pre ++ [c, c2]) (i + 2) (by simp [h])
                    (by simp [hi, hsz, h2])
                · rw [if_neg he]
                  by_cases h0 : c2 = '0'
                  · rw [if_pos (by rw [hiff]; simp [h0]), if_pos h0]
                    obtain ⟨rfl, rfl⟩ := hasc2 (by subst h0; decide)
                    exact ih s input hb (by omega) (pre ++ [c, c2]) (i + 2) (by simp [h])
                      (by subst h0; simp [hi, hsz]; rfl)
                  · rw [if_neg (fun h => by
                      rw [hiff] at h
                      rcases h with h | h | h | h | h | h | h <;> simp [h] at he h0), if_neg h0]
                    by_cases hu : c2 = 'u'
                    · subst hu
                      simp only [if_true]
                      rw [if_neg]
                      · rfl
                      · rw [hB2 '\n' (by decide), hB2 '\r' (by decide)]; decide
                    · rw [if_neg hu]
                      by_cases hnl : c2 = '\n' ∨ c2 = '\r'
                      · rw [if_pos (by rw [hB2 '\n' (by decide), hB2 '\r' (by decide)]; exact hnl)]
                        have h2 : c2.utf8Size = 1 := by rcases hnl with h | h <;> subst h <;> rfl
                        obtain ⟨-, rfl⟩ := hasc2 (by rcases hnl with h | h <;> subst h <;> decide)
                        have hs : s <:+ input.rest := ⟨pre ++ [c, c2], by simp [h]⟩
                        rw [advance_eq hb (t := pre ++ [c, c2]) (r := s) (by simp [h])
                          (by simp [hi, hsz, h2]), Res.ok_bind,
                          trailingBackslash_eq (hb.to hs), Cursor.to_rest]
                        have key : ∀ o : Option (List Char),
                            (∀ r, o = some r → ∃ t, s = t ++ r) →
                            ((lift (input.to s) o >>= fun input =>
                              cookedByteStringLoop fuel input (bytesOf input.rest) 0) =
                            lift input (Option.map P.literalSuffix
                              (match o with | some r => P.cooked .byte r | none => none))) := by
                          intro o ho
                          cases o with
                          | none => rfl
                          | some r =>
                            obtain ⟨t, rfl⟩ := ho r rfl
                            have hr : r <:+ input.rest := (List.suffix_append t r).trans hs
                            simp only [lift_some, Res.ok_bind]
                            rw [Cursor.to_to hs (List.suffix_append t r), Cursor.to_rest]
                            simp at hf
                            rw [ih r (input.to r) (hb.to hr) (by omega) [] 0 rfl rfl]
                            exact lift_to hr _ (fun r' h => P.cookedSuf_suffix h)
                        rcases hnl with h' | h'
                        · rw [if_neg (by subst h'; decide), if_pos h']
                          exact key _ (fun r hr => by
                            obtain ⟨t, e, -⟩ := P.trailing_stable hr; exact ⟨t, e⟩)
                        · rw [if_pos (by subst h'; rfl), if_neg (by subst h'; decide), if_pos h']
                          have := key (P.crTrailing s) (fun r hr => by
                            obtain ⟨t, e, -⟩ := P.crTrailing_stable hr; exact ⟨t, e⟩)
                          rw [this]
                          cases s <;> rfl
                      · rw [if_neg (by rw [hB2 '\n' (by decide), hB2 '\r' (by decide)]; exact hnl),
                          if_neg (fun h => hnl (Or.inl h)), if_neg (fun h => hnl (Or.inr h))]
                        rfl
          · rw [if_neg (fun h => hbs ((hB '\\' (by decide)).mp h)), if_neg hbs]
            by_cases ha : c.toNat < 128
            · rw [if_pos (hlt.mpr ha)]
              simp only [P.badChar, ha, decide_true, Bool.not_true]
              obtain ⟨rfl, rfl⟩ := hasc ha
              exact ih s input hb (by omega) (pre ++ [c]) _ (by simp [h])
                (by simp [hi, utf8Size_ascii ha])
            · rw [if_neg (fun h => ha (hlt.mp h))]
              simp only [P.badChar, ha, decide_false, Bool.not_false, if_true]
              rfl

theorem cookedByteString_eq {c : Cursor ο} (hb : Bnd c) :
    cookedByteString c = lift c ((P.cooked .byte c.rest).map P.literalSuffix) :=
  cookedByteStringLoop_eq _ c.rest c hb (by rw [bytesOf_length]; omega) [] 0 rfl rfl

end
end PM2
