import Verif.Proof.Refine4
/-! # Refinement, part 5: numbers, literals, punctuation, leaf tokens -/

set_option linter.unusedSectionVars false

namespace PM2

variable {ο : Type} [Pos ο] [LawfulPos ο]

section
variable [UnicodeTables]

/-- may a `.` followed by this be part of a number -/
def P.dotOk : List Char → Bool
  | next :: _ => !(next = '.' || isIdentStart next)
  | [] => true

theorem P.mantissa_cons (ch : Char) (s : List Char) (hd : Bool) :
    P.mantissa (ch :: s) hd =
      if isDecDigit ch || ch == '_' then P.mantissa s hd
      else if ch = '.' then
        if hd then some (ch :: s, hd) else if P.dotOk s then P.mantissa s true else none
      else some (ch :: s, hd) := by
  rw [P.mantissa.eq_def]
  simp only
  cases s with
  | nil => simp [P.dotOk]
  | cons n s =>
    simp only [P.dotOk]
    by_cases h : (decide (n = '.') || isIdentStart n) = true <;> simp [h]

theorem floatMantissa_cons (ch : Char) (s : List Char) (len : Nat) (hd : Bool) :
    floatMantissa (ch :: s) len hd =
      if isDecDigit ch || ch == '_' then floatMantissa s (len + 1) hd
      else if ch = '.' then
        if hd then .ok (ch :: s, len, hd, false)
        else if P.dotOk s then floatMantissa s (len + 1) true else reject
      else if ch = 'e' ∨ ch = 'E' then .ok (s, len + 1, hd, true)
      else .ok (ch :: s, len, hd, false) := by
  rw [floatMantissa.eq_def]
  simp only
  cases s with
  | nil => simp [P.dotOk]
  | cons n s =>
    simp only [P.dotOk]
    by_cases h : (decide (n = '.') || isIdentStart n) = true <;> simp [h]

theorem isDecDigit_ascii {c : Char} (h : isDecDigit c = true) : c.toNat < 128 := by
  simp only [isDecDigit, Bool.and_eq_true, decide_eq_true_eq, char_le_iff] at h
  have : '9'.toNat = 57 := rfl
  omega

theorem floatMantissa_eq (s : List Char) : ∀ (len : Nat) (hd : Bool),
    match P.mantissa s hd with
    | none => floatMantissa s len hd = reject
    | some (r, hd') => ∃ t, s = t ++ r ∧ floatMantissa s len hd =
        (match r with
        | e :: r' => if e = 'e' ∨ e = 'E' then .ok (r', len + strLen t + 1, hd', true)
          else .ok (r, len + strLen t, hd', false)
        | [] => .ok ([], len + strLen t, hd', false)) := by
  induction s with
  | nil => intro len hd; exact ⟨[], rfl, rfl⟩
  | cons c s ih =>
    intro len hd
    rw [P.mantissa_cons, floatMantissa_cons]
    by_cases h1 : (isDecDigit c || c == '_') = true
    · rw [if_pos h1, if_pos h1]
      have hc : c.utf8Size = 1 := by
        simp at h1
        rcases h1 with h1 | h1
        · exact utf8Size_ascii (isDecDigit_ascii h1)
        · subst h1; rfl
      have := ih (len + 1) hd
      cases hm : P.mantissa s hd with
      | none => rw [hm] at this; exact this
      | some x =>
        obtain ⟨r, hd'⟩ := x
        rw [hm] at this
        obtain ⟨t, rfl, ht⟩ := this
        refine ⟨c :: t, rfl, ?_⟩
        rw [ht, strLen_cons, hc, Nat.add_assoc len 1]
    · rw [if_neg h1, if_neg h1]
      by_cases h2 : c = '.'
      · rw [if_pos h2, if_pos h2]
        cases hd with
        | true =>
          simp only [if_true]
          refine ⟨[], rfl, ?_⟩
          rw [if_neg (by subst h2; decide)]; rfl
        | false =>
          simp only [Bool.false_eq_true, if_false]
          by_cases h3 : P.dotOk s = true
          · rw [if_pos h3, if_pos h3]
            have := ih (len + 1) true
            cases hm : P.mantissa s true with
            | none => rw [hm] at this; exact this
            | some x =>
              obtain ⟨r, hd'⟩ := x
              rw [hm] at this
              obtain ⟨t, rfl, ht⟩ := this
              refine ⟨c :: t, rfl, ?_⟩
              have hc : c.utf8Size = 1 := by subst h2; rfl
              rw [ht, strLen_cons, hc, Nat.add_assoc len 1]
          · rw [if_neg h3, if_neg h3]
      · rw [if_neg h2, if_neg h2]
        exact ⟨[], rfl, rfl⟩

theorem P.exponent_some {s r : List Char} {a b : Bool} (h : P.exponent s a b = some r) :
    ∃ t, s = t ++ r ∧ (∀ c ∈ t, c.toNat < 128) ∧ (b = false → t ≠ []) := by
  induction s generalizing a b with
  | nil =>
    simp only [P.exponent] at h
    split at h
    · simp at h; subst h; exact ⟨[], rfl, by simp, by rename_i hb; simp [hb]⟩
    · simp at h
  | cons c s ih =>
    simp only [P.exponent] at h
    split at h
    · rename_i hc
      split at h
      · simp at h; subst h; exact ⟨[], rfl, by simp, by rename_i hb; simp [hb]⟩
      · split at h
        · simp at h
        · obtain ⟨t, rfl, ht, -⟩ := ih h
          refine ⟨c :: t, rfl, ?_, by simp⟩
          intro x hx; simp at hx
          rcases hx with rfl | hx
          · rcases hc with rfl | rfl <;> decide
          · exact ht x hx
    · split at h
      · rename_i hc
        obtain ⟨t, rfl, ht, -⟩ := ih h
        refine ⟨c :: t, rfl, ?_, by simp⟩
        intro x hx; simp at hx
        rcases hx with rfl | hx
        · exact isDecDigit_ascii hc
        · exact ht x hx
      · split at h
        · rename_i hc
          obtain ⟨t, rfl, ht, -⟩ := ih h
          refine ⟨c :: t, rfl, ?_, by simp⟩
          intro x hx; simp at hx
          rcases hx with rfl | hx
          · subst hc; decide
          · exact ht x hx
        · split at h
          · simp at h; subst h; exact ⟨[], rfl, by simp, by rename_i hb; simp [hb]⟩
          · simp at h

theorem strLen_ascii {t : List Char} (h : ∀ c ∈ t, c.toNat < 128) : strLen t = t.length := by
  induction t with
  | nil => rfl
  | cons c t ih =>
    rw [strLen_cons, utf8Size_ascii (h c (by simp)), ih (fun x hx => h x (by simp [hx]))]
    simp; omega

theorem floatExponent_eq (s : List Char) : ∀ (len : Nat) (a b : Bool),
    floatExponent s len a b = (P.exponent s a b).map (fun r => len + (s.length - r.length)) := by
  induction s with
  | nil => intro len a b; simp only [floatExponent, P.exponent]; split <;> rfl
  | cons c s ih =>
    intro len a b
    have step : ∀ a' b', (P.exponent s a' b').map (fun r => len + 1 + (s.length - r.length)) =
        (P.exponent s a' b').map (fun r => len + ((c :: s).length - r.length)) := by
      intro a' b'
      cases h : P.exponent s a' b' with
      | none => rfl
      | some r =>
        obtain ⟨t, rfl, -⟩ := P.exponent_some h
        simp; omega
    simp only [floatExponent, P.exponent]
    split
    · split
      · simp
      · split
        · rfl
        · rw [ih, step]
    · split
      · rw [ih, step]
      · split
        · rw [ih, step]
        · split <;> simp

theorem floatDigits_eq {c : Cursor ο} (hb : Bnd c) : floatDigits c = lift c (P.floatDigits c.rest) := by
  unfold floatDigits P.floatDigits
  cases hr : c.rest with
  | nil => rfl
  | cons ch s =>
    simp only
    by_cases hc : isDecDigit ch = true
    · simp only [hc, Bool.not_true, Bool.false_eq_true, if_false, if_true]
      have hsz := utf8Size_ascii (isDecDigit_ascii hc)
      have hm := floatMantissa_eq s 1 false
      cases h : P.mantissa s false with
      | none => rw [h] at hm; simp only at hm; rw [hm]; rfl
      | some x =>
        obtain ⟨r, hd⟩ := x
        rw [h] at hm
        obtain ⟨t, ht, hm⟩ := hm
        rw [hm]
        subst ht
        have h1 : c.rest = (ch :: t) ++ r := by rw [hr]; rfl
        have hl1 : 1 + strLen t = strLen (ch :: t) := by rw [strLen_cons, hsz]
        cases r with
        | nil =>
          simp only [Res.ok_bind]
          cases hd with
          | false => rfl
          | true =>
            simp only [Bool.or_false, Bool.not_true, Bool.false_eq_true, if_false, if_true]
            rw [advance_eq hb h1 hl1]; rfl
        | cons e r' =>
          simp only
          by_cases he : e = 'e' ∨ e = 'E'
          · have hesz : e.utf8Size = 1 := by rcases he with rfl | rfl <;> rfl
            simp only [if_pos he, Res.ok_bind, Bool.or_true, Bool.not_true, Bool.false_eq_true,
              if_false, if_true]
            have hcont : ∀ (before : PRes (Cursor ο)),
                (match floatExponent r' (1 + strLen t + 1) false false with
                  | none => before
                  | some len => advance c len) =
                match P.exponent r' false false with
                | some r'' => .ok (c.to r'')
                | none => before := by
              intro before
              rw [floatExponent_eq]
              cases hx : P.exponent r' false false with
              | none => rfl
              | some r'' =>
                obtain ⟨t2, rfl, h2, -⟩ := P.exponent_some hx
                simp only [Option.map_some]
                rw [advance_eq hb (t := ch :: t ++ e :: t2) (r := r'') (by rw [h1]; simp)]
                rw [strLen_append, strLen_cons e, strLen_ascii h2, hesz, ← hl1]
                simp; omega
            cases hd with
            | true =>
              simp only [if_true]
              rw [advance_eq hb (t := ch :: t) (r := e :: r') h1 (by rw [← hl1]; omega), Res.ok_bind]
              refine (hcont _).trans ?_
              cases P.exponent r' false false <;> rfl
            | false =>
              simp only [Bool.false_eq_true, if_false]
              refine (hcont _).trans ?_
              cases P.exponent r' false false <;> rfl
          · simp only [if_neg he, Res.ok_bind, Bool.or_false]
            cases hd with
            | false => rfl
            | true =>
              simp only [Bool.not_true, Bool.false_eq_true, if_false, if_true]
              rw [advance_eq hb h1 hl1]; rfl
    · simp only [hc]; rfl

theorem P.mantissa_suffix {s r : List Char} {a b : Bool} (h : P.mantissa s a = some (r, b)) :
    r <:+ s := by
  have := floatMantissa_eq s 0 a
  rw [h] at this
  obtain ⟨t, rfl, -⟩ := this
  exact List.suffix_append _ _

theorem P.floatDigits_suffix {s r : List Char} (h : P.floatDigits s = some r) :
    r <:+ s ∧ r.length < s.length := by
  cases s with
  | nil => simp [P.floatDigits] at h
  | cons c s =>
    have key : r <:+ s → r <:+ c :: s ∧ r.length < (c :: s).length := by
      intro hs
      have := hs.length_le
      exact ⟨hs.trans (List.suffix_cons _ _), by simp; omega⟩
    simp only [P.floatDigits] at h
    split at h
    · cases hm : P.mantissa s false with
      | none => rw [hm] at h; simp at h
      | some x =>
        obtain ⟨r0, hd⟩ := x
        rw [hm] at h
        have hs0 := P.mantissa_suffix hm
        cases r0 with
        | nil =>
          simp only at h; split at h
          · simp at h; subst h; exact key hs0
          · simp at h
        | cons e r' =>
          simp only at h
          split at h
          · cases hx : P.exponent r' false false with
            | none =>
              rw [hx] at h; simp only at h
              split at h
              · simp at h; subst h; exact key hs0
              · simp at h
            | some r'' =>
              rw [hx] at h; simp at h; subst h
              obtain ⟨t2, rfl, -⟩ := P.exponent_some hx
              exact key ((List.suffix_append _ _).trans ((List.suffix_cons _ _).trans hs0))
          · split at h
            · simp at h; subst h; exact key hs0
            · simp at h
    · simp at h

theorem P.wordBreak_some {s r : List Char} (h : P.wordBreak s = some r) : r = s := by
  unfold P.wordBreak at h
  grind

theorem P.numTail_suffix {s r : List Char} (h : P.numTail s = some r) : r <:+ s := by
  unfold P.numTail at h
  split at h
  · simp at h; subst h; exact List.suffix_refl _
  · split at h
    · split at h
      · rename_i h'
        have := P.wordBreak_some h
        subst this
        exact (P.identNotRaw_suffix h').1
      · simp at h
    · have := P.wordBreak_some h
      subst this
      exact List.suffix_refl _

theorem numTail_eq {c : Cursor ο} (hb : Bnd c) :
    (match c.rest with
      | ch :: _ =>
        if isIdentStart ch then do
          let (rest, _) ← identNotRaw c
          wordBreak rest
        else wordBreak c
      | [] => wordBreak c) = lift c (P.numTail c.rest) := by
  unfold P.numTail
  rw [identNotRaw_eq hb, wordBreak_eq]
  cases hr : c.rest with
  | nil => rfl
  | cons ch s =>
    simp only
    split
    · cases h : P.identNotRaw (ch :: s) with
      | none => rfl
      | some x =>
        obtain ⟨sym, r⟩ := x
        simp only [lift2_some, Res.ok_bind]
        rw [wordBreak_eq, Cursor.to_rest]
        have := (P.identNotRaw_suffix h).1
        rw [← hr] at this
        apply lift_to this
        intro r' h'
        rw [P.wordBreak_some h']; exact List.suffix_refl _
    · rfl

theorem float_eq {c : Cursor ο} (hb : Bnd c) : float c = lift c (P.float c.rest) := by
  unfold float P.float
  rw [floatDigits_eq hb]
  cases h : P.floatDigits c.rest with
  | none => rfl
  | some r =>
    simp only [lift_some, Res.ok_bind, Option.bind_some]
    have hs := (P.floatDigits_suffix h).1
    refine (numTail_eq (hb.to hs)).trans ?_
    exact lift_to hs _ (fun r' h => P.numTail_suffix h)

/-! ### Integers -/

theorem P.digitsLoop_some {base : Nat} {s r : List Char} {e e' : Bool}
    (h : P.digitsLoop base s e = some (r, e')) :
    ∃ t, s = t ++ r ∧ (∀ c ∈ t, c.toNat < 128) ∧ (e = true → e' = false → t ≠ []) := by
  induction s generalizing e with
  | nil => simp [P.digitsLoop] at h; exact ⟨[], by simp [h], by simp, by grind⟩
  | cons c s ih =>
    have step : ∀ {e1}, c.toNat < 128 → P.digitsLoop base s e1 = some (r, e') →
        ∃ t, c :: s = t ++ r ∧ (∀ c ∈ t, c.toNat < 128) ∧ (e = true → e' = false → t ≠ []) := by
      intro e1 hc h
      obtain ⟨t, rfl, ht, -⟩ := ih h
      refine ⟨c :: t, rfl, ?_, by simp⟩
      intro x hx; simp at hx
      rcases hx with rfl | hx
      · exact hc
      · exact ht x hx
    have stop : some (c :: s, e) = some (r, e') →
        ∃ t, c :: s = t ++ r ∧ (∀ c ∈ t, c.toNat < 128) ∧ (e = true → e' = false → t ≠ []) := by
      intro h; simp at h
      exact ⟨[], by simp [h], by simp, by grind⟩
    have k9 : '9'.toNat = 57 := rfl
    have kf : 'f'.toNat = 102 := rfl
    have kF : 'F'.toNat = 70 := rfl
    simp only [P.digitsLoop] at h
    split at h
    · rename_i hc
      split at h
      · simp at h
      · exact step (by have := char_le_iff.mp hc.2; omega) h
    · split at h
      · rename_i hc
        split at h
        · exact stop h
        · exact step (by have := char_le_iff.mp hc.2; omega) h
      · split at h
        · rename_i hc
          split at h
          · exact stop h
          · exact step (by have := char_le_iff.mp hc.2; omega) h
        · split at h
          · rename_i hc
            split at h
            · simp at h
            · exact step (by subst hc; decide) h
          · exact stop h

theorem high_not_le {b : UInt8} (h : ¬ b < 128) {d : Char} (hd : d.toNat < 128) : ¬ b ≤ B d := by
  rw [UInt8.le_iff_toNat_le, B_toNat hd]
  rw [UInt8.lt_iff_toNat_lt] at h
  have : (128 : UInt8).toNat = 128 := rfl
  omega

theorem digitsLoop_eq (base : Nat) (s : List Char) : ∀ (len : Nat) (e : Bool),
    digitsLoop base (bytesOf s) len e =
      (P.digitsLoop base s e).map (fun x => (len + (s.length - x.1.length), x.2)) := by
  induction s with
  | nil => intro len e; simp [digitsLoop, P.digitsLoop]
  | cons c s ih =>
    intro len e
    have step : ∀ e', (P.digitsLoop base s e').map
          (fun x => (len + 1 + (s.length - x.1.length), x.2)) =
        (P.digitsLoop base s e').map (fun x => (len + ((c :: s).length - x.1.length), x.2)) := by
      intro e'
      cases h : P.digitsLoop base s e' with
      | none => rfl
      | some x =>
        obtain ⟨r, e''⟩ := x
        obtain ⟨t, rfl, -⟩ := P.digitsLoop_some h
        simp; omega
    by_cases ha : c.toNat < 128
    · rw [bytesOf_cons, encode_ascii ha]
      simp only [List.cons_append, List.nil_append, digitsLoop, P.digitsLoop]
      simp only [B_le_iff (c := '0') (by decide) ha, B_le_iff ha (d := '9') (by decide),
        B_le_iff (c := 'a') (by decide) ha, B_le_iff ha (d := 'f') (by decide),
        B_le_iff (c := 'A') (by decide) ha, B_le_iff ha (d := 'F') (by decide),
        B_inj ha (d := '_') (by decide), B_toNat ha]
      split
      · split
        · rfl
        · rw [ih, step]
      · split
        · split
          · simp
          · rw [ih, step]
        · split
          · split
            · simp
            · rw [ih, step]
          · split
            · split
              · rfl
              · rw [ih, step]
            · simp
    · obtain ⟨b, l, e1, hl, hB, hlt, hasc, hsz⟩ := bytes_cons c s
      have hb : ¬ b < 128 := fun h => ha (hlt.mp h)
      have k9 : '9'.toNat = 57 := rfl
      have kf : 'f'.toNat = 102 := rfl
      have kF : 'F'.toNat = 70 := rfl
      rw [e1]
      simp only [digitsLoop, P.digitsLoop]
      rw [if_neg (fun h => high_not_le hb (by decide) h.2), if_neg (fun h => high_not_le hb (by decide) h.2),
        if_neg (fun h => high_not_le hb (by decide) h.2), if_neg (high_ne hb (by decide)),
        if_neg (fun h => ha (by have := char_le_iff.mp h.2; omega)),
        if_neg (fun h => ha (by have := char_le_iff.mp h.2; omega)),
        if_neg (fun h => ha (by have := char_le_iff.mp h.2; omega)),
        if_neg (fun h => ha (by subst h; decide))]
      simp

theorem P.digitsBase_suffix (s : List Char) : (P.digitsBase s).1 <:+ s := by
  unfold P.digitsBase
  split
  · exact List.drop_suffix _ _
  · split
    · exact List.drop_suffix _ _
    · split
      · exact List.drop_suffix _ _
      · exact List.suffix_refl _

theorem P.digits_suffix {s r : List Char} (h : P.digits s = some r) :
    r <:+ s ∧ r.length < s.length := by
  unfold P.digits at h
  split at h
  · rename_i r' h'
    simp at h; subst h
    obtain ⟨t, ht, -, hne⟩ := P.digitsLoop_some h'
    have := P.digitsBase_suffix s
    have hs : r' <:+ (P.digitsBase s).1 := ⟨t, ht.symm⟩
    refine ⟨hs.trans this, ?_⟩
    have h1 := this.length_le
    have h2 := List.length_pos_iff.mpr (hne rfl rfl)
    rw [ht] at h1
    simp at h1; omega
  · simp at h

theorem digits_eq {c : Cursor ο} (hb : Bnd c) : digits c = lift c (P.digits c.rest) := by
  have hpre : (if startsWith c.rest ['0', 'x'] then do .ok (← advance c 2, 16)
     else if startsWith c.rest ['0', 'o'] then do .ok (← advance c 2, 8)
     else if startsWith c.rest ['0', 'b'] then do .ok (← advance c 2, 2)
     else .ok (c, 10) : PRes (Cursor ο × Nat)) =
      .ok (c.to (P.digitsBase c.rest).1, (P.digitsBase c.rest).2) := by
    unfold P.digitsBase
    split
    · rename_i h; rw [advance_eq (n := 2) hb (startsWith_drop h) rfl]; rfl
    · split
      · rename_i h; rw [advance_eq (n := 2) hb (startsWith_drop h) rfl]; rfl
      · split
        · rename_i h; rw [advance_eq (n := 2) hb (startsWith_drop h) rfl]; rfl
        · simp [Cursor.to_self]
  unfold digits P.digits
  rw [hpre, Res.ok_bind]
  simp only [Cursor.to_rest]
  rw [digitsLoop_eq]
  have hs := P.digitsBase_suffix c.rest
  cases h : P.digitsLoop (P.digitsBase c.rest).2 (P.digitsBase c.rest).1 true with
  | none => rfl
  | some x =>
    obtain ⟨r, e⟩ := x
    obtain ⟨t, ht, hta, -⟩ := P.digitsLoop_some h
    simp only [Option.map_some]
    cases e with
    | true => rfl
    | false =>
      simp only [Bool.false_eq_true, if_false]
      rw [advance_eq (hb.to hs) (t := t) (r := r) ht (by rw [strLen_ascii hta, ht]; simp)]
      rw [Cursor.to_to hs ⟨t, ht.symm⟩]; rfl

theorem int_eq {c : Cursor ο} (hb : Bnd c) : int c = lift c (P.int c.rest) := by
  unfold int P.int
  rw [digits_eq hb]
  cases h : P.digits c.rest with
  | none => rfl
  | some r =>
    simp only [lift_some, Res.ok_bind, Option.bind_some]
    have hs := (P.digits_suffix h).1
    refine (numTail_eq (hb.to hs)).trans ?_
    exact lift_to hs _ (fun r' h => P.numTail_suffix h)

/-! ### Literals -/

theorem lift_ifOk_ok (c : Cursor ο) (o : Option (List Char)) (h : Unit → PRes (Cursor ο)) :
    (lift c o).ifOk .ok h = match o with | some r => .ok (c.to r) | none => h () := by
  cases o <;> rfl

theorem literalNocapture_eq {c : Cursor ο} (hb : Bnd c) :
    literalNocapture c = lift c (P.literal c.rest) := by
  unfold literalNocapture P.literal
  rw [string_eq hb, byteString_eq hb, cString_eq hb, byte_eq hb, character_eq hb, float_eq hb,
    int_eq hb]
  simp only [lift_ifOk_ok]
  cases P.strLit .str c.rest with
  | some r => rfl
  | none =>
    cases P.strLit .byte c.rest with
    | some r => rfl
    | none =>
      cases P.strLit .c c.rest with
      | some r => rfl
      | none =>
        cases P.byteLit c.rest with
        | some r => rfl
        | none =>
          cases P.charLit c.rest with
          | some r => rfl
          | none =>
            cases P.float c.rest with
            | some r => rfl
            | none =>
              cases P.int c.rest <;> rfl

theorem P.strLit_suffix {k : P.Kind} {s r : List Char} (h : P.strLit k s = some r) :
    r <:+ s ∧ r.length < s.length := by
  unfold P.strLit P.strBody at h
  have hd : s.drop ((P.kpre k).length + 1) <:+ s := List.drop_suffix _ _
  split at h
  · cases hc : P.cooked k (s.drop ((P.kpre k).length + 1)) with
    | none => rw [hc] at h; simp at h
    | some r' =>
      rw [hc] at h; simp at h; subst h
      have h1 := P.cooked_suffix hc
      have h2 := P.literalSuffix_suffix r'
      have := h2.length_le; have := hd.length_le
      exact ⟨(h2.trans h1.1).trans hd, by have := h1.2; omega⟩
  · split at h
    · unfold P.rawLit at h
      split at h
      · rename_i n s' hdl
        cases hc : P.raw k n s' with
        | none => rw [hc] at h; simp at h
        | some r' =>
          rw [hc] at h; simp at h; subst h
          have h1 := P.raw_suffix hc
          have h0 := P.delim_suffix hdl
          have h2 := P.literalSuffix_suffix r'
          have := h2.length_le; have := hd.length_le
          exact ⟨((h2.trans h1.1).trans h0.1).trans hd, by have := h1.2; have := h0.2; omega⟩
      · simp at h
    · simp at h

theorem P.charLit_suffix {s r : List Char} (h : P.charLit s = some r) :
    r <:+ s ∧ r.length < s.length := by
  unfold P.charLit P.charBody at h
  have hd : s.drop 1 <:+ s := List.drop_suffix _ _
  split at h
  · cases hc : P.charElem (s.drop 1) with
    | none => rw [hc] at h; simp at h
    | some r' =>
      rw [hc] at h
      simp only [Option.bind_some] at h
      cases hq : P.quote r' with
      | none => rw [hq] at h; simp at h
      | some q =>
        rw [hq] at h; simp at h; subst h
        obtain ⟨t, ht, e, -⟩ := P.charElem_stable hc
        have := P.quote_some hq
        subst this
        have h2 := P.literalSuffix_suffix q
        have := h2.length_le; have := hd.length_le
        have hh : '\'' :: q <:+ s.drop 1 := ⟨t, e.symm⟩
        have := hh.length_le
        exact ⟨((h2.trans (List.suffix_cons _ _)).trans hh).trans hd, by simp at *; omega⟩
  · simp at h

theorem P.byteLit_suffix {s r : List Char} (h : P.byteLit s = some r) :
    r <:+ s ∧ r.length < s.length := by
  unfold P.byteLit P.byteBody at h
  have hd : s.drop 2 <:+ s := List.drop_suffix _ _
  split at h
  · cases hc : P.byteElem (s.drop 2) with
    | none => rw [hc] at h; simp at h
    | some r' =>
      rw [hc] at h
      simp only [Option.bind_some] at h
      cases hq : P.quote r' with
      | none => rw [hq] at h; simp at h
      | some q =>
        rw [hq] at h; simp at h; subst h
        obtain ⟨t, ht, e, -⟩ := P.byteElem_stable hc
        have := P.quote_some hq
        subst this
        have h2 := P.literalSuffix_suffix q
        have := h2.length_le; have := hd.length_le
        have hh : '\'' :: q <:+ s.drop 2 := ⟨t, e.symm⟩
        have := hh.length_le
        exact ⟨((h2.trans (List.suffix_cons _ _)).trans hh).trans hd, by simp at *; omega⟩
  · simp at h

theorem P.float_suffix {s r : List Char} (h : P.float s = some r) :
    r <:+ s ∧ r.length < s.length := by
  unfold P.float at h
  cases h1 : P.floatDigits s with
  | none => rw [h1] at h; simp at h
  | some r1 =>
    rw [h1] at h; simp at h
    have a := P.floatDigits_suffix h1
    have b := P.numTail_suffix h
    exact ⟨b.trans a.1, by have := b.length_le; omega⟩

theorem P.int_suffix {s r : List Char} (h : P.int s = some r) :
    r <:+ s ∧ r.length < s.length := by
  unfold P.int at h
  cases h1 : P.digits s with
  | none => rw [h1] at h; simp at h
  | some r1 =>
    rw [h1] at h; simp at h
    have a := P.digits_suffix h1
    have b := P.numTail_suffix h
    exact ⟨b.trans a.1, by have := b.length_le; omega⟩

theorem P.literal_cases {s r : List Char} (h : P.literal s = some r) :
    (∃ k, P.strLit k s = some r) ∨ P.byteLit s = some r ∨ P.charLit s = some r ∨
      P.float s = some r ∨ P.int s = some r := by
  unfold P.literal at h
  cases h1 : P.strLit .str s with
  | some x => rw [h1] at h; exact .inl ⟨.str, h1.trans h⟩
  | none =>
    cases h2 : P.strLit .byte s with
    | some x => rw [h1, h2] at h; exact .inl ⟨.byte, h2.trans h⟩
    | none =>
      cases h3 : P.strLit .c s with
      | some x => rw [h1, h2, h3] at h; exact .inl ⟨.c, h3.trans h⟩
      | none =>
        cases h4 : P.byteLit s with
        | some x => rw [h1, h2, h3, h4] at h; exact .inr (.inl h)
        | none =>
          cases h5 : P.charLit s with
          | some x => rw [h1, h2, h3, h4, h5] at h; exact .inr (.inr (.inl h))
          | none =>
            cases h6 : P.float s with
            | some x => rw [h1, h2, h3, h4, h5, h6] at h; exact .inr (.inr (.inr (.inl h)))
            | none =>
              rw [h1, h2, h3, h4, h5, h6] at h; exact .inr (.inr (.inr (.inr h)))

theorem P.literal_suffix {s r : List Char} (h : P.literal s = some r) :
    r <:+ s ∧ r.length < s.length := by
  rcases P.literal_cases h with ⟨k, h⟩ | h | h | h | h
  · exact P.strLit_suffix h
  · exact P.byteLit_suffix h
  · exact P.charLit_suffix h
  · exact P.float_suffix h
  · exact P.int_suffix h

theorem literal_eq {c : Cursor ο} (hb : Bnd c) :
    literal c = lift2 c (fun r => r) (fun r => P.eaten c.rest r) (P.literal c.rest) := by
  unfold literal
  rw [literalNocapture_eq hb]
  cases h : P.literal c.rest with
  | none => rfl
  | some r =>
    have hs := (P.literal_suffix h).1
    simp only [lift_some, Res.ok_bind, Cursor.to_rest, lift2_some]
    rw [sliceTo_eq (eaten_append hs)]
    · rfl
    · conv => lhs; rw [eaten_append hs]
      rw [strLen_append]
      have : P.eaten (P.eaten c.rest r ++ r) r = P.eaten c.rest r := by rw [← eaten_append hs]
      omega

/-! ### Punctuation -/

theorem recognized_facts : ∀ c ∈ recognizedPunct,
    c.utf8Size = 1 ∧ isPunctCtorChar c = true := by
  decide

theorem punctChar_eq {c : Cursor ο} (hb : Bnd c) :
    punctChar c = lift2 c (·.2) (·.1) (P.punctChar c.rest) := by
  unfold punctChar P.punctChar
  split
  · rfl
  · cases hr : c.rest with
    | nil => rfl
    | cons ch s =>
      simp only
      split
      · rw [advance_eq hb (t := [ch]) (r := s) (by rw [hr]; rfl) (by simp)]; rfl
      · rfl

theorem P.punctChar_some {s r : List Char} {ch : Char} (h : P.punctChar s = some (ch, r)) :
    s = ch :: r ∧ ch ∈ recognizedPunct := by
  unfold P.punctChar at h
  split at h
  · simp at h
  · split at h
    · simp at h
    · split at h
      · rename_i hc
        simp at h; obtain ⟨rfl, rfl⟩ := h
        exact ⟨rfl, List.contains_iff_mem.mp hc⟩
      · simp at h

theorem punctNew_eq {ε : Type} {ch : Char} (h : ch ∈ recognizedPunct) (sp : Spacing) :
    punctNew (ε := ε) ch sp = .ok (.punct ch sp Span.callSite) := by
  unfold punctNew
  rw [if_pos (recognized_facts ch h).2]

theorem punct_eq {c : Cursor ο} (hb : Bnd c) :
    punct c = lift2 c (·.2.2) (fun x => TokenTree.punct x.1 x.2.1 Span.callSite)
      (P.punct c.rest) := by
  unfold punct P.punct
  rw [punctChar_eq hb]
  cases h : P.punctChar c.rest with
  | none => rfl
  | some x =>
    obtain ⟨ch, r⟩ := x
    obtain ⟨hr, hm⟩ := P.punctChar_some h
    have hs : r <:+ c.rest := by rw [hr]; exact List.suffix_cons _ _
    simp only [lift2_some, Res.ok_bind]
    split
    · rw [identAny_eq (hb.to hs)]
      simp only [Cursor.to_rest]
      cases h2 : P.identAny r with
      | none => rfl
      | some y =>
        obtain ⟨sym, raw, after⟩ := y
        simp only [lift2_some, Res.ok_bind, Cursor.to_rest]
        rename_i hq
        subst hq
        rw [punctNew_eq hm]
        by_cases hx : (startsWithChar after '\'' ||
          startsWithChar after '#' && !startsWith r ['r', '#']) = true
        · rw [if_pos hx]; exact if_pos hx
        · rw [if_neg hx]; exact if_neg hx
    · rw [punctChar_eq (hb.to hs), Cursor.to_rest, punctNew_eq hm, punctNew_eq hm]
      cases h2 : P.punctChar r with
      | none => rfl
      | some y => rfl

theorem P.punct_some {s r : List Char} {ch : Char} {sp : Spacing}
    (h : P.punct s = some (ch, sp, r)) : s = ch :: r ∧ ch ∈ recognizedPunct := by
  unfold P.punct at h
  cases hp : P.punctChar s with
  | none => rw [hp] at h; simp at h
  | some x =>
    obtain ⟨c', r'⟩ := x
    obtain ⟨hr, hm⟩ := P.punctChar_some hp
    rw [hp] at h
    simp only at h
    split at h
    · rename_i hq
      subst hq
      cases h2 : P.identAny r' with
      | none => rw [h2] at h; simp at h
      | some y =>
        obtain ⟨sym, raw, after⟩ := y
        rw [h2] at h
        simp only at h
        split at h
        · simp at h
        · simp at h; obtain ⟨rfl, rfl, rfl⟩ := h; exact ⟨hr, hm⟩
    · simp at h; obtain ⟨rfl, rfl, rfl⟩ := h; exact ⟨hr, hm⟩

/-! ### Leaf tokens -/

theorem leafToken_eq {c : Cursor ο} (hb : Bnd c) :
    leafToken c = lift2 c (·.2) (fun x => x.1.tok Span.callSite) (P.leaf c.rest) := by
  unfold leafToken P.leaf
  rw [literal_eq hb, punct_eq hb, ident_eq hb]
  cases h1 : P.literal c.rest with
  | some r => rfl
  | none =>
    simp only [lift2_none, Res.ifOk_err]
    cases h2 : P.punct c.rest with
    | some x => obtain ⟨ch, sp, r⟩ := x; rfl
    | none =>
      simp only [lift2_none, Res.ifOk_err]
      cases h3 : P.ident c.rest with
      | some x => obtain ⟨sym, raw, r⟩ := x; rfl
      | none =>
        simp only [lift2_none, Res.ifOk_err]
        split
        · rename_i he
          rw [advance_eq hb (startsWith_drop he) rfl]; rfl
        · rfl

theorem P.leaf_suffix {s r : List Char} {l : P.Leaf} (h : P.leaf s = some (l, r)) :
    r <:+ s ∧ r.length < s.length := by
  unfold P.leaf at h
  cases h1 : P.literal s with
  | some r' => rw [h1] at h; simp at h; obtain ⟨-, rfl⟩ := h; exact P.literal_suffix h1
  | none =>
    rw [h1] at h
    simp only at h
    cases h2 : P.punct s with
    | some x =>
      obtain ⟨ch, sp, r'⟩ := x
      rw [h2] at h; simp at h; obtain ⟨-, rfl⟩ := h
      rw [(P.punct_some h2).1]
      exact ⟨List.suffix_cons _ _, by simp⟩
    | none =>
      rw [h2] at h
      simp only at h
      cases h3 : P.ident s with
      | some x =>
        obtain ⟨sym, raw, r'⟩ := x
        rw [h3] at h; simp at h; obtain ⟨-, rfl⟩ := h
        exact P.ident_suffix h3
      | none =>
        rw [h3] at h
        simp only at h
        split at h
        · rename_i he
          simp at h; obtain ⟨-, rfl⟩ := h
          obtain ⟨r, rfl⟩ := startsWith_iff.mp he
          refine ⟨List.drop_suffix _ _, ?_⟩
          simp
          decide
        · simp at h

end
end PM2
