import Verif.Proof.Refine1
/-! # Refinement, part 2: escapes and string literals -/

set_option linter.unusedSectionVars false

namespace PM2

variable {ο : Type} [Pos ο] [LawfulPos ο]

/-! ### Consumption of the pure functions: what is eaten, and that it does not depend on the rest -/

theorem P.xEsc_stable {k : P.Kind} {s r : List Char} (h : P.xEsc k s = some r) :
    ∃ t, t.length = 2 ∧ strLen t = 2 ∧ s = t ++ r ∧ ∀ r', P.xEsc k (t ++ r') = some r' := by
  have asc : ∀ c, isHexChar c = true → c.toNat < 128 := by
    intro c hc
    simp only [isHexChar, Bool.or_eq_true, Bool.and_eq_true, decide_eq_true_eq] at hc
    rcases hc with (h | h) | h <;> exact Nat.lt_of_le_of_lt h.2 (by decide)
  cases s with
  | nil => simp [P.xEsc] at h
  | cons c1 s =>
    cases s with
    | nil => simp [P.xEsc] at h
    | cons c2 s =>
      cases k with
      | str =>
        simp only [P.xEsc] at h
        split at h
        · rename_i hc
          simp at h; subst h
          have h1 : c1.toNat < 128 := Nat.lt_of_le_of_lt hc.1.2 (by decide)
          refine ⟨[c1, c2], rfl, ?_, rfl, fun r' => ?_⟩
          · simp [utf8Size_ascii h1, utf8Size_ascii (asc _ hc.2)]
          · simp only [List.cons_append, List.nil_append, P.xEsc]; rw [if_pos hc]
        · simp at h
      | byte =>
        simp only [P.xEsc] at h
        split at h
        · rename_i hc
          simp at h; subst h
          refine ⟨[c1, c2], rfl, ?_, rfl, fun r' => ?_⟩
          · simp [utf8Size_ascii (asc _ hc.1), utf8Size_ascii (asc _ hc.2)]
          · simp only [List.cons_append, List.nil_append, P.xEsc]; rw [if_pos hc]
        · simp at h
      | c =>
        simp only [P.xEsc] at h
        split at h
        · rename_i hc
          simp at h; subst h
          refine ⟨[c1, c2], rfl, ?_, rfl, fun r' => ?_⟩
          · simp [utf8Size_ascii (asc _ hc.1), utf8Size_ascii (asc _ hc.2.1)]
          · simp only [List.cons_append, List.nil_append, P.xEsc]; rw [if_pos hc]
        · simp at h

theorem P.uLoop_stable {s r : List Char} {v l : Nat} {c : Char} (h : P.uLoop s v l = some (c, r)) :
    ∃ t, t ≠ [] ∧ s = t ++ r ∧ ∀ r', P.uLoop (t ++ r') v l = some (c, r') := by
  fun_induction P.uLoop s v l with
  | case1 => simp at h
  | case2 => simp at h
  | case3 ch s v l d hd hl ih =>
    obtain ⟨t, ht, rfl, hr⟩ := ih h
    exact ⟨ch :: t, by simp, rfl, fun r' => by
      simp only [List.cons_append, P.uLoop, hd]; rw [if_neg hl]; exact hr r'⟩
  | case4 ch s v l hd hc ih =>
    obtain ⟨t, ht, rfl, hr⟩ := ih h
    exact ⟨ch :: t, by simp, rfl, fun r' => by
      simp only [List.cons_append, P.uLoop, hd]; rw [if_pos hc]; exact hr r'⟩
  | case5 ch s v l hd hc1 hc2 c' hc' =>
    simp at h; obtain ⟨rfl, rfl⟩ := h
    exact ⟨[ch], by simp, rfl, fun r' => by
      simp only [List.cons_append, List.nil_append, P.uLoop, hd]
      rw [if_neg hc1, if_pos hc2, hc']⟩
  | case6 => simp at h
  | case7 => simp at h

theorem P.uEsc_stable {s r : List Char} {c : Char} (h : P.uEsc s = some (c, r)) :
    ∃ t, t ≠ [] ∧ s = t ++ r ∧ ∀ r', P.uEsc (t ++ r') = some (c, r') := by
  cases s with
  | nil => simp [P.uEsc] at h
  | cons ch s =>
    simp only [P.uEsc] at h
    split at h
    · rename_i hc
      obtain ⟨t, ht, rfl, hr⟩ := P.uLoop_stable h
      exact ⟨ch :: t, by simp, rfl, fun r' => by
        simp only [List.cons_append, P.uEsc]; rw [if_pos hc]; exact hr r'⟩
    · simp at h

/-- after a carriage return: a newline, then trailing whitespace -/
def P.crTrailing : List Char → Option (List Char)
  | c2 :: s => if c2 = '\n' then P.trailing s else none
  | [] => none

theorem P.trailing_nil : P.trailing [] = none := by rw [P.trailing.eq_def]
theorem P.trailing_cons (c : Char) (s : List Char) :
    P.trailing (c :: s) = if c = ' ' ∨ c = '\t' ∨ c = '\n' then P.trailing s
      else if c = '\r' then P.crTrailing s else some (c :: s) := by
  rw [P.trailing.eq_def]
  simp only
  congr 2

theorem P.trailing_stable {s r : List Char} (h : P.trailing s = some r) :
    ∃ t, s = t ++ r ∧ r ≠ [] ∧ ∀ r', r'.head? = r.head? → P.trailing (t ++ r') = some r' := by
  induction hn : s.length using Nat.strongRecOn generalizing s with
  | _ n ih =>
    cases s with
    | nil => simp [P.trailing_nil] at h
    | cons c s =>
      rw [P.trailing_cons] at h
      split at h
      · rename_i hc
        obtain ⟨t, rfl, hne, hr⟩ := ih s.length (by simp at hn; omega) h rfl
        exact ⟨c :: t, rfl, hne, fun r' hh => by
          rw [List.cons_append, P.trailing_cons, if_pos hc]; exact hr r' hh⟩
      · rename_i hc1
        split at h
        · rename_i hc2
          cases s with
          | nil => simp [P.crTrailing] at h
          | cons c2 s =>
            simp only [P.crTrailing] at h
            split at h
            · rename_i hc3
              obtain ⟨t, rfl, hne, hr⟩ := ih s.length (by simp at hn; omega) h rfl
              exact ⟨c :: c2 :: t, rfl, hne, fun r' hh => by
                rw [List.cons_append, P.trailing_cons, if_neg hc1, if_pos hc2]
                simp only [List.cons_append, P.crTrailing]
                rw [if_pos hc3]; exact hr r' hh⟩
            · simp at h
        · rename_i hc2
          simp at h; subst h
          exact ⟨[], rfl, by simp, fun r' hh => by
            cases r' with
            | nil => simp at hh
            | cons c' r' =>
              simp at hh; subst hh
              rw [List.nil_append, P.trailing_cons, if_neg hc1, if_neg hc2]⟩

theorem P.esc_stable {k : P.Kind} {s r : List Char} (h : P.esc k s = some r) :
    ∃ t, t ≠ [] ∧ s = t ++ r ∧ ∀ r', r'.head? = r.head? → P.esc k (t ++ r') = some r' := by
  cases s with
  | nil => simp [P.esc] at h
  | cons c s =>
    simp only [P.esc] at h
    split at h
    · rename_i hc
      obtain ⟨t, -, -, rfl, hr⟩ := P.xEsc_stable h
      exact ⟨c :: t, by simp, rfl, fun r' _ => by
        simp only [List.cons_append, P.esc]; rw [if_pos hc]; exact hr r'⟩
    · rename_i hc1
      split at h
      · rename_i hc2
        simp at h; subst h
        exact ⟨[c], by simp, rfl, fun r' _ => by
          simp only [List.cons_append, List.nil_append, P.esc]; rw [if_neg hc1, if_pos hc2]⟩
      · rename_i hc2
        split at h
        · rename_i hc3
          split at h
          · simp at h
          · rename_i hk
            simp at h; subst h
            exact ⟨[c], by simp, rfl, fun r' _ => by
              simp only [List.cons_append, List.nil_append, P.esc]
              rw [if_neg hc1, if_neg hc2, if_pos hc3, if_neg hk]⟩
        · rename_i hc3
          split at h
          · rename_i hc4
            split at h
            · simp at h
            · rename_i hk
              split at h
              · rename_i v r0 hu
                split at h
                · simp at h
                · rename_i hk2
                  simp at h; subst h
                  obtain ⟨t, ht, rfl, hr⟩ := P.uEsc_stable hu
                  exact ⟨c :: t, by simp, rfl, fun r' _ => by
                    simp only [List.cons_append, P.esc]
                    rw [if_neg hc1, if_neg hc2, if_neg hc3, if_pos hc4, if_neg hk, hr r']
                    simp only
                    rw [if_neg hk2]⟩
              · simp at h
          · rename_i hc4
            split at h
            · rename_i hc5
              obtain ⟨t, rfl, -, hr⟩ := P.trailing_stable h
              exact ⟨c :: t, by simp, rfl, fun r' hh => by
                simp only [List.cons_append, P.esc]
                rw [if_neg hc1, if_neg hc2, if_neg hc3, if_neg hc4, if_pos hc5]; exact hr r' hh⟩
            · rename_i hc5
              split at h
              · rename_i hc6
                split at h
                · rename_i c2 s
                  split at h
                  · rename_i hc7
                    obtain ⟨t, rfl, -, hr⟩ := P.trailing_stable h
                    exact ⟨c :: c2 :: t, by simp, rfl, fun r' hh => by
                      simp only [List.cons_append, P.esc]
                      rw [if_neg hc1, if_neg hc2, if_neg hc3, if_neg hc4, if_neg hc5, if_pos hc6,
                        if_pos hc7]
                      exact hr r' hh⟩
                  · simp at h
                · simp at h
              · simp at h

theorem P.cookedUnit_stable {k : P.Kind} {s r : List Char} (h : P.cookedUnit k s = some r) :
    ∃ t, t ≠ [] ∧ s = t ++ r ∧ ∀ r', r'.head? = r.head? → P.cookedUnit k (t ++ r') = some r' := by
  cases s with
  | nil => simp [P.cookedUnit] at h
  | cons c s =>
    simp only [P.cookedUnit] at h
    split at h
    · rename_i hc
      split at h
      · rename_i c2 s
        split at h
        · rename_i hc2
          simp at h; subst h
          exact ⟨[c, c2], by simp, rfl, fun r' _ => by
            simp only [List.cons_append, List.nil_append, P.cookedUnit]; rw [if_pos hc, if_pos hc2]⟩
        · simp at h
      · simp at h
    · rename_i hc1
      split at h
      · rename_i hc2
        obtain ⟨t, ht, rfl, hr⟩ := P.esc_stable h
        exact ⟨c :: t, by simp, rfl, fun r' hh => by
          simp only [List.cons_append, P.cookedUnit]; rw [if_neg hc1, if_pos hc2]; exact hr r' hh⟩
      · rename_i hc2
        split at h
        · simp at h
        · rename_i hc3
          simp at h; subst h
          exact ⟨[c], by simp, rfl, fun r' _ => by
            simp only [List.cons_append, List.nil_append, P.cookedUnit]
            rw [if_neg hc1, if_neg hc2, if_neg hc3]⟩

theorem P.cookedUnit_suffix {k : P.Kind} {s r : List Char} (h : P.cookedUnit k s = some r) :
    r <:+ s ∧ r.length < s.length := by
  obtain ⟨t, ht, rfl, -⟩ := P.cookedUnit_stable h
  have := List.length_pos_iff.mpr ht
  exact ⟨List.suffix_append _ _, by simp; omega⟩

theorem P.cooked_cons (k : P.Kind) (c : Char) (t : List Char) :
    P.cooked k (c :: t) = if c = '"' then some t else
      match P.cookedUnit k (c :: t) with
      | some r => P.cooked k r
      | none => none := by
  rw [P.cooked]
  split
  · rfl
  · cases h : P.cookedUnit k (c :: t) with
    | none => rfl
    | some r =>
      have := (P.cookedUnit_suffix h).2
      simp at this
      simp [this]

theorem P.cooked_nil (k : P.Kind) : P.cooked k [] = none := by rw [P.cooked]

theorem P.cooked_stable {k : P.Kind} {s r : List Char} (h : P.cooked k s = some r) :
    ∃ t, t ≠ [] ∧ s = t ++ r ∧ ∀ r', P.cooked k (t ++ r') = some r' := by
  induction hn : s.length using Nat.strongRecOn generalizing s with
  | _ n ih =>
    cases s with
    | nil => rw [P.cooked_nil] at h; simp at h
    | cons c s =>
      rw [P.cooked_cons] at h
      split at h
      · rename_i hc
        simp at h; subst h
        exact ⟨[c], by simp, rfl, fun r' => by
          rw [List.cons_append, P.cooked_cons, if_pos hc]; rfl⟩
      · rename_i hc
        split at h
        · rename_i s1 hu
          obtain ⟨t1, ht1, e1, hr1⟩ := P.cookedUnit_stable hu
          have hl := (P.cookedUnit_suffix hu).2
          obtain ⟨t2, ht2, rfl, hr2⟩ := ih _ (by omega) h rfl
          cases t1 with
          | nil => exact absurd rfl ht1
          | cons a t1 =>
            simp at e1; obtain ⟨rfl, e1⟩ := e1
            refine ⟨c :: (t1 ++ t2), by simp, by simp [e1], fun r' => ?_⟩
            rw [List.cons_append, P.cooked_cons, if_neg hc]
            have := hr1 (t2 ++ r') (by cases t2 with
              | nil => exact absurd rfl ht2
              | cons => rfl)
            rw [List.cons_append] at this
            rw [List.append_assoc, this]
            exact hr2 r'
        · simp at h

theorem P.cooked_suffix {k : P.Kind} {s r : List Char} (h : P.cooked k s = some r) :
    r <:+ s ∧ r.length < s.length := by
  obtain ⟨t, ht, rfl, -⟩ := P.cooked_stable h
  have := List.length_pos_iff.mpr ht
  exact ⟨List.suffix_append _ _, by simp; omega⟩

/-! ### Refinement of the escapes -/

/-- Result of a sub-parser on an iterator over characters: new iterator state. -/
def liftI (s : List Char) (i : Nat) : Option (List Char) → PRes (List Char × Nat)
  | none => .err ()
  | some r => .ok (r, i + (strLen s - strLen r))

theorem backslashXChar_eq (s : List Char) (i : Nat) :
    backslashXChar s i = liftI s i (P.xEsc .str s) := by
  unfold backslashXChar
  cases s with
  | nil => rfl
  | cons c1 s =>
    cases s with
    | nil => simp [P.xEsc, liftI]
    | cons c2 s =>
      simp only [P.xEsc]
      by_cases h1 : '0' ≤ c1 ∧ c1 ≤ '7'
      · rw [if_pos h1]
        by_cases h2 : isHexChar c2 = true
        · rw [if_pos h2, if_pos ⟨h1, h2⟩]; simp [liftI]; omega
        · rw [if_neg h2, if_neg (fun h => h2 h.2)]; rfl
      · rw [if_neg h1, if_neg (fun h => h1 h.1)]; rfl

theorem backslashXNonzero_eq (s : List Char) (i : Nat) :
    backslashXNonzero s i = liftI s i (P.xEsc .c s) := by
  unfold backslashXNonzero
  cases s with
  | nil => rfl
  | cons c1 s =>
    cases s with
    | nil => simp [P.xEsc, liftI]
    | cons c2 s =>
      simp only [P.xEsc]
      by_cases h1 : isHexChar c1 = true
      · rw [if_pos h1]
        by_cases h2 : isHexChar c2 = true
        · rw [if_pos h2]
          by_cases h3 : c1 = '0' ∧ c2 = '0'
          · rw [if_pos h3, if_neg (fun h => h.2.2 h3)]; rfl
          · rw [if_neg h3, if_pos ⟨h1, h2, h3⟩]; simp [liftI]; omega
        · rw [if_neg h2, if_neg (fun h => h2 h.2.1)]; rfl
      · rw [if_neg h1, if_neg (fun h => h1 h.1)]; rfl

def liftU (s : List Char) (i : Nat) : Option (Char × List Char) → PRes (Char × List Char × Nat)
  | none => .err ()
  | some (c, r) => .ok (c, r, i + (strLen s - strLen r))

theorem backslashULoop_eq (s : List Char) (v l : Nat) : ∀ (i : Nat),
    backslashULoop s i v l = liftU s i (P.uLoop s v l) := by
  fun_induction P.uLoop s v l with
  | case1 => intro i; rfl
  | case2 => intro i; simp [backslashULoop, liftU, *]
  | case3 ch s v l d hd hl ih =>
    intro i
    simp only [backslashULoop, hd]; rw [if_neg hl, ih]
    cases h : P.uLoop s (v * 16 + d) (l + 1) with
    | none => rfl
    | some x =>
      obtain ⟨c, r⟩ := x
      obtain ⟨t, ht, rfl, -⟩ := P.uLoop_stable h
      simp [liftU]; omega
  | case4 ch s v l hd hc ih =>
    intro i
    simp only [backslashULoop, hd]; rw [if_pos hc, ih]
    cases h : P.uLoop s v l with
    | none => rfl
    | some x =>
      obtain ⟨c, r⟩ := x
      obtain ⟨t, ht, rfl, -⟩ := P.uLoop_stable h
      simp [liftU]; omega
  | case5 ch s v l hd hc1 hc2 c' hc' =>
    intro i
    simp only [backslashULoop, hd]; rw [if_neg hc1, if_pos hc2, hc']
    simp [liftU]
  | case6 ch s v l hd hc1 hc2 hc' =>
    intro i
    simp only [backslashULoop, hd]; rw [if_neg hc1, if_pos hc2, hc']
    rfl
  | case7 ch s v l hd hc1 hc2 =>
    intro i
    simp only [backslashULoop, hd]; rw [if_neg hc1, if_neg hc2]; rfl

theorem backslashU_eq (s : List Char) (i : Nat) : backslashU s i = liftU s i (P.uEsc s) := by
  cases s with
  | nil => rfl
  | cons ch s =>
    simp only [backslashU, P.uEsc]
    split
    · rw [backslashULoop_eq]
      cases h : P.uLoop s 0 0 with
      | none => rfl
      | some x =>
        obtain ⟨c, r⟩ := x
        obtain ⟨t, ht, rfl, -⟩ := P.uLoop_stable h
        simp [liftU]; omega
    · rfl

theorem trailingBackslashLoop_eq {input : Cursor ο} (hb : Bnd input) : ∀ (n : Nat) (s : List Char),
    s.length ≤ n → ∀ (pre : List Char) (i : Nat) (last : UInt8), input.rest = pre ++ s → i = strLen pre →
      trailingBackslashLoop input (bytesOf s) i last =
        lift input (if last = B '\r' then P.crTrailing s else P.trailing s) := by
  intro n
  induction n with
  | zero =>
    intro s hs pre i last h hi
    have : s = [] := List.eq_nil_of_length_eq_zero (by omega)
    subst this
    unfold trailingBackslashLoop
    simp only [bytesOf_nil]
    split <;> rfl
  | succ n ih =>
    -- the non-CR step
    have main : ∀ (s : List Char), s.length ≤ n + 1 → ∀ (pre : List Char) (i : Nat),
        input.rest = pre ++ s → i = strLen pre →
        (match bytesOf s with
          | b' :: rest =>
            if b' = B ' ' ∨ b' = B '\t' ∨ b' = B '\n' ∨ b' = B '\r' then
              trailingBackslashLoop input rest (i + 1) b'
            else advance input i
          | [] => reject) = lift input (P.trailing s) := by
      intro s hs pre i h hi
      cases s with
      | nil => rfl
      | cons c s =>
        simp at hs
        obtain ⟨b, l, e, hl, hB, hlt, hasc, hsz⟩ := bytes_cons c s
        rw [e]; simp only
        have hws : (b = B ' ' ∨ b = B '\t' ∨ b = B '\n' ∨ b = B '\r') ↔
            (c = ' ' ∨ c = '\t' ∨ c = '\n' ∨ c = '\r') := by
          rw [hB ' ' (by decide), hB '\t' (by decide), hB '\n' (by decide), hB '\r' (by decide)]
        by_cases hc : c = ' ' ∨ c = '\t' ∨ c = '\n' ∨ c = '\r'
        · rw [if_pos (hws.mpr hc)]
          have ha : c.toNat < 128 := by rcases hc with rfl | rfl | rfl | rfl <;> decide
          obtain ⟨rfl, rfl⟩ := hasc ha
          rw [List.nil_append, ih s (by omega) (pre ++ [c]) (i + 1) (B c) (by simp [h])
            (by simp [hi, utf8Size_ascii ha])]
          congr 1
          by_cases hcr : c = '\r'
          · subst hcr; rw [if_pos rfl, P.trailing_cons, if_neg (by decide), if_pos rfl]
          · rw [if_neg (fun h => hcr ((B_inj ha (by decide)).mp h))]
            have hc' : c = ' ' ∨ c = '\t' ∨ c = '\n' := by
              rcases hc with h | h | h | h
              · exact Or.inl h
              · exact Or.inr (Or.inl h)
              · exact Or.inr (Or.inr h)
              · exact absurd h hcr
            rw [P.trailing_cons, if_pos hc']
        · rw [if_neg (fun h => hc (hws.mp h)), advance_eq hb h hi]
          rw [P.trailing_cons, if_neg (fun h => hc (by rcases h with h | h | h <;> simp [h])),
            if_neg (fun h => hc (by simp [h]))]
          rfl
    intro s hs pre i last h hi
    unfold trailingBackslashLoop
    by_cases hcr : last = B '\r'
    · rw [if_pos hcr, if_pos hcr]
      cases s with
      | nil => rfl
      | cons c s =>
        simp at hs
        obtain ⟨b, l, e, hl, hB, hlt, hasc, hsz⟩ := bytes_cons c s
        rw [e]; simp only [P.crTrailing]
        by_cases hc : c = '\n'
        · rw [if_pos ((hB '\n' (by decide)).mpr hc), if_pos hc]
          have ha : c.toNat < 128 := by subst hc; decide
          obtain ⟨rfl, rfl⟩ := hasc ha
          rw [List.nil_append]
          exact main s (by omega) (pre ++ [c]) (i + 1) (by simp [h]) (by simp [hi, utf8Size_ascii ha])
        · rw [if_neg (fun h => hc ((hB '\n' (by decide)).mp h)), if_neg hc]
          rfl
    · rw [if_neg hcr, if_neg hcr]
      exact main s hs pre i h hi

theorem trailingBackslash_eq {c : Cursor ο} (hb : Bnd c) (last : UInt8) :
    trailingBackslash c last =
      lift c (if last = B '\r' then P.crTrailing c.rest else P.trailing c.rest) :=
  trailingBackslashLoop_eq hb _ c.rest (Nat.le_refl _) [] 0 last rfl rfl

theorem P.crTrailing_stable {s r : List Char} (h : P.crTrailing s = some r) :
    ∃ t, s = t ++ r ∧ r ≠ [] := by
  cases s with
  | nil => simp [P.crTrailing] at h
  | cons c s =>
    simp only [P.crTrailing] at h
    split at h
    · obtain ⟨t, rfl, hne, -⟩ := P.trailing_stable h
      exact ⟨c :: t, rfl, hne⟩
    · simp at h

section
variable [UnicodeTables]

/-- Finish a body by lexing the suffix. -/
theorem finish_eq {input : Cursor ο} (hb : Bnd input) {n : Nat} {t r : List Char}
    (h : input.rest = t ++ r) (hn : n = strLen t) :
    (advance input n >>= fun input => literalSuffix input) = lift input (some (P.literalSuffix r)) := by
  have hs : r <:+ input.rest := ⟨t, h.symm⟩
  rw [advance_eq hb h hn, Res.ok_bind, literalSuffix_eq (hb.to hs), Cursor.to_rest,
    Cursor.to_to hs (P.literalSuffix_suffix r)]
  rfl

theorem lift_to {input : Cursor ο} {r : List Char} (hs : r <:+ input.rest) (o : Option (List Char))
    (ho : ∀ r', o = some r' → r' <:+ r) : lift (input.to r) o = lift input o := by
  cases o with
  | none => rfl
  | some r' => simp [Cursor.to_to hs (ho r' rfl)]

theorem P.cookedSuf_suffix {k : P.Kind} {s r : List Char}
    (h : (P.cooked k s).map P.literalSuffix = some r) : r <:+ s := by
  cases h' : P.cooked k s with
  | none => rw [h'] at h; simp at h
  | some r1 =>
    rw [h'] at h; simp at h; subst h
    exact (P.literalSuffix_suffix _).trans (P.cooked_suffix h').1

end
end PM2
