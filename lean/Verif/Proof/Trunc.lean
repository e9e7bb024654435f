import Verif.Proof.Ext
/-!
# A literal token is itself accepted

If the lexer takes the literal `y` from a text, it takes all of `y` when `y` is the whole text.
-/

set_option linter.unusedSectionVars false

namespace PM2
open Spec

section
variable [UnicodeTables]

/-- no identifier character at the start -/
def P.Stop (r : List Char) : Prop := ∀ c r', r = c :: r' → isIdentContinue c = false

theorem P.wordBreak_stop {s r : List Char} (h : P.wordBreak s = some r) : s = r ∧ P.Stop r := by
  cases s with
  | nil => simp [P.wordBreak] at h; subst h; exact ⟨rfl, fun c r' e => by simp at e⟩
  | cons c s =>
    simp only [P.wordBreak] at h
    split at h
    · simp at h
    · rename_i hc
      simp at h hc; subst h
      refine ⟨rfl, fun d r' e => ?_⟩
      simp at e; rw [← e.1]; exact hc

variable [LawfulUnicode]

theorem continue_not {c : Char} (h : c.toNat < 128) (h' : (c.isAlphanum || c == '_') = false) :
    isIdentContinue c = false := by
  show xidContinue c = false
  rw [LawfulUnicode.continue_ascii _ h, h']

/-- a word, with something behind it that is not part of it -/
theorem P.identNotRaw_stop {sym r : List Char} (h : ∃ c t, sym = c :: t ∧ isIdentStart c = true ∧
    ∀ d ∈ t, isIdentContinue d = true) (hr : P.Stop r) : P.identNotRaw (sym ++ r) = some (sym, r) := by
  obtain ⟨c, t, rfl, h1, h2⟩ := h
  simp only [List.cons_append, P.identNotRaw, h1, if_true]
  have : ∀ t : List Char, (∀ d ∈ t, isIdentContinue d = true) →
      (t ++ r).takeWhile isIdentContinue = t ∧ (t ++ r).dropWhile isIdentContinue = r := by
    intro t
    induction t with
    | nil =>
      intro _
      cases r with
      | nil => exact ⟨rfl, rfl⟩
      | cons c r =>
        have := hr c r rfl
        simp [this]
    | cons d t ih =>
      intro h
      rw [List.cons_append, List.takeWhile_cons_of_pos (h d (by simp)),
        List.dropWhile_cons_of_pos (h d (by simp))]
      have := ih (fun e he => h e (by simp [he]))
      exact ⟨by rw [this.1], this.2⟩
  rw [(this t h2).1, (this t h2).2]

theorem P.identNotRaw_full {sym : List Char} (h : ∃ c t, sym = c :: t ∧ isIdentStart c = true ∧
    ∀ d ∈ t, isIdentContinue d = true) : P.identNotRaw sym = some (sym, []) := by
  have := P.identNotRaw_stop h (r := []) (fun c r' e => by simp at e)
  simpa using this

theorem P.numTail_stop {m r : List Char} (hs : Suffix m) (hr : P.Stop r) : P.numTail (m ++ r) = some r := by
  have hw : P.wordBreak r = some r := by
    cases r with
    | nil => rfl
    | cons c r => simp [P.wordBreak, hr c r rfl]
  rcases hs with rfl | hv
  · cases r with
    | nil => rfl
    | cons c r =>
      have h1 : isIdentStart c = false := by
        cases h : isIdentStart c with
        | false => rfl
        | true => have := identStart_continue h; rw [hr c r rfl] at this; simp at this
      simp only [List.nil_append, P.numTail, h1]
      exact hw
  · have h1 := P.identNotRaw_stop hv hr
    obtain ⟨c, t, rfl, hc, -⟩ := hv
    simp only [List.cons_append, P.numTail, hc, if_true] at h1 ⊢
    rw [h1]
    exact hw

/-- the suffix of a number: either empty or an identifier -/
theorem P.numTail_spec {m r : List Char} (h : P.numTail m = some r) :
    ∃ m', m = m' ++ r ∧ P.Stop r ∧ Suffix m' ∧ P.numTail m' = some [] := by
  cases m with
  | nil =>
    simp [P.numTail] at h; subst h
    exact ⟨[], rfl, fun c r' e => by simp at e, .inl rfl, rfl⟩
  | cons c m =>
    simp only [P.numTail] at h
    split at h
    · rename_i hc
      cases hn : P.identNotRaw (c :: m) with
      | none => rw [hn] at h; simp at h
      | some x =>
        obtain ⟨sym, r1⟩ := x
        rw [hn] at h
        simp only at h
        obtain ⟨e0, hst⟩ := P.wordBreak_stop h
        rw [e0] at hn
        obtain ⟨e, hv, -⟩ := PM2.identNotRaw_spec hn
        refine ⟨sym, e, hst, .inr hv, ?_⟩
        have := P.numTail_stop (m := sym) (r := []) (.inr hv) (fun c r' e => by simp at e)
        simpa using this
    · obtain ⟨e, hst⟩ := P.wordBreak_stop h
      exact ⟨[], by simp [e], hst, .inl rfl, rfl⟩

theorem Suffix.continue {m : List Char} (h : Suffix m) : ∀ d ∈ m, isIdentContinue d = true := by
  rcases h with rfl | ⟨c, t, rfl, h1, h2⟩
  · simp
  · intro d hd
    rcases List.mem_cons.mp hd with rfl | hd
    · exact identStart_continue h1
    · exact h2 d hd

/-! ### Integers -/

theorem P.digitsLoop_trunc {base : Nat} {s m : List Char} {e e' : Bool}
    (h : P.digitsLoop base s e = some (m, e')) :
    ∃ d, s = d ++ m ∧ ∀ m' r, m = m' ++ r → P.digitsLoop base (d ++ m') e = some (m', e') := by
  induction s generalizing e with
  | nil =>
    simp [P.digitsLoop] at h
    obtain ⟨rfl, rfl⟩ := h
    refine ⟨[], rfl, fun m' r hm => ?_⟩
    have : m' = [] := by
      cases m' with
      | nil => rfl
      | cons => simp at hm
    subst this; rfl
  | cons c s ih =>
    have step : ∀ e2, P.digitsLoop base s e2 = some (m, e') →
        (∀ t, P.digitsLoop base (c :: t) e = P.digitsLoop base t e2) →
        ∃ d, c :: s = d ++ m ∧ ∀ m' r, m = m' ++ r → P.digitsLoop base (d ++ m') e = some (m', e') := by
      intro e2 h2 hs
      obtain ⟨d, h3, h4⟩ := ih h2
      refine ⟨c :: d, by simp [h3], fun m' r hm => ?_⟩
      rw [List.cons_append, hs]
      exact h4 m' r hm
    have stop : some (c :: s, e) = some (m, e') →
        (∀ t, P.digitsLoop base (c :: t) e = some (c :: t, e)) →
        ∃ d, c :: s = d ++ m ∧ ∀ m' r, m = m' ++ r → P.digitsLoop base (d ++ m') e = some (m', e') := by
      intro h2 hs
      simp at h2
      obtain ⟨rfl, rfl⟩ := h2
      refine ⟨[], rfl, fun m' r hm => ?_⟩
      cases m' with
      | nil => rfl
      | cons c' m' =>
        simp at hm
        obtain ⟨rfl, -⟩ := hm
        exact hs m'
    unfold P.digitsLoop at h
    split at h
    · rename_i h1
      split at h
      · simp at h
      · rename_i h2
        exact step _ h (fun t => by simp [P.digitsLoop, h1, h2])
    · rename_i h1
      split at h
      · rename_i h2
        split at h
        · rename_i h3
          exact stop h (fun t => by simp only [P.digitsLoop]; rw [if_neg h1, if_pos h2, if_pos h3])
        · rename_i h3
          exact step _ h (fun t => by
            conv => lhs; unfold P.digitsLoop
            rw [if_neg h1, if_pos h2, if_neg h3])
      · rename_i h2
        split at h
        · rename_i h3
          split at h
          · rename_i h4
            exact stop h (fun t => by
              simp only [P.digitsLoop]; rw [if_neg h1, if_neg h2, if_pos h3, if_pos h4])
          · rename_i h4
            exact step _ h (fun t => by
              conv => lhs; unfold P.digitsLoop
              rw [if_neg h1, if_neg h2, if_pos h3, if_neg h4])
        · rename_i h3
          split at h
          · rename_i h4
            split at h
            · simp at h
            · rename_i h5
              exact step _ h (fun t => by
                conv => lhs; unfold P.digitsLoop
                rw [if_neg h1, if_neg h2, if_neg h3, if_pos h4, if_neg h5])
          · rename_i h4
            exact stop h (fun t => by
              simp only [P.digitsLoop]; rw [if_neg h1, if_neg h2, if_neg h3, if_neg h4])

theorem P.digits_trunc {s m : List Char} (h : P.digits s = some m) :
    ∃ d, s = d ++ m ∧ ∀ m' r, m = m' ++ r → P.digits (d ++ m') = some m' := by
  unfold P.digits at h
  cases hl : P.digitsLoop (P.digitsBase s).2 (P.digitsBase s).1 true with
  | none => rw [hl] at h; simp at h
  | some x =>
    obtain ⟨m1, e⟩ := x
    cases e with
    | true => rw [hl] at h; simp at h
    | false =>
      rw [hl] at h
      simp at h; subst h
      obtain ⟨d, h1, h2⟩ := P.digitsLoop_trunc hl
      have hbase : ∃ pre b, s = pre ++ (P.digitsBase s).1 ∧ (P.digitsBase s).2 = b ∧
          ∀ t, (∃ u, (P.digitsBase s).1 = t ++ u) → t ≠ [] → P.digitsBase (pre ++ t) = (t, b) := by
        unfold P.digitsBase
        split
        · rename_i hp
          obtain ⟨u, rfl⟩ := startsWith_iff.mp hp
          refine ⟨['0', 'x'], 16, by simp, rfl, fun t _ _ => ?_⟩
          rw [if_pos (startsWith_iff.mpr ⟨t, rfl⟩)]; simp
        · rename_i hp1
          split
          · rename_i hp
            obtain ⟨u, rfl⟩ := startsWith_iff.mp hp
            refine ⟨['0', 'o'], 8, by simp, rfl, fun t _ _ => ?_⟩
            rw [if_neg (by simp [startsWith]), if_pos (startsWith_iff.mpr ⟨t, rfl⟩)]; simp
          · rename_i hp2
            split
            · rename_i hp
              obtain ⟨u, rfl⟩ := startsWith_iff.mp hp
              refine ⟨['0', 'b'], 2, by simp, rfl, fun t _ _ => ?_⟩
              rw [if_neg (by simp [startsWith]), if_neg (by simp [startsWith]),
                if_pos (startsWith_iff.mpr ⟨t, rfl⟩)]; simp
            · rename_i hp3
              refine ⟨[], 10, by simp, rfl, ?_⟩
              rintro t ⟨u, rfl⟩ -
              have hno : ∀ p, ¬ startsWith (t ++ u) p = true → ¬ startsWith t p = true := by
                intro p hp hh
                exact hp (startsWith_iff_prefix.mpr ((startsWith_iff_prefix.mp hh).trans ⟨u, rfl⟩))
              simp only [List.nil_append]
              rw [if_neg (hno _ hp1), if_neg (hno _ hp2), if_neg (hno _ hp3)]
      obtain ⟨pre, b, e1, e2, hb⟩ := hbase
      refine ⟨pre ++ d, by rw [List.append_assoc, ← h1, ← e1], fun m' r hm => ?_⟩
      have hd : d ++ m' ≠ [] := by
        intro e
        have hd0 : d = [] := (List.append_eq_nil_iff.mp e).1
        have := h2 m' r hm
        rw [e] at this
        simp [P.digitsLoop] at this
      have e3 := hb (d ++ m') ⟨r, by rw [h1, hm]; simp⟩ hd
      unfold P.digits
      rw [List.append_assoc, e3]
      simp only
      rw [← e2, h2 m' r hm]

theorem P.int_trunc {s r : List Char} (h : P.int s = some r) :
    ∃ y, s = y ++ r ∧ P.Stop r ∧ P.int y = some [] := by
  unfold P.int at h
  obtain ⟨m, h1, h2⟩ := Option.bind_eq_some_iff.mp h
  obtain ⟨m', rfl, hst, -, hn⟩ := P.numTail_spec h2
  obtain ⟨d, rfl, hd⟩ := P.digits_trunc h1
  refine ⟨d ++ m', by simp, hst, ?_⟩
  unfold P.int
  rw [hd m' r rfl]
  exact hn

/-- the characters of an integer -/
theorem P.digitsLoop_chars {base : Nat} {s m : List Char} {e e' : Bool}
    (h : P.digitsLoop base s e = some (m, e')) :
    ∃ d, s = d ++ m ∧ ∀ c ∈ d, isIdentContinue c = true := by
  induction s generalizing e with
  | nil => simp [P.digitsLoop] at h; exact ⟨[], by simp [h.1], by simp⟩
  | cons c s ih =>
    have step : ∀ e2, P.digitsLoop base s e2 = some (m, e') → isIdentContinue c = true →
        ∃ d, c :: s = d ++ m ∧ ∀ c ∈ d, isIdentContinue c = true := by
      intro e2 h2 hc
      obtain ⟨d, h3, h4⟩ := ih h2
      refine ⟨c :: d, by simp [h3], fun x hx => ?_⟩
      rcases List.mem_cons.mp hx with rfl | hx
      · exact hc
      · exact h4 x hx
    have stop : some (c :: s, e) = some (m, e') →
        ∃ d, c :: s = d ++ m ∧ ∀ c ∈ d, isIdentContinue c = true := by
      intro h2; simp at h2; exact ⟨[], by simp [h2.1], by simp⟩
    unfold P.digitsLoop at h
    simp only [charLe] at h
    split at h
    · rename_i h1
      split at h
      · simp at h
      · exact step _ h (continue_of_nat (.inl h1))
    · split at h
      · rename_i h2
        split at h
        · exact stop h
        · exact step _ h (continue_of_nat (.inr (.inr (.inl ⟨h2.1, Nat.le_trans h2.2 (by decide)⟩))))
      · split at h
        · rename_i h3
          split at h
          · exact stop h
          · exact step _ h (continue_of_nat (.inr (.inl ⟨h3.1, Nat.le_trans h3.2 (by decide)⟩)))
        · split at h
          · rename_i h4
            split at h
            · simp at h
            · exact step _ h (continue_of_nat (.inr (.inr (.inr h4))))
          · exact stop h

theorem P.int_chars {y : List Char} (h : P.int y = some []) : ∀ c ∈ y, isIdentContinue c = true := by
  unfold P.int at h
  obtain ⟨m, h1, h2⟩ := Option.bind_eq_some_iff.mp h
  obtain ⟨m', e, -, hs, -⟩ := P.numTail_spec h2
  rw [List.append_nil] at e
  subst e
  unfold P.digits at h1
  cases hl : P.digitsLoop (P.digitsBase y).2 (P.digitsBase y).1 true with
  | none => rw [hl] at h1; simp at h1
  | some x =>
    obtain ⟨m1, e⟩ := x
    cases e with
    | true => rw [hl] at h1; simp at h1
    | false =>
      rw [hl] at h1
      simp at h1; subst h1
      obtain ⟨d, h3, h4⟩ := P.digitsLoop_chars hl
      have hin : ∀ c ∈ (P.digitsBase y).1, isIdentContinue c = true := by
        rw [h3]
        intro c hc
        rcases List.mem_append.mp hc with hc | hc
        · exact h4 c hc
        · exact Suffix.continue hs c hc
      have hpre : ∀ p, (∀ c ∈ p, isIdentContinue c = true) → startsWith y p = true →
          (∀ c ∈ y.drop p.length, isIdentContinue c = true) → ∀ c ∈ y, isIdentContinue c = true := by
        intro p hp hy hd c hc
        obtain ⟨u, rfl⟩ := startsWith_iff.mp hy
        rcases List.mem_append.mp hc with hc | hc
        · exact hp c hc
        · exact hd c (by simpa using hc)
      unfold P.digitsBase at hin
      split at hin
      · rename_i hp
        exact hpre _ (by simp; exact ⟨continue_of_nat (by decide), continue_of_nat (by decide)⟩) hp hin
      · split at hin
        · rename_i hp
          exact hpre _ (by simp; exact ⟨continue_of_nat (by decide), continue_of_nat (by decide)⟩) hp hin
        · split at hin
          · rename_i hp
            exact hpre _ (by simp; exact ⟨continue_of_nat (by decide), continue_of_nat (by decide)⟩) hp hin
          · exact hin

/-! ### Floats -/

theorem P.mantissa_trunc {s m : List Char} {a b : Bool} (h : P.mantissa s a = some (m, b)) :
    ∃ d, s = d ++ m ∧ ∀ m' r, m = m' ++ r → P.mantissa (d ++ m') a = some (m', b) := by
  induction s generalizing a with
  | nil =>
    simp [P.mantissa] at h
    obtain ⟨rfl, rfl⟩ := h
    refine ⟨[], rfl, fun m' r hm => ?_⟩
    have : m' = [] := by
      cases m' with
      | nil => rfl
      | cons => simp at hm
    subst this; rfl
  | cons c s ih =>
    have stop : some (c :: s, a) = some (m, b) →
        (∀ t, P.mantissa (c :: t) a = some (c :: t, a)) →
        ∃ d, c :: s = d ++ m ∧ ∀ m' r, m = m' ++ r → P.mantissa (d ++ m') a = some (m', b) := by
      intro h2 hs
      simp at h2
      obtain ⟨rfl, rfl⟩ := h2
      refine ⟨[], rfl, fun m' r hm => ?_⟩
      cases m' with
      | nil => rfl
      | cons c' m' =>
        simp at hm
        obtain ⟨rfl, -⟩ := hm
        exact hs m'
    rw [P.mantissa_cons] at h
    split at h
    · rename_i h1
      obtain ⟨d, h3, h4⟩ := ih h
      refine ⟨c :: d, by simp [h3], fun m' r hm => ?_⟩
      rw [List.cons_append, P.mantissa_cons, if_pos h1]
      exact h4 m' r hm
    · rename_i h1
      split at h
      · rename_i h2
        split at h
        · rename_i h3
          exact stop h (fun t => by rw [P.mantissa_cons, if_neg h1, if_pos h2, if_pos h3])
        · rename_i h3
          split at h
          · rename_i h4
            obtain ⟨d, h5, h6⟩ := ih h
            refine ⟨c :: d, by simp [h5], fun m' r hm => ?_⟩
            rw [List.cons_append, P.mantissa_cons, if_neg h1, if_pos h2, if_neg h3, if_pos]
            · exact h6 m' r hm
            · subst hm
              rw [← List.append_assoc] at h5
              cases hdm : d ++ m' with
              | nil => rfl
              | cons x y =>
                rw [hdm] at h5
                rw [h5] at h4
                exact h4
          · simp at h
      · rename_i h2
        exact stop h (fun t => by rw [P.mantissa_cons, if_neg h1, if_neg h2])

theorem P.exponent_trunc {s m : List Char} {a b : Bool} (h : P.exponent s a b = some m) :
    ∃ d, s = d ++ m ∧ ∀ m' r, m = m' ++ r → P.exponent (d ++ m') a b = some m' := by
  induction s generalizing a b with
  | nil =>
    have hb : b = true := by
      cases b with
      | true => rfl
      | false => simp [P.exponent] at h
    subst hb
    simp [P.exponent] at h
    subst h
    refine ⟨[], rfl, fun m' r hm => ?_⟩
    have : m' = [] := by
      cases m' with
      | nil => rfl
      | cons => simp at hm
    subst this; rfl
  | cons c s ih =>
    have step : ∀ a2 b2, P.exponent s a2 b2 = some m →
        (∀ t, P.exponent (c :: t) a b = P.exponent t a2 b2) →
        ∃ d, c :: s = d ++ m ∧ ∀ m' r, m = m' ++ r → P.exponent (d ++ m') a b = some m' := by
      intro a2 b2 h2 hs
      obtain ⟨d, h3, h4⟩ := ih h2
      refine ⟨c :: d, by simp [h3], fun m' r hm => ?_⟩
      rw [List.cons_append, hs]
      exact h4 m' r hm
    have stop : b = true → some (c :: s) = some m →
        (∀ t, P.exponent (c :: t) a b = some (c :: t)) →
        ∃ d, c :: s = d ++ m ∧ ∀ m' r, m = m' ++ r → P.exponent (d ++ m') a b = some m' := by
      intro hb h2 hs
      simp at h2
      subst h2
      refine ⟨[], rfl, fun m' r hm => ?_⟩
      cases m' with
      | nil => subst hb; rfl
      | cons c' m' =>
        simp at hm
        obtain ⟨rfl, -⟩ := hm
        exact hs m'
    unfold P.exponent at h
    split at h
    · rename_i h1
      split at h
      · rename_i h2
        exact stop h2 h (fun t => by simp only [P.exponent]; rw [if_pos h1, if_pos h2])
      · rename_i h2
        split at h
        · simp at h
        · rename_i h3
          exact step _ _ h (fun t => by
            conv => lhs; unfold P.exponent
            rw [if_pos h1, if_neg h2, if_neg h3])
    · rename_i h1
      split at h
      · rename_i h2
        exact step _ _ h (fun t => by
          conv => lhs; unfold P.exponent
          rw [if_neg h1, if_pos h2])
      · rename_i h2
        split at h
        · rename_i h3
          exact step _ _ h (fun t => by
            conv => lhs; unfold P.exponent
            rw [if_neg h1, if_neg h2, if_pos h3])
        · rename_i h3
          split at h
          · rename_i h4
            exact stop h4 h (fun t => by
              simp only [P.exponent]; rw [if_neg h1, if_neg h2, if_neg h3, if_pos h4])
          · simp at h

/-- appending to a text with an exponent leaves an exponent -/
theorem P.exponent_append {t : List Char} (r : List Char) {a b : Bool}
    (h : (P.exponent t a b).isSome) : (P.exponent (t ++ r) a b).isSome := by
  have htrue : ∀ (r : List Char) (a : Bool), (P.exponent r a true).isSome := by
    intro r
    induction r with
    | nil => intro a; simp [P.exponent]
    | cons c r ih =>
      intro a
      simp only [P.exponent]
      split
      · rfl
      · split
        · exact ih _
        · split
          · exact ih _
          · rfl
  induction t generalizing a b with
  | nil =>
    cases b with
    | true => exact htrue r a
    | false => simp [P.exponent] at h
  | cons c t ih =>
    rw [List.cons_append]
    unfold P.exponent at h ⊢
    split at h
    · rename_i h1
      rw [if_pos h1]
      split at h
      · rename_i h2; rw [if_pos h2]; rfl
      · rename_i h2
        rw [if_neg h2]
        split at h
        · simp at h
        · rename_i h3; rw [if_neg h3]; exact ih h
    · rename_i h1
      rw [if_neg h1]
      split at h
      · rename_i h2; rw [if_pos h2]; exact ih h
      · rename_i h2
        rw [if_neg h2]
        split at h
        · rename_i h3; rw [if_pos h3]; exact ih h
        · rename_i h3
          rw [if_neg h3]
          split at h
          · rename_i h4; rw [if_pos h4]; rfl
          · simp at h

theorem P.stop_exponent {r : List Char} (h : P.Stop r) (a : Bool) : P.exponent r a true = some r := by
  cases r with
  | nil => rfl
  | cons c r =>
    have hc := h c r rfl
    have h1 : isDecDigit c = false := by
      cases hd : isDecDigit c with
      | false => rfl
      | true =>
        rw [continue_of_nat (.inl (isDecDigit_nat hd))] at hc
        simp at hc
    have h2 : c ≠ '_' := by
      rintro rfl
      rw [continue_of_nat (by decide)] at hc
      simp at hc
    simp only [P.exponent, h1, h2]
    split <;> rfl

/-- an exponent that is followed by something that is not part of a word -/
theorem P.exponent_stop {t z r : List Char} {a b : Bool} (hr : P.Stop r)
    (h : P.exponent t a b = some z) : P.exponent (t ++ r) a b = some (z ++ r) := by
  induction t generalizing a b with
  | nil =>
    cases b with
    | true => simp [P.exponent] at h; subst h; exact P.stop_exponent hr a
    | false => simp [P.exponent] at h
  | cons c t ih =>
    rw [List.cons_append]
    unfold P.exponent at h ⊢
    split at h
    · rename_i h1
      rw [if_pos h1]
      split at h
      · rename_i h2; rw [if_pos h2]; simp at h; subst h; rfl
      · rename_i h2
        rw [if_neg h2]
        split at h
        · simp at h
        · rename_i h3; rw [if_neg h3]; exact ih h
    · rename_i h1
      rw [if_neg h1]
      split at h
      · rename_i h2; rw [if_pos h2]; exact ih h
      · rename_i h2
        rw [if_neg h2]
        split at h
        · rename_i h3; rw [if_pos h3]; exact ih h
        · rename_i h3
          rw [if_neg h3]
          split at h
          · rename_i h4; rw [if_pos h4]; simp at h; subst h; rfl
          · simp at h

theorem P.floatDigits_trunc {s m m' r : List Char} (h : P.floatDigits s = some m) (hm : m = m' ++ r)
    : ∃ d, s = d ++ m ∧ P.floatDigits (d ++ m') = some m' := by
  cases s with
  | nil => simp [P.floatDigits] at h
  | cons c s =>
    simp only [P.floatDigits] at h
    split at h
    · rename_i hc
      cases hma : P.mantissa s false with
      | none => rw [hma] at h; simp at h
      | some x =>
        obtain ⟨m1, dot⟩ := x
        rw [hma] at h
        simp only at h
        obtain ⟨d, e1, hd⟩ := P.mantissa_trunc hma
        have nodot : (if dot = true then some m1 else none) = some m →
            (∀ c' m2, m' = c' :: m2 → (c' = 'e' ∨ c' = 'E') → P.exponent m2 false false = none) →
            ∃ d, c :: s = d ++ m ∧ P.floatDigits (d ++ m') = some m' := by
          intro h1 h2
          split at h1
          · rename_i hdot
            simp at h1; subst h1
            refine ⟨c :: d, by simp [e1], ?_⟩
            simp only [List.cons_append, P.floatDigits, hc, if_true]
            rw [hd m' r hm]
            simp only [hdot, if_true]
            cases m' with
            | nil => rfl
            | cons c' m2 =>
              simp only
              split
              · rename_i he
                rw [h2 c' m2 rfl he]
              · rfl
          · simp at h1
        cases m1 with
        | nil =>
          simp only at h
          refine nodot h ?_
          rintro c' m2 rfl he
          split at h
          · simp at h; subst h; simp at hm
          · simp at h
        | cons e m1 =>
          simp only at h
          split at h
          · rename_i he
            cases hex : P.exponent m1 false false with
            | some z =>
              rw [hex] at h
              simp at h; subst h
              obtain ⟨d2, e2, hd2⟩ := P.exponent_trunc hex
              refine ⟨c :: (d ++ e :: d2), by simp [e1, e2], ?_⟩
              have e3 := hd (e :: d2 ++ m') r (by simp [e2, hm])
              simp only [List.cons_append, P.floatDigits, hc, if_true]
              rw [List.append_assoc, e3]
              simp only [List.cons_append, he, if_true]
              rw [hd2 m' r hm]
            | none =>
              rw [hex] at h
              refine nodot h ?_
              rintro c' m2 rfl -
              simp only at h
              split at h
              · simp at h; subst h
                simp at hm
                cases hex' : P.exponent m2 false false with
                | none => rfl
                | some z =>
                  have := P.exponent_append r (a := false) (b := false) (by rw [hex']; rfl)
                  rw [← hm.2, hex] at this
                  simp at this
              · simp at h
          · rename_i he
            refine nodot h ?_
            rintro c' m2 rfl he'
            split at h
            · simp at h; subst h; simp at hm; rw [hm.1] at he; exact absurd he' he
            · simp at h
    · simp at h

theorem P.float_trunc {s r : List Char} (h : P.float s = some r) :
    ∃ y, s = y ++ r ∧ P.float y = some [] := by
  unfold P.float at h
  obtain ⟨m, h1, h2⟩ := Option.bind_eq_some_iff.mp h
  obtain ⟨m', rfl, hst, -, hn⟩ := P.numTail_spec h2
  obtain ⟨d, rfl, hd⟩ := P.floatDigits_trunc h1 rfl
  refine ⟨d ++ m', by simp, ?_⟩
  unfold P.float
  rw [hd]
  exact hn

/-- the mantissa of a text without a dot, with something behind it -/
theorem P.mantissa_nodot {t m r : List Char} {b : Bool} (hc : '.' ∉ t) (h : P.mantissa t false = some (m, b)) :
    b = false ∧ (m ≠ [] → P.mantissa (t ++ r) false = some (m ++ r, false)) := by
  induction t with
  | nil => simp [P.mantissa] at h; exact ⟨h.2.symm ▸ rfl, fun hm => absurd h.1.symm (by simpa using hm)⟩
  | cons c t ih =>
    rw [P.mantissa_cons] at h
    rw [List.cons_append, P.mantissa_cons]
    split at h
    · rename_i h1
      rw [if_pos h1]
      exact ih (fun hh => hc (by simp [hh])) h
    · rename_i h1
      rw [if_neg h1]
      have h2 : c ≠ '.' := by rintro rfl; exact hc (by simp)
      rw [if_neg h2] at h ⊢
      simp at h
      obtain ⟨rfl, rfl⟩ := h
      exact ⟨rfl, fun _ => rfl⟩

/-- a text that is an integer and not a float is no float by itself -/
theorem P.float_none_trunc {y r : List Char} (hy : ∀ c ∈ y, isIdentContinue c = true) (hr : P.Stop r)
    (h : P.float (y ++ r) = none) : P.float y = none := by
  cases hf : P.float y with
  | none => rfl
  | some z =>
    exfalso
    unfold P.float at hf
    obtain ⟨m, h1, h2⟩ := Option.bind_eq_some_iff.mp hf
    obtain ⟨m', e, hst, hsuf, hn⟩ := P.numTail_spec h2
    cases y with
    | nil => simp [P.floatDigits] at h1
    | cons c y =>
      have hdot : '.' ∉ y := by
        intro hh
        have := hy '.' (by simp [hh])
        rw [continue_not (by decide) (by decide)] at this
        simp at this
      simp only [P.floatDigits] at h1
      split at h1
      · rename_i hc
        cases hma : P.mantissa y false with
        | none => rw [hma] at h1; simp at h1
        | some x =>
          obtain ⟨m1, dot⟩ := x
          rw [hma] at h1
          simp only at h1
          obtain ⟨rfl, hext⟩ := P.mantissa_nodot (r := r) hdot hma
          cases m1 with
          | nil => simp at h1
          | cons e0 m1 =>
            simp only at h1
            split at h1
            · rename_i he
              cases hex : P.exponent m1 false false with
              | none => rw [hex] at h1; simp at h1
              | some z2 =>
                rw [hex] at h1
                simp at h1; subst h1
                have hsfx : ∃ p, c :: y = p ++ z2 := by
                  obtain ⟨d1, e1, -⟩ := P.mantissa_trunc hma
                  obtain ⟨d2, e2, -⟩ := P.exponent_trunc hex
                  exact ⟨c :: (d1 ++ e0 :: d2), by simp [e1, e2]⟩
                obtain ⟨p, hp⟩ := hsfx
                have hz : z = [] := by
                  cases z with
                  | nil => rfl
                  | cons q z =>
                    have := hst q z rfl
                    rw [hy q (by rw [hp, e]; simp)] at this
                    simp at this
                subst hz
                rw [List.append_nil] at e
                have h3 : P.floatDigits (c :: y ++ r) = some (z2 ++ r) := by
                  simp only [List.cons_append, P.floatDigits, hc, if_true]
                  rw [hext (by simp)]
                  simp only [List.cons_append, he, if_true]
                  rw [P.exponent_stop hr hex]
                have h4 : P.numTail (z2 ++ r) = some r := by
                  rw [e]; exact P.numTail_stop hsuf hr
                unfold P.float at h
                rw [h3] at h
                simp [h4] at h
            · simp at h1
      · simp at h1

/-- A literal is accepted when it is the whole text. -/
theorem P.literal_whole {s r : List Char} (h : P.literal s = some r) :
    ∃ y, s = y ++ r ∧ P.literal y = some [] := by
  rcases literal_shape' h with ⟨x, m, rfl, hq, rfl⟩ | ⟨d, u, rfl, hd⟩
  · obtain ⟨suf, e, hs, -⟩ := literalSuffix_spec m
    refine ⟨x ++ suf, by rw [List.append_assoc, ← e], ?_⟩
    rw [literal_quoted hq, literalSuffix_nil hs]
  · rw [P.literal_digit hd] at h
    cases hf : P.float (d :: u) with
    | some z =>
      rw [hf] at h
      simp at h; subst h
      obtain ⟨y, e, hy⟩ := P.float_trunc hf
      cases y with
      | nil => simp [P.float, P.floatDigits] at hy
      | cons d' y =>
        simp at e
        obtain ⟨rfl, rfl⟩ := e
        refine ⟨d :: y, by simp, ?_⟩
        rw [P.literal_digit hd, hy]
        rfl
    | none =>
      rw [hf] at h
      simp at h
      obtain ⟨y, e, hst, hy⟩ := P.int_trunc h
      cases y with
      | nil => simp [P.int, P.digits, P.digitsBase, P.digitsLoop] at hy
      | cons d' y =>
        simp at e
        obtain ⟨rfl, rfl⟩ := e
        refine ⟨d :: y, by simp, ?_⟩
        rw [P.literal_digit hd, P.float_none_trunc (P.int_chars hy) hst (by simpa using hf), hy]
        rfl

end
end PM2
