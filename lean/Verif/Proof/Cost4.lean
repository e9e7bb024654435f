import Verif.Proof.Cost3
/-! # Bounds on the number of steps of the parts of the lexer: literals and leaves -/

set_option linter.unusedSectionVars false

namespace PM2.T
open Timed (tick step)
variable {ο : Type} [Pos ο] [PosTotal ο] [UnicodeTables] [LawfulUnicode]

theorem ifOk_ok {ε δ α β : Type} {x : Timed ε α} {k : α → Timed δ β} {h : Unit → Timed δ β} {b : β}
    (hb : (x.ifOk k h).val = .ok b) :
    (∃ a, x.val = .ok a ∧ (k a).val = .ok b ∧ (x.ifOk k h).cost = x.cost + (k a).cost) ∨
    (∃ e, x.val = .err e ∧ (h ()).val = .ok b ∧ (x.ifOk k h).cost = x.cost + (h ()).cost) := by
  unfold Timed.ifOk at hb ⊢
  cases hx : x.val with
  | ok a => simp only [hx] at hb ⊢; exact .inl ⟨a, rfl, hb, by trivial⟩
  | err e => simp only [hx] at hb ⊢; exact .inr ⟨e, rfl, hb, by trivial⟩
  | _ => simp only [hx] at hb; cases hb

theorem ifOk_cost {ε δ α β : Type} {x : Timed ε α} {k : α → Timed δ β} {h : Unit → Timed δ β} {a n : Nat} (hx : x.cost ≤ a)
    (hk : ∀ v, x.val = .ok v → (k v).cost ≤ n) (hh : (h ()).cost ≤ n) : (x.ifOk k h).cost ≤ a + n := by
  unfold Timed.ifOk
  cases hv : x.val with
  | ok v => have := hk v hv; simp only []; omega
  | err e => simp only []; omega
  | _ => simp only []; omega

theorem bindErrCost {ε α β : Type} {x : Timed ε α} {f : α → Timed ε β} {e : ε} (h : x.val = .err e) :
    (x >>= f).cost = x.cost ∧ (x >>= f).val = .err e := by
  show (Timed.bind x f).cost = _ ∧ (Timed.bind x f).val = _
  unfold Timed.bind
  rw [h]
  exact ⟨rfl, rfl⟩

theorem parse_err {c : Cursor ο} {tag : List Char} (h : startsWith c.rest tag = false) : c.parse tag = .err () := by
  simp [Cursor.parse, h]

/-! ### Where each kind of literal begins -/

def stS (s : List Char) : Prop := ['"'] <+: s ∨ ['r', '"'] <+: s ∨ ['r', '#', '"'] <+: s ∨ ['r', '#', '#'] <+: s
def stB (s : List Char) : Prop := ['b', '"'] <+: s ∨ ['b', 'r', '"'] <+: s ∨ ['b', 'r', '#'] <+: s
def stC (s : List Char) : Prop := ['c', '"'] <+: s ∨ ['c', 'r', '"'] <+: s ∨ ['c', 'r', '#'] <+: s
def stY (s : List Char) : Prop := ['b', '\''] <+: s
def stQ (s : List Char) : Prop := ['\''] <+: s
def stD (s : List Char) : Prop := ∃ c t, s = c :: t ∧ isDecDigit c = true

theorem startsWith_iff {s p : List Char} : startsWith s p = true ↔ p <+: s := List.isPrefixOf_iff_prefix
theorem startsWith_false {s p : List Char} : startsWith s p = false ↔ ¬ p <+: s := by
  rw [← startsWith_iff]; simp

theorem rawString_const {c : Cursor ο} (h1 : ¬ ['"'] <+: c.rest) (h2 : ¬ ['#', '"'] <+: c.rest) (h3 : ¬ ['#', '#'] <+: c.rest) :
    (T.delimiterOfRawString c).cost ≤ 2 ∧ (T.delimiterOfRawString c).val = .err () := by
  obtain ⟨rest, off⟩ := c
  simp only [] at h1 h2 h3
  unfold T.delimiterOfRawString
  simp only []
  cases rest with
  | nil => exact ⟨by simp [T.delimiterLoop, tick, Timed.err], rfl⟩
  | cons ch t =>
    obtain ⟨b, l, e, hl, hB, hlt, hasc, hsz⟩ := bytes_cons ch t
    rw [e]
    have hq : b ≠ B '"' := fun h => h1 (by rw [(hB '"' (by decide)).mp h]; simp)
    by_cases hh : b = B '#'
    · have hch := (hB '#' (by decide)).mp hh
      subst hch
      obtain ⟨rfl, rfl⟩ := hasc (by decide)
      cases t with
      | nil => exact ⟨by simp [T.delimiterLoop, tick, Timed.err, hq], by simp [PM2.delimiterLoop, hq]⟩
      | cons d t =>
        obtain ⟨b2, l2, e2, -, hB2, -⟩ := bytes_cons d t
        have hq2 : b2 ≠ B '"' := fun h => h2 (by rw [(hB2 '"' (by decide)).mp h]; simp)
        have hh2 : b2 ≠ B '#' := fun h => h3 (by rw [(hB2 '#' (by decide)).mp h]; simp)
        rw [e2]
        exact ⟨by simp [T.delimiterLoop, tick, Timed.err, hq, hq2, hh2], by simp [PM2.delimiterLoop, hq, hq2, hh2]⟩
    · exact ⟨by simp [T.delimiterLoop, tick, Timed.err, hq, hh], by simp [PM2.delimiterLoop, hq, hh]⟩

theorem quoted_const {c : Cursor ο} {q r : List Char} {ck rw : Cursor ο → TRes (Cursor ο)}
    (h1 : ¬ q <+: c.rest) (h2 : ¬ r ++ ['"'] <+: c.rest) (h3 : ¬ r ++ ['#', '"'] <+: c.rest) (h4 : ¬ r ++ ['#', '#'] <+: c.rest)
    (hrw : ∀ c1 : Cursor ο, (T.delimiterOfRawString c1).cost ≤ 2 → (T.delimiterOfRawString c1).val = .err () →
      (rw c1).cost ≤ 3 ∧ (rw c1).val = .err ()) :
    (tick 1 ((step (c.parse q)).ifOk (fun input => ck input) fun _ =>
      (step (c.parse r)).ifOk (fun input => rw input) fun _ => reject) : TRes (Cursor ο)).cost ≤ 6 ∧
    ∀ v, (tick 1 ((step (c.parse q)).ifOk (fun input => ck input) fun _ =>
      (step (c.parse r)).ifOk (fun input => rw input) fun _ => reject) : TRes (Cursor ο)).val ≠ .ok v := by
  rw [parse_err (startsWith_false.mpr h1)]
  by_cases hr : r <+: c.rest
  · cases hp : c.parse r with
    | ok c1 =>
      have hc : ¬ ['"'] <+: c1.rest ∧ ¬ ['#', '"'] <+: c1.rest ∧ ¬ ['#', '#'] <+: c1.rest := by
        unfold Cursor.parse at hp
        rw [if_pos (startsWith_iff.mpr hr)] at hp
        obtain ⟨t, ht⟩ := hr
        have h5 := advance_split hp ht.symm rfl
        subst h5
        rw [← ht] at h2 h3 h4
        rw [List.prefix_append_right_inj] at h2 h3 h4
        exact ⟨h2, h3, h4⟩
      obtain ⟨h5, h6⟩ := rawString_const hc.1 hc.2.1 hc.2.2
      obtain ⟨h7, h8⟩ := hrw c1 h5 h6
      simp only [Timed.ifOk, step, tick, h8]
      exact ⟨by omega, fun v h => by cases h⟩
    | _ =>
      simp only [Timed.ifOk, step, tick, Timed.err]
      exact ⟨by omega, fun v h => by cases h⟩
  · rw [parse_err (startsWith_false.mpr hr)]
    simp only [Timed.ifOk, step, tick, Timed.err]
    exact ⟨by omega, fun v h => by cases h⟩

theorem raw_const {c1 : Cursor ο} {f : Cursor ο × List Char → TRes (Cursor ο)} (h1 : (T.delimiterOfRawString c1).cost ≤ 2)
    (h2 : (T.delimiterOfRawString c1).val = .err ()) :
    (tick 1 (T.delimiterOfRawString c1 >>= f)).cost ≤ 3 ∧ (tick 1 (T.delimiterOfRawString c1 >>= f)).val = .err () := by
  obtain ⟨h3, h4⟩ := bindErrCost (f := f) h2
  exact ⟨by simp only [tick, h3]; omega, h4⟩

theorem tickErr {α β : Type} {x : TRes α} {f : α → TRes β} {n : Nat} (h : x.val = .err ()) (hn : x.cost ≤ n) :
    (tick 1 (x >>= f)).cost ≤ n + 1 ∧ ∀ v, (tick 1 (x >>= f)).val ≠ .ok v := by
  obtain ⟨h3, h4⟩ := bindErrCost (f := f) h
  refine ⟨by simp only [tick, h3]; omega, fun v hv => ?_⟩
  have : (x >>= f).val = .ok v := hv
  rw [h4] at this
  cases this

theorem string_const {c : Cursor ο} (h : ¬ stS c.rest) : (T.string c).cost ≤ 6 ∧ ∀ v, (T.string c).val ≠ .ok v := by
  unfold stS at h
  rw [not_or, not_or, not_or] at h
  exact quoted_const h.1 h.2.1 h.2.2.1 h.2.2.2 fun c1 h1 h2 => raw_const h1 h2

theorem not_longer {p q s : List Char} (h : ¬ p <+: s) (hq : p <+: q) : ¬ q <+: s := fun h' => h (hq.trans h')

theorem byteString_const {c : Cursor ο} (h : ¬ stB c.rest) : (T.byteString c).cost ≤ 6 ∧ ∀ v, (T.byteString c).val ≠ .ok v := by
  unfold stB at h
  rw [not_or, not_or] at h
  exact quoted_const h.1 h.2.1 (not_longer h.2.2 (by decide)) (not_longer h.2.2 (by decide)) fun c1 h1 h2 => raw_const h1 h2

theorem cString_const {c : Cursor ο} (h : ¬ stC c.rest) : (T.cString c).cost ≤ 6 ∧ ∀ v, (T.cString c).val ≠ .ok v := by
  unfold stC at h
  rw [not_or, not_or] at h
  exact quoted_const h.1 h.2.1 (not_longer h.2.2 (by decide)) (not_longer h.2.2 (by decide)) fun c1 h1 h2 => raw_const h1 h2

theorem byte_const {c : Cursor ο} (h : ¬ stY c.rest) : (T.byte c).cost ≤ 6 ∧ ∀ v, (T.byte c).val ≠ .ok v := by
  exact tickErr (x := step (c.parse ['b', '\''])) (n := 5) (parse_err (startsWith_false.mpr h)) (by simp [step])

theorem character_const {c : Cursor ο} (h : ¬ stQ c.rest) : (T.character c).cost ≤ 6 ∧ ∀ v, (T.character c).val ≠ .ok v := by
  exact tickErr (x := step (c.parse ['\''])) (n := 5) (parse_err (startsWith_false.mpr h)) (by simp [step])

theorem float_const' {c : Cursor ο} (h : ¬ stD c.rest) : (T.float c).cost ≤ 6 ∧ ∀ v, (T.float c).val ≠ .ok v := by
  obtain ⟨h1, h2⟩ := float_const (c := c) fun ch t ht => by
    cases hd : isDecDigit ch with
    | false => rfl
    | true => exact absurd ⟨ch, t, ht, hd⟩ h
  exact ⟨by omega, fun v => by simpa using h2 v⟩

theorem isDecDigit_byte {ch : Char} {t : List Char} {b : UInt8} {l : List UInt8} (e : bytesOf (ch :: t) = b :: l)
    (h : B '0' ≤ b ∧ b ≤ B '9') : isDecDigit ch = true := by
  obtain ⟨b', l', e', -, -, hlt, hasc, hsz⟩ := bytes_cons ch t
  rw [e'] at e
  cases e
  have hb : b < 128 := by
    rw [UInt8.lt_iff_toNat_lt]
    simp only [UInt8.le_iff_toNat_le, B] at h
    simp at h ⊢
    omega
  have ha := hlt.mp hb
  obtain ⟨rfl, rfl⟩ := hasc ha
  simp only [UInt8.le_iff_toNat_le, B_toNat ha, B_toNat (show '0'.toNat < 128 by decide),
    B_toNat (show '9'.toNat < 128 by decide)] at h
  simp only [isDecDigit, Bool.and_eq_true, decide_eq_true_eq]
  exact ⟨charLe.mpr h.1, charLe.mpr h.2⟩

theorem digitsLoop_const {s : List Char} (h : ¬ stD s) :
    (T.digitsLoop 10 (bytesOf s) 0 true).cost = 1 ∧ ((PM2.digitsLoop 10 (bytesOf s) 0 true) = none ∨
      (PM2.digitsLoop 10 (bytesOf s) 0 true) = some (0, true)) := by
  cases s with
  | nil => exact ⟨rfl, .inr rfl⟩
  | cons ch t =>
    obtain ⟨b, l, e, -⟩ := bytes_cons ch t
    have hd : ¬ (B '0' ≤ b ∧ b ≤ B '9') := fun hd => h ⟨ch, t, rfl, isDecDigit_byte e hd⟩
    rw [e]
    unfold T.digitsLoop PM2.digitsLoop
    rw [if_neg hd, if_neg hd]
    by_cases h1 : B 'a' ≤ b ∧ b ≤ B 'f'
    · rw [if_pos h1, if_pos h1, if_pos (by omega), if_pos (by omega)]
      exact ⟨rfl, .inr rfl⟩
    · rw [if_neg h1, if_neg h1]
      by_cases h2 : B 'A' ≤ b ∧ b ≤ B 'F'
      · rw [if_pos h2, if_pos h2, if_pos (by omega), if_pos (by omega)]
        exact ⟨rfl, .inr rfl⟩
      · rw [if_neg h2, if_neg h2]
        by_cases h3 : b = B '_'
        · rw [if_pos h3, if_pos h3, if_pos (by decide), if_pos (by decide)]
          exact ⟨rfl, .inl rfl⟩
        · rw [if_neg h3, if_neg h3]
          exact ⟨rfl, .inr rfl⟩

theorem int_const {c : Cursor ο} (h : ¬ stD c.rest) : (T.int c).cost ≤ 6 ∧ ∀ v, (T.int c).val ≠ .ok v := by
  have hz : ∀ x, startsWith c.rest ['0', x] = false := by
    intro x
    rw [startsWith_false]
    rintro ⟨t, ht⟩
    exact h ⟨'0', x :: t, ht.symm, by decide⟩
  have hb : digitsBase c = .ok (c, 10) := by simp [digitsBase, hz]
  obtain ⟨h1, h2⟩ := digitsLoop_const h
  have hd : (T.digits c).cost ≤ 2 ∧ (T.digits c).val = .err () := by
    rw [digits_eq, hb]
    show (tick 1 (Timed.bind (Timed.ok (c, 10)) _)).cost ≤ _ ∧ (tick 1 (Timed.bind (Timed.ok (c, 10)) _)).val = _
    simp only [tick, Timed.bind, Timed.ok]
    show 1 + (0 + (Timed.bind (T.digitsLoop 10 (bytesOf c.rest) 0 true) _).cost) ≤ 2 ∧
      (Timed.bind (T.digitsLoop 10 (bytesOf c.rest) 0 true) _).val = _
    unfold Timed.bind
    rw [digitsLoop_val]
    rcases h2 with h2 | h2
    · rw [h2]; simp only [h1, Timed.err]; exact ⟨by omega, by trivial⟩
    · rw [h2]; simp only [h1, Timed.err, if_true]; exact ⟨by omega, by trivial⟩
  exact tickErr (x := T.digits c) (n := 5) hd.2 (by omega)

theorem stS_head {s : List Char} (h : stS s) : s.head? = some '"' ∨ s.head? = some 'r' := by
  rcases h with ⟨t, rfl⟩ | ⟨t, rfl⟩ | ⟨t, rfl⟩ | ⟨t, rfl⟩ <;> simp
theorem stB_head {s : List Char} (h : stB s) : s.head? = some 'b' ∧ s[1]? ≠ some '\'' := by
  rcases h with ⟨t, rfl⟩ | ⟨t, rfl⟩ | ⟨t, rfl⟩ <;> simp
theorem stC_head {s : List Char} (h : stC s) : s.head? = some 'c' := by
  rcases h with ⟨t, rfl⟩ | ⟨t, rfl⟩ | ⟨t, rfl⟩ <;> simp
theorem stY_head {s : List Char} (h : stY s) : s.head? = some 'b' ∧ s[1]? = some '\'' := by
  obtain ⟨t, rfl⟩ := h; simp
theorem stQ_head {s : List Char} (h : stQ s) : s.head? = some '\'' := by
  obtain ⟨t, rfl⟩ := h; simp
theorem stD_head {s : List Char} (h : stD s) : ∃ c, s.head? = some c ∧ isDecDigit c = true := by
  obtain ⟨c, t, rfl, h⟩ := h; exact ⟨c, rfl, h⟩

/-- The steps of an attempt at a literal, at most. -/
theorem literalNocapture_sum (c : Cursor ο) : (T.literalNocapture c).cost ≤ 1 + ((T.string c).cost + ((T.byteString c).cost +
      ((T.cString c).cost + ((T.byte c).cost + ((T.character c).cost + ((T.float c).cost + (T.int c).cost)))))) := by
  unfold T.literalNocapture
  have hz : ∀ (n : Nat) (v : Cursor ο), (Timed.ok v : TRes (Cursor ο)).cost ≤ n := fun n v => by simp [Timed.ok]
  rw [Nat.add_comm 1]
  refine tick_cost ?_
  refine ifOk_cost (Nat.le_refl _) (fun v _ => hz _ v) ?_
  refine ifOk_cost (Nat.le_refl _) (fun v _ => hz _ v) ?_
  refine ifOk_cost (Nat.le_refl _) (fun v _ => hz _ v) ?_
  refine ifOk_cost (Nat.le_refl _) (fun v _ => hz _ v) ?_
  refine ifOk_cost (Nat.le_refl _) (fun v _ => hz _ v) ?_
  refine ifOk_cost (Nat.le_refl _) (fun v _ => hz _ v) ?_
  exact ifOk_cost (n := 0) (Nat.le_refl _) (fun v _ => hz _ v) (by simp [Timed.err])

theorem literalNocapture_some {c r : Cursor ο} (h : (T.literalNocapture c).val = .ok r) :
    (T.string c).val = .ok r ∨ (T.byteString c).val = .ok r ∨ (T.cString c).val = .ok r ∨ (T.byte c).val = .ok r ∨
    (T.character c).val = .ok r ∨ (T.float c).val = .ok r ∨ (T.int c).val = .ok r := by
  have key : ∀ {x y : TRes (Cursor ο)}, (x.ifOk .ok fun _ => y).val = .ok r → x.val = .ok r ∨ y.val = .ok r := by
    intro x y h
    rcases ifOk_ok h with ⟨a, h1, h2, -⟩ | ⟨e, h1, h2, -⟩
    · simp at h2; subst h2; exact .inl h1
    · exact .inr h2
  unfold T.literalNocapture at h
  rw [Timed.val_tick] at h
  rcases key h with h | h
  · exact .inl h
  rcases key h with h | h
  · exact .inr (.inl h)
  rcases key h with h | h
  · exact .inr (.inr (.inl h))
  rcases key h with h | h
  · exact .inr (.inr (.inr (.inl h)))
  rcases key h with h | h
  · exact .inr (.inr (.inr (.inr (.inl h))))
  rcases key h with h | h
  · exact .inr (.inr (.inr (.inr (.inr (.inl h)))))
  rcases key h with h | h
  · exact .inr (.inr (.inr (.inr (.inr (.inr h)))))
  · cases h

/-- A budget of `K` steps a byte and `B` more, of which ten are returned for what may have been looked at. -/
def Am {ε α : Type} (K B : Nat) (s : List Char) (g : α → List Char) (x : Timed ε α) : Prop :=
  x.cost ≤ K * strLen s + B ∧
  ∀ a, x.val = .ok a → g a <:+ s ∧ x.cost + 10 * Ph s + K * strLen (g a) ≤ K * strLen s + 10 * Ph (g a) + B

theorem Am.mono {ε α : Type} {K B K' B' : Nat} {s : List Char} {g : α → List Char} {x : Timed ε α} (h : Am K B s g x)
    (hK : K ≤ K') (hB : B ≤ B') : Am K' B' s g x := by
  obtain ⟨j, rfl⟩ := Nat.exists_eq_add_of_le hK
  refine ⟨by have := h.1; rw [Nat.add_mul]; omega, fun a ha => ⟨(h.2 a ha).1, ?_⟩⟩
  have h1 := (h.2 a ha).2
  have h2 := Nat.mul_le_mul_left j (strLen_suffix (h.2 a ha).1)
  rw [Nat.add_mul, Nat.add_mul]
  omega

theorem Fits.am {ε α : Type} {k B : Nat} {s : List Char} {g : α → List Char} {x : Timed ε α}
    (h : Fits k s (k * strLen s + B) g x) : Am (k + 20) B s g x := by
  refine ⟨by have := h.1; rw [Nat.add_mul]; omega, fun a ha => ⟨(h.2 a ha).1, ?_⟩⟩
  have h1 := (h.2 a ha).2
  have h2 := Ph_suffix (h.2 a ha).1
  rw [Nat.add_mul, Nat.add_mul]
  omega

theorem Ends.suffix {s s' : List Char} (h : Ends s s') : s' <:+ s := by
  have hd := idd_suffix s
  have dot : ∀ {X}, idd s = '.' :: X → X <:+ s := fun h => (List.suffix_cons _ _).trans (h ▸ hd)
  rcases h with rfl | ⟨X, h1, rfl⟩ | ⟨Y, c, Z, h1, h2, -, rfl⟩
  · exact hd
  · exact (idd_suffix X).trans (dot h1)
  · refine (idd_suffix Z).trans ((List.suffix_cons c Z).trans (h2 ▸ ?_))
    rcases h1 with rfl | ⟨X, h3, rfl⟩
    · exact hd
    · exact (idd_suffix X).trans (dot h3)

/-- None of the literals begins so. -/
def NoLit (s : List Char) : Prop := ¬ stS s ∧ ¬ stB s ∧ ¬ stC s ∧ ¬ stY s ∧ ¬ stQ s ∧ ¬ stD s

theorem literalNocapture_no {c : Cursor ο} (h : NoLit c.rest) : (T.literalNocapture c).cost ≤ 43 := by
  obtain ⟨h1, h2, h3, h4, h5, h6⟩ := h
  have := literalNocapture_sum c
  have := (string_const h1).1
  have := (byteString_const h2).1
  have := (cString_const h3).1
  have := (byte_const h4).1
  have := (character_const h5).1
  have := (float_const' h6).1
  have := (int_const h6).1
  omega

theorem literalNocapture_quote {c : Cursor ο} (h : stQ c.rest) :
    (T.literalNocapture c).cost ≤ 37 + (T.character c).cost := by
  have h0 := stQ_head h
  have h1 : ¬ stS c.rest := fun h' => by rcases stS_head h' with h' | h' <;> rw [h0] at h' <;> simp at h'
  have h2 : ¬ stB c.rest := fun h' => by have := (stB_head h').1; rw [h0] at this; simp at this
  have h3 : ¬ stC c.rest := fun h' => by have := stC_head h'; rw [h0] at this; simp at this
  have h4 : ¬ stY c.rest := fun h' => by have := (stY_head h').1; rw [h0] at this; simp at this
  have h6 : ¬ stD c.rest := fun h' => by
    obtain ⟨d, hd, hdd⟩ := stD_head h'; rw [h0] at hd; cases hd; exact absurd hdd (by decide)
  have := literalNocapture_sum c
  have := (string_const h1).1
  have := (byteString_const h2).1
  have := (cString_const h3).1
  have := (byte_const h4).1
  have := (float_const' h6).1
  have := (int_const h6).1
  omega

theorem literalNocapture_am (c : Cursor ο) : Am 30 62 c.rest (·.rest) (T.literalNocapture c) := by
  have hsum := literalNocapture_sum c
  have hsome := @literalNocapture_some ο _ _ _ _ c
  have fin : ∀ {x : TRes (Cursor ο)}, Fits 4 c.rest (4 * strLen c.rest + 17) (·.rest) x →
      (T.literalNocapture c).cost ≤ x.cost + 43 → (∀ r, (T.literalNocapture c).val = .ok r → x.val = .ok r) →
      Am 30 62 c.rest (·.rest) (T.literalNocapture c) := by
    intro x hx hc hv
    refine Am.mono (K := 24) (B := 60) ?_ (by omega) (by omega)
    have ha := Fits.am hx
    refine ⟨by have := ha.1; omega, fun r hr => ?_⟩
    obtain ⟨h1, h2⟩ := ha.2 r (hv r hr)
    exact ⟨h1, by omega⟩
  by_cases hS : stS c.rest
  · have h0 := stS_head hS
    have h2 := byteString_const (c := c) fun h' => by have := (stB_head h').1; rw [this] at h0; simp at h0
    have h3 := cString_const (c := c) fun h' => by have := stC_head h'; rw [this] at h0; simp at h0
    have h4 := byte_const (c := c) fun h' => by have := (stY_head h').1; rw [this] at h0; simp at h0
    have h5 := character_const (c := c) fun h' => by have := stQ_head h'; rw [this] at h0; simp at h0
    have hD : ¬ stD c.rest := fun h' => by
      obtain ⟨d, hd, hdd⟩ := stD_head h'; rw [hd] at h0
      rcases h0 with h0 | h0 <;> cases h0 <;> exact absurd hdd (by decide)
    have h6 := float_const' hD
    have h7 := int_const hD
    refine fin (string_fits c) (by omega) fun r hr => ?_
    rcases hsome hr with h | h | h | h | h | h | h
    · exact h
    · exact absurd h (h2.2 r)
    · exact absurd h (h3.2 r)
    · exact absurd h (h4.2 r)
    · exact absurd h (h5.2 r)
    · exact absurd h (h6.2 r)
    · exact absurd h (h7.2 r)
  have h1 := string_const hS
  by_cases hB : stB c.rest
  · obtain ⟨h0, h00⟩ := stB_head hB
    have h3 := cString_const (c := c) fun h' => by have := stC_head h'; rw [this] at h0; simp at h0
    have h4 := byte_const (c := c) fun h' => h00 (stY_head h').2
    have h5 := character_const (c := c) fun h' => by have := stQ_head h'; rw [this] at h0; simp at h0
    have hD : ¬ stD c.rest := fun h' => by
      obtain ⟨d, hd, hdd⟩ := stD_head h'; rw [hd] at h0
      cases h0; exact absurd hdd (by decide)
    have h6 := float_const' hD
    have h7 := int_const hD
    refine fin (byteString_fits c) (by omega) fun r hr => ?_
    rcases hsome hr with h | h | h | h | h | h | h
    · exact absurd h (h1.2 r)
    · exact h
    · exact absurd h (h3.2 r)
    · exact absurd h (h4.2 r)
    · exact absurd h (h5.2 r)
    · exact absurd h (h6.2 r)
    · exact absurd h (h7.2 r)
  have h2 := byteString_const hB
  by_cases hC : stC c.rest
  · have h0 := stC_head hC
    have h4 := byte_const (c := c) fun h' => by have := (stY_head h').1; rw [this] at h0; simp at h0
    have h5 := character_const (c := c) fun h' => by have := stQ_head h'; rw [this] at h0; simp at h0
    have hD : ¬ stD c.rest := fun h' => by
      obtain ⟨d, hd, hdd⟩ := stD_head h'; rw [hd] at h0
      cases h0; exact absurd hdd (by decide)
    have h6 := float_const' hD
    have h7 := int_const hD
    refine fin (cString_fits c) (by omega) fun r hr => ?_
    rcases hsome hr with h | h | h | h | h | h | h
    · exact absurd h (h1.2 r)
    · exact absurd h (h2.2 r)
    · exact h
    · exact absurd h (h4.2 r)
    · exact absurd h (h5.2 r)
    · exact absurd h (h6.2 r)
    · exact absurd h (h7.2 r)
  have h3 := cString_const hC
  by_cases hY : stY c.rest
  · have h0 := (stY_head hY).1
    have h5 := character_const (c := c) fun h' => by have := stQ_head h'; rw [this] at h0; simp at h0
    have hD : ¬ stD c.rest := fun h' => by
      obtain ⟨d, hd, hdd⟩ := stD_head h'; rw [hd] at h0
      cases h0; exact absurd hdd (by decide)
    have h6 := float_const' hD
    have h7 := int_const hD
    refine fin (byte_fits c) (by omega) fun r hr => ?_
    rcases hsome hr with h | h | h | h | h | h | h
    · exact absurd h (h1.2 r)
    · exact absurd h (h2.2 r)
    · exact absurd h (h3.2 r)
    · exact h
    · exact absurd h (h5.2 r)
    · exact absurd h (h6.2 r)
    · exact absurd h (h7.2 r)
  have h4 := byte_const hY
  by_cases hQ : stQ c.rest
  · have h0 := stQ_head hQ
    have hD : ¬ stD c.rest := fun h' => by
      obtain ⟨d, hd, hdd⟩ := stD_head h'; rw [hd] at h0
      cases h0; exact absurd hdd (by decide)
    have h6 := float_const' hD
    have h7 := int_const hD
    refine fin (character_fits c) (by omega) fun r hr => ?_
    rcases hsome hr with h | h | h | h | h | h | h
    · exact absurd h (h1.2 r)
    · exact absurd h (h2.2 r)
    · exact absurd h (h3.2 r)
    · exact absurd h (h4.2 r)
    · exact h
    · exact absurd h (h6.2 r)
    · exact absurd h (h7.2 r)
  have h5 := character_const hQ
  have h6 := float_cost c
  have h7 := int_cost c
  have h8 : idr c.rest ≤ Sn c.rest := by unfold Sn; omega
  have h9 := Sn_le c.rest
  refine ⟨by omega, fun r hr => ?_⟩
  have hE : stD c.rest ∧ Ends c.rest r.rest := by
    by_cases hD : stD c.rest
    · refine ⟨hD, ?_⟩
      rcases hsome hr with h | h | h | h | h | h | h
      · exact absurd h (h1.2 r)
      · exact absurd h (h2.2 r)
      · exact absurd h (h3.2 r)
      · exact absurd h (h4.2 r)
      · exact absurd h (h5.2 r)
      · exact float_ends (by simpa using h)
      · exact int_ends (by simpa using h)
    · rcases hsome hr with h | h | h | h | h | h | h
      · exact absurd h (h1.2 r)
      · exact absurd h (h2.2 r)
      · exact absurd h (h3.2 r)
      · exact absurd h (h4.2 r)
      · exact absurd h (h5.2 r)
      · exact absurd h ((float_const' hD).2 r)
      · exact absurd h ((int_const hD).2 r)
  obtain ⟨⟨ch, t, hs, hd⟩, hE⟩ := hE
  have hp := hE.pay ⟨ch, t, hs, (digit_facts hd).1⟩
  refine ⟨hE.suffix, ?_⟩
  show _ + 10 * Ph c.rest + 30 * strLen r.rest ≤ 30 * strLen c.rest + 10 * Ph r.rest + 62
  omega

theorem literal_am (c : Cursor ο) : Am 31 64 c.rest (·.1.rest) (T.literal c) := by
  have h := literalNocapture_am c
  show Am 31 64 c.rest _ (tick 1 (Timed.bind _ _))
  unfold Timed.bind
  split
  · rename_i r hr
    obtain ⟨h1, h2⟩ := h.2 r hr
    have h3 := strLen_suffix h1
    have h4 := h.1
    simp only [] at h2 h3
    show Am 31 64 c.rest _ (tick 1 ⟨(Timed.bind (step (sliceTo c.rest (strLen c.rest - strLen r.rest))) _).val,
      (T.literalNocapture c).cost + (Timed.bind (step (sliceTo c.rest (strLen c.rest - strLen r.rest))) _).cost⟩)
    cases hs : (sliceTo c.rest (strLen c.rest - strLen r.rest) : PRes _) with
    | ok repr =>
      obtain ⟨q, h5, h6⟩ := sliceTo_ok hs
      have h7 := length_le_strLen repr
      refine ⟨by simp only [tick, Timed.bind, step, Timed.ok]; omega, fun a ha => ?_⟩
      simp [tick, Timed.bind, step, Timed.ok] at ha
      subst ha
      exact ⟨h1, by simp only [tick, Timed.bind, step, Timed.ok]; omega⟩
    | _ => exact ⟨by simp only [tick, Timed.bind, step]; omega, fun a ha => by simp [tick, Timed.bind, step] at ha⟩
  all_goals exact ⟨by have := h.1; simp only [tick]; omega, fun a h => by simp [tick] at h⟩

theorem literal_err {c : Cursor ο} {e : Unit} (h : (T.literal c).val = .err e) :
    (T.literal c).cost = 1 + (T.literalNocapture c).cost ∧ (T.literalNocapture c).val = .err () := by
  cases hv : (T.literalNocapture c).val with
  | err e' => cases e'; exact ⟨by simp only [T.literal, tick]; rw [(bindErrCost hv).1], rfl⟩
  | ok r =>
    simp only [T.literal, Timed.val_tick, Timed.val_bind, hv, Timed.val_step] at h
    rcases bindErr h with h | ⟨a, h1, h⟩
    · cases h
    · rcases bindErr h with h | ⟨a, -, h⟩
      · exact absurd h (sliceTo_no_err _ _ _)
      · cases h
  | _ =>
    simp only [T.literal, Timed.val_tick, Timed.val_bind, hv] at h
    cases h

end PM2.T
