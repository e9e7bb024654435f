import Verif.Proof.Cost4
/-! # Bounds on the number of steps of the parts of the lexer: leaves -/

set_option linter.unusedSectionVars false

namespace PM2.T
open Timed (tick step)
variable {ο : Type} [Pos ο] [PosTotal ο] [UnicodeTables] [LawfulUnicode]

theorem punctChar_ok {c r : Cursor ο} {ch : Char} (h : punctChar c = .ok (r, ch)) :
    c.rest = ch :: r.rest ∧ ch ∈ recognizedPunct ∧ ¬ ['/', '/'] <+: c.rest ∧ ¬ ['/', '*'] <+: c.rest := by
  unfold punctChar at h
  split at h
  · cases h
  · rename_i hs
    simp only [Bool.or_eq_true, startsWith_iff, not_or] at hs
    split at h
    · cases h
    · rename_i first t hr
      split at h
      · rename_i hp
        obtain ⟨c1, h1, h⟩ := bindOk h
        cases h
        have := advance_split h1 (t := [ch]) (r := t) (by rw [hr]; rfl) (by simp)
        rw [this]
        exact ⟨hr, by simpa using hp, hs⟩
      · cases h

theorem identAny_cost (c : Cursor ο) : (T.identAny c).cost ≤ 3 * Ph c.rest + 9 := by
  unfold T.identAny
  have key : ∀ (n : Nat) (_ : n ≤ 2) (f : Cursor ο × List Char → TRes (Cursor ο × TokenTree)),
      (∀ c1 : Cursor ο, (PM2.advance c n : PRes _) = .ok c1 → 3 * idr c1.rest + n ≤ 3 * Ph c.rest + 2) →
      (∀ r sym, (f (r, sym)).cost ≤ sym.length) →
      (T.advance c n >>= fun rest => T.identNotRaw rest >>= f).cost ≤ 3 * Ph c.rest + 7 := by
    intro n hn f h1 h2
    show (Timed.bind _ _).cost ≤ _
    have hc := advance_cost (ε := Unit) c n
    unfold Timed.bind
    cases hv : (T.advance c n : TRes _).val with
    | ok c1 =>
      have h3 := h1 c1 (by simpa using hv)
      have h4 := identNotRaw_cost c1
      simp only []
      refine Nat.le_trans (Nat.add_le_add hc (bind_cost (b := idr c1.rest) h4 fun v hv => ?_)) (by omega)
      obtain ⟨r, sym⟩ := v
      have h5 := (identNotRaw_sym (by simpa using hv)).1
      have h6 := (identNotRaw_rest (by simpa using hv)).1
      have h7 := length_le_strLen sym
      have h8 := idr_add c1.rest
      simp only [] at h5 h6
      rw [h6] at h5
      exact Nat.le_trans (h2 r sym) (by omega)
    | _ =>
      simp only []
      omega
  rw [Nat.add_comm]
  have hsp : 3 * Ph c.rest + 7 + 1 ≤ 9 + 3 * Ph c.rest := by omega
  by_cases hr : startsWith c.rest ['r', '#'] = true
  · obtain ⟨t, ht⟩ := startsWith_iff.mp hr
    simp only [hr, if_true, Bool.not_true, Bool.false_eq_true, if_false]
    refine Nat.le_trans (tick_cost (key 2 (by omega) _ (fun c1 h1 => ?_) fun r sym => ?_)) hsp
    · have h2 := advance_split h1 (t := ['r', '#']) (r := t) ht.symm rfl
      have h3 := idr_le_Ph c.rest
      have hcr : isIdentContinue 'r' = true := continue_ascii (by decide) (by decide)
      have hh : Sign '#' := by decide
      have hrr : 'r'.utf8Size = 1 := rfl
      rw [h2]
      rw [← ht] at h3 ⊢
      simp only [List.cons_append, List.nil_append] at h3 ⊢
      rw [idr_pos hcr, idd_pos hcr, idr_neg (sign_not hh), idd_neg (sign_not hh), rn_cons, if_pos hh] at h3
      omega
    · simp only []
      split
      · simp [Timed.err]
      · simp [tick, Timed.ok]
  · rw [Bool.not_eq_true] at hr
    simp only [hr, Bool.false_eq_true, if_false, Bool.not_false, if_true]
    refine Nat.le_trans (tick_cost (key 0 (by omega) _ (fun c1 h1 => ?_) fun r sym => ?_)) hsp
    · have h2 := advance_split h1 (t := []) (r := c.rest) rfl rfl
      have h3 := idr_le_Ph c.rest
      rw [h2]
      omega
    · simp [tick, Timed.ok]

theorem identAny_ok {c : Cursor ο} {v : Cursor ο × TokenTree} (h : PM2.identAny c = .ok v) :
    ∃ ch t, c.rest = ch :: t ∧ isIdentStart ch = true := by
  unfold PM2.identAny at h
  obtain ⟨c1, h1, h⟩ := bindOk h
  obtain ⟨⟨r, sym⟩, h2, h⟩ := bindOk h
  by_cases hr : startsWith c.rest ['r', '#'] = true
  · obtain ⟨t, ht⟩ := startsWith_iff.mp hr
    refine ⟨'r', '#' :: t, ht.symm, ?_⟩
    simp only [isIdentStart, Bool.or_eq_true]
    right
    rw [LawfulUnicode.start_ascii _ (by decide)]
    decide
  · rw [if_neg hr] at h1
    have h3 := advance_split h1 (t := []) (r := c.rest) rfl rfl
    obtain ⟨-, ch, t, h4, h5⟩ := identNotRaw_rest h2
    exact ⟨ch, t, by rw [← h3]; exact h4, h5⟩

theorem punct_cost (c : Cursor ο) : (T.punct c).cost ≤ 3 * strLen c.rest + 12 := by
  unfold T.punct
  refine Nat.le_trans (tick_cost (bind_cost (a := 1) (b := 3 * strLen c.rest + 9) (by simp [step]) fun v hv => ?_)) (by omega)
  obtain ⟨r, ch⟩ := v
  obtain ⟨h1, -⟩ := punctChar_ok (by simpa using hv)
  have hp := utf8Size_pos ch
  have hl : strLen c.rest = ch.utf8Size + strLen r.rest := by rw [h1]; simp
  simp only []
  split
  · have h2 := (identAny_fits r).1
    refine Nat.le_trans (bind_cost (b := 1) h2 fun v _ => ?_) (by omega)
    split
    · simp [Timed.err]
    · exact bind_cost (a := 1) (b := 0) (by simp [step]) fun _ _ => by simp [Timed.ok]
  · refine Nat.le_trans (ifOk_cost (a := 1) (n := 1) (by simp [step]) (fun _ _ => ?_) ?_) (by omega)
    · exact bind_cost (a := 1) (b := 0) (by simp [step]) fun _ _ => by simp [Timed.ok]
    · exact bind_cost (a := 1) (b := 0) (by simp [step]) fun _ _ => by simp [Timed.ok]

theorem punct_const {c : Cursor ο} (h : ∀ ch t, c.rest = ch :: t → ch ∉ recognizedPunct) :
    (T.punct c).cost ≤ 2 ∧ ∀ v, (T.punct c).val ≠ .ok v := by
  refine tickErr (x := step (punctChar c)) (n := 1) ?_ (by simp [step])
  show punctChar c = _
  cases hp : punctChar c with
  | ok v =>
    obtain ⟨r, ch⟩ := v
    obtain ⟨h1, h2, -⟩ := punctChar_ok hp
    exact absurd h2 (h ch _ h1)
  | err e => rfl
  | panic =>
    unfold punctChar at hp
    split at hp
    · cases hp
    · split at hp
      · cases hp
      · rename_i first t hr
        rw [if_neg (by simpa using h first t hr)] at hp
        cases hp
  | diverge =>
    unfold punctChar at hp
    split at hp
    · cases hp
    · split at hp
      · cases hp
      · rename_i first t hr
        rw [if_neg (by simpa using h first t hr)] at hp
        cases hp

/-- A punctuation character that was read. -/
theorem punct_ok {c : Cursor ο} {v : Cursor ο × TokenTree} (h : (T.punct c).val = .ok v) :
    ∃ ch, c.rest = ch :: v.1.rest ∧ ch ∈ recognizedPunct ∧ (ch = '\'' → ∃ d t, v.1.rest = d :: t ∧ isIdentStart d = true) ∧
      ¬ ['/', '/'] <+: c.rest ∧ ¬ ['/', '*'] <+: c.rest ∧
      (T.punct c).cost + 10 * Ph c.rest ≤ 10 * Ph v.1.rest + 32 := by
  have hid := @identAny_cost ο _ _ _ _
  unfold T.punct at h ⊢
  simp only [Timed.val_tick, Timed.val_bind, Timed.val_step] at h
  obtain ⟨⟨r, ch⟩, hp, h⟩ := bindOk h
  obtain ⟨h1, h2, h3, h4⟩ := punctChar_ok hp
  have hst := Ph_step ch r.rest
  have hsz : ch.utf8Size = 1 := by
    apply utf8Size_ascii
    have : ∀ c ∈ recognizedPunct, c.toNat < 128 := by decide
    exact this ch h2
  have hcost : ∀ {f : Cursor ο × Char → TRes (Cursor ο × TokenTree)}, (tick 1 (step (punctChar c) >>= f)).cost = 2 + (f (r, ch)).cost := by
    intro f
    rw [hp]
    show (tick 1 (Timed.bind _ _)).cost = _
    simp only [tick, Timed.bind, step]
    omega
  rw [hcost]
  simp only [] at h
  by_cases hq : ch = '\''
  · subst hq
    simp only [if_true] at h ⊢
    simp only [Timed.val_bind] at h
    obtain ⟨⟨al, tt⟩, hi, h⟩ := bindOk h
    have hi' := identAny_ok (by simpa using hi)
    have hph : Ph c.rest = 0 := by
      rw [h1, Ph_cons, if_neg (by decide), if_neg (by decide)]
      have hn : ¬ isIdentContinue '\'' = true := by
        intro hc
        exact absurd ((identContinue_facts hc).2 (by decide)) (by decide)
      rw [idr_neg hn, idd_neg hn, rn_cons, if_neg (by decide)]
    simp only [] at h
    have hv : v.1 = r := by
      split at h
      · cases h
      · simp only [Timed.val_bind] at h
        obtain ⟨p, -, h⟩ := bindOk h
        cases h
        rfl
    rw [hv]
    refine ⟨'\'', h1, h2, fun _ => hi', h3, h4, ?_⟩
    rw [hph]
    have := hid r
    refine Nat.le_trans (Nat.add_le_add_right (Nat.add_le_add_left (bind_cost (b := 1) this fun v _ => ?_) 2) _) (by omega)
    split
    · simp [Timed.err]
    · exact bind_cost (a := 1) (b := 0) (by simp [step]) fun _ _ => by simp [Timed.ok]
  · simp only [if_neg hq] at h ⊢
    have hv : v.1 = r := by
      rcases ifOk_ok h with ⟨a, -, h, -⟩ | ⟨e, -, h, -⟩
      · simp only [Timed.val_bind] at h
        obtain ⟨p, -, h⟩ := bindOk h
        cases h
        rfl
      · simp only [Timed.val_bind] at h
        obtain ⟨p, -, h⟩ := bindOk h
        cases h
        rfl
    rw [hv]
    refine ⟨ch, h1, h2, fun h => absurd h hq, h3, h4, ?_⟩
    rw [h1]
    refine Nat.le_trans (Nat.add_le_add_right (Nat.add_le_add_left (ifOk_cost (a := 1) (n := 1) (by simp [step]) (fun v _ => ?_) ?_) 2) _) (by omega)
    · exact bind_cost (a := 1) (b := 0) (by simp [step]) fun _ _ => by simp [Timed.ok]
    · exact bind_cost (a := 1) (b := 0) (by simp [step]) fun _ _ => by simp [Timed.ok]

/-- A character literal that is rejected because there is no closing quote is rejected at once. -/
theorem character_err {c r : Cursor ο} {e : Unit} (hs : c.rest = '\'' :: r.rest) (hn : ∀ t, r.rest ≠ '\\' :: t)
    (h : (T.character c).val = .err e) : (T.character c).cost ≤ 9 := by
  unfold T.character at h ⊢
  have hpar : ∀ c1 : Cursor ο, c.parse ['\''] = .ok c1 → c1.rest = r.rest := by
    intro c1 h1
    unfold Cursor.parse at h1
    split at h1
    · exact advance_split h1 (t := ['\'']) hs rfl
    · cases h1
  simp only [Timed.val_tick] at h
  show (tick 1 (Timed.bind _ _)).cost ≤ _
  have h' : (Timed.bind _ _).val = .err e := h
  unfold Timed.bind at h' ⊢
  simp only [step] at h' ⊢
  cases hp : c.parse ['\''] with
  | ok c1 =>
    have h1 := hpar c1 hp
    simp only [hp] at h' ⊢
    rw [h1] at h' ⊢
    cases hr : r.rest with
    | nil =>
      show (tick 1 (⟨_, 1 + (Timed.bind _ _).cost⟩ : TRes _)).cost ≤ _
      simp [tick, T.charElem, Timed.bind, Timed.ok, Timed.err]
    | cons d t =>
      have hd : d ≠ '\\' := fun hd => hn t (by rw [hr, hd])
      rw [hr] at h'
      have hce : T.charElem (d :: t) = ⟨.ok (some (t, d.utf8Size)), 1⟩ := by
        simp [T.charElem, if_neg hd, tick, Timed.ok]
      rw [hce] at h' ⊢
      have h2 : (Timed.bind (⟨.ok (some (t, d.utf8Size)), 1⟩ : TRes _) _).val = .err e := h'
      show (tick 1 (⟨_, 1 + (Timed.bind (⟨.ok (some (t, d.utf8Size)), 1⟩ : TRes _) _).cost⟩ : TRes _)).cost ≤ _
      simp only [Timed.bind] at h2 ⊢
      cases t with
      | nil => simp [tick, Timed.err]
      | cons x t =>
        have h4 := Char.utf8Size_le_four d
        have h5 := advance_cost (ε := Unit) c1 d.utf8Size
        simp only [tick]
        show 1 + (1 + (1 + (Timed.bind (T.advance c1 d.utf8Size) _).cost)) ≤ _
        have h3 : (Timed.bind (T.advance c1 d.utf8Size) _).val = .err e := h2
        unfold Timed.bind at h3 ⊢
        cases hv : (T.advance c1 d.utf8Size : TRes _).val with
        | ok c2 =>
          simp only [hv] at h3 ⊢
          have h6 : (Timed.bind (step (c2.parse ['\''])) _).val = .err e := h3
          show 1 + (1 + (1 + (_ + (Timed.bind (step (c2.parse ['\''])) _).cost))) ≤ _
          unfold Timed.bind at h6 ⊢
          simp only [step] at h6 ⊢
          cases hq : c2.parse ['\''] with
          | ok c3 =>
            simp only [hq] at h6
            exfalso
            rw [literalSuffix_val] at h6
            unfold PM2.literalSuffix at h6
            cases hi : PM2.identNotRaw c3 <;> rw [hi] at h6 <;> simp [Res.ifOk] at h6
          | _ => simp only []; omega
        | _ => simp only []; omega
  | _ => simp [tick]

end PM2.T
