import Verif.Proof.Timed
import Verif.Proof.Bytes
/-! # Bounds on the number of steps of the parts of the lexer -/

set_option linter.unusedSectionVars false

namespace PM2

/-- The computation, on input that begins at `s`, has a budget of `M` steps, and returns `k` steps of it for every
byte that it leaves unread. -/
def Fits {ε α : Type} (k : Nat) (s : List Char) (M : Nat) (g : α → List Char) (x : Timed ε α) : Prop :=
  x.cost ≤ M ∧ ∀ a, x.val = .ok a → g a <:+ s ∧ x.cost + k * strLen (g a) ≤ M

theorem strLen_suffix {r s : List Char} (h : r <:+ s) : strLen r ≤ strLen s := by
  obtain ⟨t, rfl⟩ := h; simp

namespace Fits
variable {ε δ α β : Type} {k n M M' b : Nat} {s : List Char} {g : α → List Char} {g' : β → List Char}
open Timed (tick step)

theorem mono {x : Timed ε α} (h : Fits k s M g x) (hm : M ≤ M') : Fits k s M' g x :=
  ⟨by have := h.1; omega, fun a ha => ⟨(h.2 a ha).1, by have := (h.2 a ha).2; omega⟩⟩

theorem suffix {s' : List Char} {x : Timed ε α} (h : Fits k s M g x) (hs : s <:+ s') : Fits k s' M g x :=
  ⟨h.1, fun a ha => ⟨(h.2 a ha).1.trans hs, (h.2 a ha).2⟩⟩

/-- A larger return per byte. -/
theorem slope {x : Timed ε α} (j : Nat) (h : Fits k s M g x) : Fits (k + j) s (M + j * strLen s) g x := by
  refine ⟨by have := h.1; omega, fun a ha => ⟨(h.2 a ha).1, ?_⟩⟩
  have h1 := (h.2 a ha).2
  have h2 := Nat.mul_le_mul_left j (strLen_suffix (h.2 a ha).1)
  rw [Nat.add_mul]
  omega

theorem tick {x : Timed ε α} (h : Fits k s M g x) : Fits k s (M + n) g (Timed.tick n x) :=
  ⟨by have := h.1; simp [Timed.tick]; omega, fun a ha => ⟨(h.2 a ha).1, by
    have := (h.2 a ha).2; simp [Timed.tick]; omega⟩⟩

theorem tick' {x : Timed ε α} (h : Fits k s M g x) (hm : M + n ≤ M') : Fits k s M' g (Timed.tick n x) := h.tick.mono hm

theorem err {e : ε} : Fits k s M g (Timed.err e : Timed ε α) := ⟨by simp [Timed.err], fun a h => by simp at h⟩
theorem panic : Fits k s M g (Timed.panic : Timed ε α) := ⟨by simp [Timed.panic], fun a h => by simp at h⟩
theorem diverge : Fits k s M g (Timed.diverge : Timed ε α) := ⟨by simp [Timed.diverge], fun a h => by simp at h⟩
theorem ok {a : α} (h : g a <:+ s) (hm : k * strLen (g a) ≤ M) : Fits k s M g (Timed.ok a : Timed ε α) :=
  ⟨by simp [Timed.ok], fun a' h' => by simp at h'; subst h'; exact ⟨h, by simpa [Timed.ok] using hm⟩⟩

theorem ite {c : Prop} [Decidable c] {x y : Timed ε α} (hx : c → Fits k s M g x) (hy : ¬ c → Fits k s M g y) :
    Fits k s M g (if c then x else y) := by
  split
  · exact hx ‹_›
  · exact hy ‹_›

theorem bind {x : Timed ε α} {f : α → Timed ε β} (hx : Fits k s M g x)
    (hf : ∀ a, x.val = .ok a → g a <:+ s → Fits k (g a) (k * strLen (g a) + b) g' (f a)) :
    Fits k s (M + b) g' (x >>= f) := by
  show Fits k s (M + b) g' (Timed.bind x f)
  unfold Timed.bind
  split
  · rename_i a ha
    obtain ⟨h1, h2⟩ := hx.2 a ha
    obtain ⟨h3, h4⟩ := hf a ha h1
    refine ⟨by simp only []; omega, fun a' ha' => ?_⟩
    obtain ⟨h5, h6⟩ := h4 a' ha'
    exact ⟨h5.trans h1, by simp only []; omega⟩
  all_goals exact ⟨by have := hx.1; simp only []; omega, fun a h => by simp at h⟩

theorem bind' {x : Timed ε α} {f : α → Timed ε β} (hx : Fits k s M g x)
    (hf : ∀ a, x.val = .ok a → g a <:+ s → Fits k (g a) (k * strLen (g a) + b) g' (f a)) (hm : M + b ≤ M') :
    Fits k s M' g' (x >>= f) := (hx.bind hf).mono hm

/-- Continue after a computation that does not read on. -/
theorem bindCost {x : Timed ε α} {f : α → Timed ε β} (hc : x.cost ≤ n) (hf : ∀ a, x.val = .ok a → Fits k s M g' (f a)) :
    Fits k s (M + n) g' (x >>= f) := by
  show Fits k s (M + n) g' (Timed.bind x f)
  unfold Timed.bind
  split
  · rename_i a ha
    obtain ⟨h3, h4⟩ := hf a ha
    refine ⟨by simp only []; omega, fun a' ha' => ?_⟩
    obtain ⟨h5, h6⟩ := h4 a' ha'
    exact ⟨h5, by simp only []; omega⟩
  all_goals exact ⟨by simp only []; omega, fun a h => by simp at h⟩

/-- Continue with a budget that depends on the result. -/
theorem bindAny {x : Timed ε α} {f : α → Timed ε β} (hc : x.cost ≤ M)
    (hf : ∀ a, x.val = .ok a → ∃ M', Fits k s M' g' (f a) ∧ x.cost + M' ≤ M) : Fits k s M g' (x >>= f) := by
  show Fits k s M g' (Timed.bind x f)
  unfold Timed.bind
  split
  · rename_i a ha
    obtain ⟨M', ⟨h3, h4⟩, h⟩ := hf a ha
    refine ⟨by simp only []; omega, fun a' ha' => ?_⟩
    obtain ⟨h5, h6⟩ := h4 a' ha'
    exact ⟨h5, by simp only []; omega⟩
  all_goals exact ⟨by simp only []; omega, fun a h => by simp at h⟩

theorem bindStep {r : Res ε α} {f : α → Timed ε β} (hf : ∀ a, r = .ok a → Fits k s M g' (f a)) :
    Fits k s (M + 1) g' (Timed.step r >>= f) := bindCost (by simp [Timed.step]) hf

theorem bindStep' {r : Res ε α} {f : α → Timed ε β} (hf : ∀ a, r = .ok a → Fits k s M g' (f a)) (hm : M + 1 ≤ M') :
    Fits k s M' g' (Timed.step r >>= f) := (bindStep hf).mono hm

theorem ifOkCost {x : Timed ε α} {f : α → Timed δ β} {h : Unit → Timed δ β} (hc : x.cost ≤ n)
    (hf : ∀ a, x.val = .ok a → Fits k s M g' (f a)) (hh : (∃ e, x.val = .err e) → Fits k s M g' (h ())) :
    Fits k s (M + n) g' (x.ifOk f h) := by
  unfold Timed.ifOk
  split
  · rename_i a ha
    obtain ⟨h3, h4⟩ := hf a ha
    refine ⟨by simp only []; omega, fun a' ha' => ?_⟩
    obtain ⟨h5, h6⟩ := h4 a' ha'
    exact ⟨h5, by simp only []; omega⟩
  · rename_i e he
    obtain ⟨h3, h4⟩ := hh ⟨e, he⟩
    refine ⟨by simp only []; omega, fun a' ha' => ?_⟩
    obtain ⟨h5, h6⟩ := h4 a' ha'
    exact ⟨h5, by simp only []; omega⟩
  all_goals exact ⟨by simp only []; omega, fun a h => by simp at h⟩

theorem ifStep {r : Res ε α} {f : α → Timed δ β} {h : Unit → Timed δ β} (hf : ∀ a, r = .ok a → Fits k s M g' (f a))
    (hh : (∃ e, r = .err e) → Fits k s M g' (h ())) : Fits k s (M + 1) g' ((Timed.step r).ifOk f h) :=
  ifOkCost (by simp [Timed.step]) hf hh

end Fits

namespace T
open Timed (tick step)
variable {ο : Type} [Pos ο]

/-- Moving a position never rejects. -/
class PosTotal (ο : Type) [Pos ο] : Prop where
  no_err : ∀ {ε : Type} (o : ο) (n : Nat) (e : ε), Pos.add o n ≠ .err e

instance : PosTotal Nat := ⟨fun o n e => by simp only [Pos.add, addU32]; split <;> simp⟩
instance : PosTotal Unit := ⟨fun o n e => by simp [Pos.add]⟩

theorem advance_no_err {ε : Type} [PosTotal ο] (c : Cursor ο) (n : Nat) (e : ε) : PM2.advance c n ≠ .err e := by
  unfold PM2.advance
  split
  · simp
  · rename_i t r _
    cases h : (Pos.add c.off t.length : Res ε ο) with
    | err e' => exact absurd h (PosTotal.no_err _ _ _)
    | _ => intro h'; cases h'

theorem sliceTo_no_err {ε : Type} (s : List Char) (n : Nat) (e : ε) : sliceTo s n ≠ .err e := by
  unfold sliceTo; split <;> simp

theorem sliceFrom_no_err {ε : Type} (s : List Char) (n : Nat) (e : ε) : sliceFrom s n ≠ .err e := by
  unfold sliceFrom; split <;> simp

theorem bindErr {ε α β : Type} {x : Res ε α} {f : α → Res ε β} {e : ε} (h : (x >>= f) = .err e) :
    x = .err e ∨ ∃ a, x = .ok a ∧ f a = .err e := by
  cases x with
  | ok a => exact .inr ⟨a, rfl, h⟩
  | err e' => cases h; exact .inl rfl
  | _ => cases h

theorem bindOk {ε α β : Type} {x : Res ε α} {f : α → Res ε β} {b : β} (h : (x >>= f) = .ok b) :
    ∃ a, x = .ok a ∧ f a = .ok b := by
  cases x with
  | ok a => exact ⟨a, rfl, h⟩
  | _ => cases h

theorem advance_ok {ε : Type} {c c' : Cursor ο} {n : Nat} (h : (PM2.advance c n : Res ε _) = .ok c') :
    ∃ t, c.rest = t ++ c'.rest ∧ strLen t = n := by
  unfold PM2.advance at h
  split at h
  · simp at h
  · rename_i t r hs
    obtain ⟨h1, h2⟩ := splitAtByte_some hs
    cases ha : (Pos.add c.off t.length : Res ε ο) with
    | ok off =>
      rw [ha] at h
      simp only [ok_bind] at h
      cases h
      exact ⟨t, h1, h2⟩
    | _ => rw [ha] at h; cases h

theorem advance_cost {ε : Type} (c : Cursor ο) (n : Nat) : (T.advance c n : Timed ε _).cost ≤ 1 + n := by
  simp only [T.advance, tick]
  cases hs : splitAtByte c.rest n with
  | none => simp
  | some p =>
    obtain ⟨t, r⟩ := p
    obtain ⟨h1, h2⟩ := splitAtByte_some hs
    have := length_le_strLen t
    simp
    omega

theorem advance_fits {ε : Type} {k M : Nat} {c : Cursor ο} {n : Nat} (h : 1 + n + k * (strLen c.rest - n) ≤ M) :
    Fits k c.rest M (·.rest) (T.advance c n : Timed ε _) := by
  have hc := advance_cost (ε := ε) c n
  refine ⟨by omega, fun c' hc' => ?_⟩
  obtain ⟨t, h1, h2⟩ := advance_ok (ε := ε) hc'
  refine ⟨⟨t, h1.symm⟩, ?_⟩
  have h3 : strLen c.rest = n + strLen c'.rest := by rw [h1, strLen_append, h2]
  have h4 : strLen c.rest - n = strLen c'.rest := by omega
  rw [h4] at h
  show _ + k * strLen c'.rest ≤ M
  omega

theorem advance_len {ε : Type} {c c' : Cursor ο} {n : Nat} (h : (PM2.advance c n : Res ε _) = .ok c') :
    c'.rest <:+ c.rest ∧ strLen c.rest = n + strLen c'.rest := by
  obtain ⟨t, h1, h2⟩ := advance_ok h
  exact ⟨⟨t, h1.symm⟩, by rw [h1, strLen_append, h2]⟩

theorem sliceFrom_ok {ε : Type} {s t : List Char} {n : Nat} (h : (sliceFrom s n : Res ε _) = .ok t) :
    ∃ p, s = p ++ t ∧ strLen p = n := by
  unfold sliceFrom at h
  split at h
  · rename_i a b hs
    cases h
    exact ⟨_, splitAtByte_some hs⟩
  · simp at h

theorem sliceTo_ok {ε : Type} {s t : List Char} {n : Nat} (h : (sliceTo s n : Res ε _) = .ok t) :
    ∃ r, s = t ++ r ∧ strLen t = n := by
  unfold sliceTo at h
  split at h
  · rename_i a b hs
    cases h
    exact ⟨_, splitAtByte_some hs⟩
  · simp at h

theorem parse_ok {c c' : Cursor ο} {tag : List Char} (h : c.parse tag = .ok c') :
    startsWith c.rest tag = true ∧ c'.rest <:+ c.rest ∧ strLen c.rest = strLen tag + strLen c'.rest := by
  unfold Cursor.parse at h
  split at h
  · rename_i hs
    exact ⟨hs, advance_len h⟩
  · simp at h

/-! ### Comments and white space -/

theorem takeUntilLoop_fits {ε : Type} (input : Cursor ο) (chars : List Char) (i : Nat)
    (h : strLen chars + i = strLen input.rest) :
    Fits 4 input.rest (4 * strLen chars + i + 4) (·.1.rest) (T.takeUntilLoop input chars i : Timed ε _) := by
  induction chars generalizing i with
  | nil =>
    simp at h
    refine Fits.tick' (M := i + 3) ?_ (by omega)
    refine Fits.bind' (b := 0) (advance_fits (M := i + 3) (by rw [← h]; omega)) (fun c hc hs => ?_) (by omega)
    exact Fits.ok (List.suffix_refl _) (by simp)
  | cons ch chars ih =>
    simp only [strLen_cons] at h ⊢
    have hp := utf8Size_pos ch
    refine Fits.tick' (M := 4 * (ch.utf8Size + strLen chars) + i + 3) ?_ (by omega)
    refine Fits.ite (fun hn => ?_) fun hn => Fits.ite (fun hr => ?_) fun hr => ?_
    · refine Fits.bind' (b := 1) (advance_fits (M := 4 * (ch.utf8Size + strLen chars) + i + 2) (by omega))
        (fun c hc hs => ?_) (by omega)
      refine Fits.bindStep fun s hs => ?_
      exact Fits.ok (List.suffix_refl _) (by simp)
    · subst hr
      have h1 : '\r'.utf8Size = 1 := rfl
      rw [h1] at h ⊢
      refine Fits.bindStep' (M := 4 * (1 + strLen chars) + i + 2) (fun t ht => ?_) (by omega)
      refine Fits.ite (fun hn => ?_) fun hn => ?_
      · refine Fits.bind' (b := 1) (advance_fits (M := 4 * strLen chars + i + 2) (by omega))
          (fun c hc hs => ?_) (by omega)
        refine Fits.bindStep fun s hs => ?_
        exact Fits.ok (List.suffix_refl _) (by simp)
      · exact (ih (i + 1) (by omega)).mono (by omega)
    · exact (ih (i + ch.utf8Size) (by omega)).mono (by omega)

theorem takeUntil_fits {ε : Type} (input : Cursor ο) :
    Fits 4 input.rest (4 * strLen input.rest + 4) (·.1.rest) (T.takeUntilNewlineOrEof input : Timed ε _) := by
  have := takeUntilLoop_fits (ε := ε) input input.rest 0 (by omega)
  exact this.mono (by omega)

/-- The loop does not go back. -/
theorem takeUntilLoop_len {ε : Type} {input : Cursor ο} {chars : List Char} {i : Nat}
    (h : strLen chars + i = strLen input.rest) {r : Cursor ο × List Char}
    (hr : (PM2.takeUntilLoop input chars i : Res ε _) = .ok r) : strLen r.1.rest + i ≤ strLen input.rest := by
  induction chars generalizing i with
  | nil =>
    unfold PM2.takeUntilLoop at hr
    obtain ⟨c, hc, h2⟩ := bindOk hr
    cases h2
    have := (advance_len hc).2
    simp at h
    simp only []
    omega
  | cons ch chars ih =>
    unfold PM2.takeUntilLoop at hr
    simp only [strLen_cons] at h
    split at hr
    · obtain ⟨c, hc, h2⟩ := bindOk hr
      obtain ⟨t, ht, h3⟩ := bindOk h2
      cases h3
      have := (advance_len hc).2
      simp only []
      omega
    · split at hr
      · rename_i hn hcr
        subst hcr
        have h1 : '\r'.utf8Size = 1 := rfl
        obtain ⟨t, ht, h2⟩ := bindOk hr
        split at h2
        · obtain ⟨c, hc, h3⟩ := bindOk h2
          obtain ⟨t, ht, h4⟩ := bindOk h3
          cases h4
          have := (advance_len hc).2
          simp only []
          omega
        · have := ih (by omega) h2
          omega
      · have := ih (by omega) hr
        omega

theorem blockCommentLoop_fits (input : Cursor ο) (bs : List UInt8) (i d : Nat)
    (h : bs.length + i = strLen input.rest) :
    Fits 4 input.rest (4 * bs.length + i + 4) (·.1.rest) (T.blockCommentLoop input bs i d) := by
  fun_induction T.blockCommentLoop input bs i d with
  | case1 b0 b1 bs i depth ih1 ih2 ih3 =>
    simp only [List.length_cons] at h ih3 ⊢
    refine Fits.tick' (M := 4 * bs.length + i + 11) ?_ (by omega)
    refine Fits.ite (fun _ => ?_) fun _ => Fits.ite (fun _ => ?_) fun _ => ?_
    · exact (ih1 (by omega)).mono (by omega)
    · refine Fits.ite (fun _ => Fits.panic) fun _ => Fits.ite (fun _ => ?_) fun _ => ?_
      · refine Fits.bind' (b := 1) (advance_fits (M := 4 * bs.length + i + 3) (by omega)) (fun c hc hs => ?_) (by omega)
        refine Fits.bindStep fun s hs => ?_
        exact Fits.ok (List.suffix_refl _) (by simp)
      · exact (ih2 (by omega)).mono (by omega)
    · exact (ih3 (by omega)).mono (by omega)
  | case2 => exact Fits.tick' (M := 0) Fits.err (by omega)

theorem blockComment_fits (input : Cursor ο) :
    Fits 4 input.rest (4 * strLen input.rest + 5) (·.1.rest) (T.blockComment input) := by
  refine Fits.tick' (M := 4 * strLen input.rest + 4) ?_ (by omega)
  refine Fits.ite (fun _ => Fits.err) fun _ => ?_
  exact (blockCommentLoop_fits input _ 0 0 (by rw [bytesOf_length]; omega)).mono (by rw [bytesOf_length]; omega)

theorem blockCommentLoop_len {input : Cursor ο} {bs : List UInt8} {i d : Nat}
    (h : bs.length + i = strLen input.rest) {r : Cursor ο × List Char}
    (hr : PM2.blockCommentLoop input bs i d = .ok r) : strLen r.1.rest + i + 2 ≤ strLen input.rest := by
  fun_induction PM2.blockCommentLoop input bs i d with
  | case1 _ _ _ _ _ _ ih => simp only [List.length_cons] at h; have := ih (by omega) hr; omega
  | case2 => simp at hr
  | case3 =>
    obtain ⟨c, hc, h2⟩ := bindOk hr
    obtain ⟨t, ht, h3⟩ := bindOk h2
    cases h3
    have := (advance_len hc).2
    simp only []
    omega
  | case4 _ _ _ _ _ _ _ _ _ ih => simp only [List.length_cons] at h; have := ih (by omega) hr; omega
  | case5 _ _ _ _ _ _ _ ih => simp only [List.length_cons] at h ih; have := ih (by omega) hr; omega
  | case6 => simp at hr

theorem blockComment_len {input : Cursor ο} {r : Cursor ο × List Char} (hr : PM2.blockComment input = .ok r) :
    strLen r.1.rest + 2 ≤ strLen input.rest := by
  unfold PM2.blockComment at hr
  split at hr
  · simp at hr
  · exact blockCommentLoop_len (by rw [bytesOf_length]; omega) hr

/-- White space costs at most twelve steps a byte; a block comment without an end costs the rest of the text. -/
def WsFits {ε : Type} (s : List Char) (x : Timed ε (Cursor ο)) : Prop :=
  x.cost ≤ 12 * strLen s + 6 ∧ ∀ c, x.val = .ok c → c.rest <:+ s ∧
    (x.cost + 12 * strLen c.rest ≤ 12 * strLen s + 1 ∨
      (startsWith c.rest ['/', '*'] = true ∧ ∃ e, PM2.blockComment c = .err e))

theorem WsFits.bind {ε α : Type} {s : List Char} {x : Timed ε α} {f : α → Timed ε (Cursor ο)} {g : α → List Char} {k M : Nat}
    (hx : Fits k s M g x) (hk : k ≤ 11) (hp : ∀ a, x.val = .ok a → M + 1 + 12 * strLen (g a) ≤ 12 * strLen s + k * strLen (g a))
    (hM : M + 1 ≤ 12 * strLen s + 6) (hf : ∀ a, x.val = .ok a → WsFits (g a) (f a)) : WsFits s (tick 1 (x >>= f)) := by
  show WsFits s (tick 1 (Timed.bind x f))
  unfold Timed.bind
  split
  · rename_i a ha
    obtain ⟨h1, h2⟩ := hx.2 a ha
    obtain ⟨h3, h4⟩ := hf a ha
    have hp := hp a ha
    have h0 := Nat.mul_le_mul_right (strLen (g a)) hk
    refine ⟨by simp only [tick]; omega, fun c hc => ?_⟩
    obtain ⟨h5, h6⟩ := h4 c hc
    refine ⟨h5.trans h1, ?_⟩
    rcases h6 with h6 | h6
    · left; simp only [tick]; omega
    · exact .inr h6
  all_goals exact ⟨by have := hx.1; simp only [tick]; omega, fun a h => by simp [tick] at h⟩

theorem WsFits.stay {ε : Type} (c : Cursor ο) : WsFits c.rest (tick 1 (.ok c) : Timed ε _) :=
  ⟨by simp only [tick, Timed.ok]; omega, fun c' h => by
    simp at h; subst h; exact ⟨List.suffix_refl _, .inl (by simp only [tick, Timed.ok]; omega)⟩⟩

theorem startsWith_len {s p : List Char} (h : startsWith s p = true) : strLen p ≤ strLen s := by
  obtain ⟨t, rfl⟩ := List.isPrefixOf_iff_prefix.mp h
  simp

theorem skipWsLoop_fits {ε : Type} (fuel : Nat) (c : Cursor ο) : WsFits c.rest (T.skipWsLoop fuel c : Timed ε _) := by
  induction fuel generalizing c with
  | zero => exact ⟨by simp [T.skipWsLoop, Timed.diverge], fun a h => by simp [T.skipWsLoop] at h⟩
  | succ fuel ih =>
    have hadv : ∀ n, 1 ≤ n → n ≤ strLen c.rest →
        WsFits c.rest (tick 1 ((T.advance c n : Timed ε _) >>= fun s => T.skipWsLoop fuel s)) := by
      intro n h1 hn
      refine WsFits.bind (k := 1) (M := strLen c.rest + 1) (advance_fits (by omega)) (by omega) (fun c' hc' => ?_) (by omega)
        fun c' _ => ih c'
      have := (advance_len (ε := ε) hc').2
      omega
    obtain ⟨rest, off⟩ := c
    cases rest with
    | nil => exact WsFits.stay _
    | cons ch t =>
      have hp := utf8Size_pos ch
      have hlen : strLen (ch :: t) = ch.utf8Size + strLen t := strLen_cons ..
      have hother : WsFits (ch :: t) (tick 1 (
        if (bytesOf (ch :: t)).headD 0 = B ' ' ∨ (0x09 ≤ (bytesOf (ch :: t)).headD 0 ∧ (bytesOf (ch :: t)).headD 0 ≤ 0x0d) then do
          let s ← T.advance ⟨ch :: t, off⟩ 1
          T.skipWsLoop fuel s
        else if (bytesOf (ch :: t)).headD 0 < 128 then .ok ⟨ch :: t, off⟩
        else if isWhitespace ch then do
          let s ← T.advance ⟨ch :: t, off⟩ ch.utf8Size
          T.skipWsLoop fuel s
        else .ok ⟨ch :: t, off⟩ : Timed ε _)) := by
        split
        · exact hadv 1 (by omega) (by simp only [hlen]; omega)
        · split
          · exact WsFits.stay ⟨ch :: t, off⟩
          · split
            · exact hadv _ hp (by simp only [hlen]; omega)
            · exact WsFits.stay ⟨ch :: t, off⟩
      unfold T.skipWsLoop
      simp only []
      split
      · split
        · rename_i hb hs
          refine WsFits.bind (M := 4 * strLen (ch :: t) + 4) (takeUntil_fits ⟨ch :: t, off⟩) (by omega) (fun r hr => ?_) (by omega) fun r _ => ih r.1
          have h2 : startsWith (ch :: t) ['/', '/'] = true := by
            simp only [Bool.and_eq_true] at hs; exact hs.1.1
          have h3 : ch = '/' := by
            simp [startsWith, List.isPrefixOf] at h2; exact h2.1.symm
          subst h3
          simp only [takeUntil_val, PM2.takeUntilNewlineOrEof, PM2.takeUntilLoop] at hr
          rw [if_neg (by decide), if_neg (by decide)] at hr
          have := takeUntilLoop_len (i := 0 + '/'.utf8Size) (by simp; omega) hr
          have h1 : '/'.utf8Size = 1 := rfl
          rw [h1] at this
          simp only [] at this ⊢
          omega
        · split
          · rename_i hb hn hs
            have := startsWith_len hs
            exact hadv 4 (by omega) this
          · split
            · rename_i hb hn hn2 hs
              have hx := blockComment_fits (⟨ch :: t, off⟩ : Cursor ο)
              have hcc : startsWith (ch :: t) ['/', '*'] = true := by
                simp only [Bool.and_eq_true] at hs; exact hs.1.1
              unfold Timed.ifOk
              split
              · rename_i r hr
                obtain ⟨h1, h2⟩ := hx.2 r hr
                have h3 := blockComment_len (by simpa using hr)
                obtain ⟨h4, h5⟩ := ih r.1
                simp only [] at h1 h2 h3 h4 h5
                refine ⟨by simp only [tick]; omega, fun c hc => ?_⟩
                obtain ⟨h6, h7⟩ := h5 c hc
                refine ⟨h6.trans h1, ?_⟩
                rcases h7 with h7 | h7
                · left; simp only [tick]; omega
                · exact .inr h7
              · rename_i e he
                have := hx.1
                simp only [] at this
                refine ⟨by simp only [tick, Timed.ok]; omega, fun c hc => ?_⟩
                simp at hc
                subst hc
                exact ⟨List.suffix_refl _, .inr ⟨hcc, e, by simpa using he⟩⟩
              all_goals
                have := hx.1
                simp only [] at this
                exact ⟨by simp only [tick]; omega, fun a h => by simp [tick] at h⟩
            · exact hother
      · exact hother

theorem skipWhitespace_fits {ε : Type} (c : Cursor ο) : WsFits c.rest (T.skipWhitespace c : Timed ε _) :=
  skipWsLoop_fits _ c

end T
end PM2
