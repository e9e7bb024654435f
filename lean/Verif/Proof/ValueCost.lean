import Verif.Proof.TimedValue
import Verif.Proof.Value
/-! # The accessors take linear time -/

namespace PM2.T
open Timed

theorem unicodeEscapeLoop_cost {ε : Type} (s : List Char) (v n : Nat) :
    (T.unicodeEscapeLoop s v n : Timed ε _).cost + (PM2.unicodeEscapeLoop s v n).2.length ≤ s.length + 1 := by
  induction s generalizing v n with
  | nil => simp [T.unicodeEscapeLoop, PM2.unicodeEscapeLoop, tick, Timed.ok]
  | cons c s ih =>
    simp only [T.unicodeEscapeLoop, PM2.unicodeEscapeLoop, tick, List.length_cons]
    split
    · have := ih v n; omega
    · split
      · simp only [Timed.ok]; omega
      · cases hexVal c with
        | none => simp only [Timed.ok]; omega
        | some d =>
          simp only
          split
          · have := ih v (n + 1); omega
          · have := ih (v * 16 + d) (n + 1); omega

theorem unicodeEscape_cost {ε : Type} (s : List Char) :
    (T.unicodeEscape s : Timed ε _).cost + (PM2.unicodeEscape s).2.length ≤ s.length + 1 := by
  cases s with
  | nil => simp [T.unicodeEscape, PM2.unicodeEscape, tick, Timed.ok]
  | cons b s =>
    simp only [T.unicodeEscape, PM2.unicodeEscape, tick]
    split
    · simp only [Timed.ok, List.length_cons]; omega
    · cases s with
      | nil => simp [Timed.ok]
      | cons c s =>
        simp only [List.length_cons]
        split
        · simp only [Timed.ok]; omega
        · split
          · simp only [Timed.ok]; omega
          · cases hexVal c with
            | none => simp only [Timed.ok]; omega
            | some d =>
              have := unicodeEscapeLoop_cost (ε := ε) s d 1
              simp only
              omega

theorem hexEscape_rest (s : List Char) : (hexEscape s).2.length ≤ s.length := by
  unfold hexEscape
  split
  · simp
  · split
    · simp
    · split
      · simp
      · split <;> simp <;> omega

theorem costBind {ε α β : Type} {x : Timed ε α} {f : α → Timed ε β} {a b : Nat} (hx : x.cost ≤ a)
    (hf : ∀ v, x.val = .ok v → (f v).cost ≤ b) : (x >>= f).cost ≤ a + b := by
  show (Timed.bind x f).cost ≤ _
  unfold Timed.bind
  split
  · rename_i v hv
    have := hf v hv
    simp only []
    omega
  all_goals simp only []; omega

theorem costTick {ε α : Type} {x : Timed ε α} {a n : Nat} (hx : x.cost ≤ a) : (tick n x).cost ≤ a + n := by
  simp only [tick]; omega

theorem bind_ok {ε α β : Type} {x : Timed ε α} {a : α} (h : x.val = .ok a) (f : α → Timed ε β) :
    (x >>= f).cost = x.cost + (f a).cost := by
  show (Timed.bind x f).cost = _
  unfold Timed.bind
  rw [h]

section
variable {U : Type}

theorem unescape1_cost {ε : Type} (I : Unescape U) (s : List Char) :
    (T.unescape1 I s : Timed ε _).cost + (PM2.unescape1 I s).2.length ≤ s.length + 1 := by
  cases s with
  | nil => simp [T.unescape1, PM2.unescape1, tick, Timed.ok]
  | cons c s =>
    simp only [T.unescape1, PM2.unescape1, tick, List.length_cons]
    split
    · simp only [Timed.ok]; omega
    · cases simpleEscape c with
      | some b => simp only [Timed.ok]; omega
      | none =>
        simp only
        split
        · rw [bind_ok (a := hexEscape s) rfl]
          have := hexEscape_rest s
          rcases h : hexEscape s with ⟨_ | _, r⟩ <;> rw [h] at this <;> simp only [Timed.ok, step] at this ⊢ <;> omega
        · split
          · rw [bind_ok (unicodeEscape_val s)]
            have := unicodeEscape_cost (ε := ε) s
            rcases h : PM2.unicodeEscape s with ⟨_ | _, r⟩ <;> rw [h] at this <;> simp only [Timed.ok] at this ⊢ <;> omega
          · simp only [Timed.ok]; omega

theorem unescapeSingle_cost {ε : Type} (I : Unescape U) (s : List Char) :
    (T.unescapeSingle I s : Timed ε _).cost ≤ s.length + 1 := by
  cases s with
  | nil => simp [T.unescapeSingle, tick, Timed.ok]
  | cons c s =>
    simp only [T.unescapeSingle]
    refine Nat.le_trans (costTick (a := s.length + 1) ?_) (by simp)
    refine costBind (b := 0) ?_ ?_
    · split
      · have := unescape1_cost (ε := ε) I s
        omega
      · split
        · simp [Timed.ok]
        · split <;> simp [Timed.ok]
    · rintro ⟨_ | _, _ | _⟩ - <;> simp [Timed.ok]

theorem skip_rest (s : List Char) (n : Nat) :
    (s.takeWhile isSkipped).length + (PM2.skipAsciiWhitespace (U := U) s n).2.length = s.length := by
  simp only [PM2.skipAsciiWhitespace]
  rw [← List.length_append, List.takeWhile_append_dropWhile]

theorem skip_calls (s : List Char) (n : Nat) : (PM2.skipAsciiWhitespace (U := U) s n).1.length ≤ 2 := by
  simp only [PM2.skipAsciiWhitespace, List.length_append]
  have h1 : ∀ (b : Bool) (x : Call U), (if b = true then [x] else []).length ≤ 1 := by
    intro b x; cases b <;> simp
  have := h1 ((s.takeWhile isSkipped).contains '\n')
    ⟨n, n + 2 + strLen (s.takeWhile isSkipped), .error .multipleSkippedLinesWarning⟩
  cases s.dropWhile isSkipped with
  | nil => simp only [List.length_nil]; omega
  | cons c t =>
    have := h1 (charIsWhitespace c) ⟨n, n + 2 + strLen (s.takeWhile isSkipped) + c.utf8Size, .error .unskippedWhitespaceWarning⟩
    simp only
    omega

theorem unescapeLoop_cost {ε : Type} (I : Unescape U) (len fuel : Nat) (s : List Char) :
    (T.unescapeLoop I len fuel s : Timed ε _).cost ≤ 3 * s.length + 1 := by
  induction fuel generalizing s with
  | zero => cases s <;> simp [T.unescapeLoop, tick, Timed.ok, Timed.diverge]
  | succ fuel ih =>
    cases s with
    | nil => simp [T.unescapeLoop, tick, Timed.ok]
    | cons c s =>
      simp only [T.unescapeLoop]
      refine Nat.le_trans (costTick (a := 3 * s.length + 3) ?_) (by simp only [List.length_cons]; omega)
      refine Nat.le_trans (costBind (a := 0) (b := 3 * s.length + 3) (Nat.le_refl _) fun a _ => ?_) (by omega)
      refine Nat.le_trans (costBind (a := 0) (b := 3 * s.length + 3) (Nat.le_refl _) fun st _ => ?_) (by omega)
      split
      · rename_i h
        obtain ⟨c', t, rfl⟩ : ∃ c' t, s = c' :: t := by
          cases s with
          | nil => simp [startsWithChar] at h
          | cons c' t => exact ⟨c', t, rfl⟩
        rw [bind_ok (skipAsciiWhitespace_val _ _)]
        have h1 := skip_rest (U := U) t st
        have h2 := skip_calls (U := U) t st
        have h3 : (T.skipAsciiWhitespace t st : Timed ε (List (Call U) × List Char)).cost =
          2 * (t.takeWhile isSkipped).length + 1 + (PM2.skipAsciiWhitespace (U := U) t st).1.length := rfl
        simp only [List.drop_succ_cons, List.drop_zero, List.length_cons]
        rcases hr : PM2.skipAsciiWhitespace (U := U) t st with ⟨calls, r⟩
        rw [hr] at h1 h2 h3
        simp only at h1 h2 h3 ⊢
        have h4 := costBind (x := (T.unescapeLoop I len fuel r : Timed ε _)) (f := fun more => Timed.ok (calls ++ more))
          (b := 0) (ih r) (fun _ _ => Nat.le_refl _)
        omega
      · have key : ∀ x : Timed ε (UnitRes U × List Char), (∃ y, x.val = .ok y ∧ x.cost + y.2.length ≤ s.length + 1 ∧ y.2.length ≤ s.length) →
            (x >>= fun p => match p with
              | (res, chars) => do
                let stop ← step (subUsize len (strLen chars))
                let more ← T.unescapeLoop I len fuel chars
                .ok (⟨st, stop, res⟩ :: more) : Timed ε (List (Call U))).cost ≤ 3 * s.length + 3 := by
          rintro x ⟨⟨res, r⟩, h1, h2, h3⟩
          rw [bind_ok h1]
          simp only at h2 h3 ⊢
          have h4 := costBind (x := step (subUsize (ε := ε) len (strLen r))) (a := 1) (b := 3 * r.length + 1)
            (f := fun stop => (T.unescapeLoop I len fuel r : Timed ε _) >>= fun more => Timed.ok (⟨st, stop, res⟩ :: more))
            (Nat.le_refl _) (fun stop _ => costBind (b := 0) (ih r) (fun _ _ => Nat.le_refl _))
          omega
        refine key _ ?_
        split
        · have h1 := unescape1_cost (ε := ε) I s
          have h2 : 1 ≤ (T.unescape1 I s : Timed ε _).cost := by
            cases s <;> simp only [T.unescape1, tick] <;> omega
          exact ⟨_, unescape1_val I s, h1, by omega⟩
        · split
          · exact ⟨_, rfl, by simp [Timed.ok]⟩
          · split <;> exact ⟨_, rfl, by simp [Timed.ok]⟩

theorem unescape_cost {ε : Type} (I : Unescape U) (s : List Char) :
    (T.unescape I s : Timed ε _).cost ≤ 3 * s.length + 1 := unescapeLoop_cost I _ _ s

theorem checkRawLoop_cost {ε : Type} (raw : Char → UnitRes U) (len : Nat) (s : List Char) :
    (T.checkRawLoop raw len s : Timed ε _).cost ≤ 2 * s.length + 1 := by
  induction s with
  | nil => simp [T.checkRawLoop, tick, Timed.ok]
  | cons c s ih =>
    simp only [T.checkRawLoop]
    refine Nat.le_trans (costTick (a := 2 * s.length + 2) ?_) (by simp only [List.length_cons]; omega)
    refine Nat.le_trans (costBind (a := 0) (b := 2 * s.length + 2) (Nat.le_refl _) fun a _ => ?_) (by omega)
    refine Nat.le_trans (costBind (a := 0) (b := 2 * s.length + 2) (Nat.le_refl _) fun st _ => ?_) (by omega)
    refine Nat.le_trans (costBind (a := 1) (b := 2 * s.length + 1) (Nat.le_refl _) fun a _ => ?_) (by omega)
    exact costBind (b := 0) ih (fun _ _ => Nat.le_refl _)

theorem checkSingle_cost {ε : Type} (I : Unescape U) (s : List Char) :
    (T.checkSingle I s : Timed ε _).cost ≤ s.length + 2 := by
  refine costBind (a := s.length + 1) (b := 1) (unescapeSingle_cost I s) ?_
  rintro ⟨_ | _, r⟩ -
  · exact costBind (a := 1) (b := 0) (Nat.le_refl _) (fun _ _ => Nat.le_refl _)
  · simp [Timed.ok]

end

theorem checkForErrors_cost {ε : Type} (s : List Char) (m : Mode) :
    (T.checkForErrors s m : Timed ε _).cost ≤ 3 * s.length + 2 := by
  cases m with
  | char => exact Nat.le_trans (checkSingle_cost _ s) (by omega)
  | byte => exact Nat.le_trans (checkSingle_cost _ s) (by omega)
  | str | byteStr | cStr => exact Nat.le_trans (costBind (b := 0) (unescape_cost _ s) (fun _ _ => Nat.le_refl _)) (by omega)
  | rawStr | rawByteStr | rawCStr =>
    exact Nat.le_trans (costBind (b := 0) (checkRawLoop_cost _ _ s) (fun _ _ => Nat.le_refl _)) (by omega)

theorem takeWhile_length {α : Type} (p : α → Bool) (s : List α) : (s.takeWhile p).length ≤ s.length := by
  have := congrArg List.length (List.takeWhile_append_dropWhile (p := p) (l := s))
  rw [List.length_append] at this
  omega

/-- The steps of `get_raw`, and those to copy what it returns. -/
theorem getRaw_cost {ε : Type} (s : List Char) : (T.getRaw s : Timed ε _).cost ≤ 2 * strLen s + 8 := by
  have h1 := takeWhile_length (· == '#') s
  have h2 := takeWhile_length (· == '#') s.reverse
  rw [List.length_reverse] at h2
  have h3 := length_le_strLen s
  simp only [T.getRaw]
  refine Nat.le_trans (costTick (a := 2 * strLen s + 7) ?_) (by omega)
  refine Nat.le_trans (costBind (a := strLen s + 1) (b := strLen s + 6) ?_ fun p _ => ?_) (by omega)
  · simp only [tick]; omega
  · split
    · refine Nat.le_trans (costBind (a := 1) (b := strLen s + 5) (Nat.le_refl _) fun t _ => ?_) (by omega)
      split
      · refine Nat.le_trans (costTick (a := 4) ?_) (by omega)
        split
        · refine Nat.le_trans (costBind (a := 1) (b := 3) (Nat.le_refl _) fun n _ => ?_) (by omega)
          refine Nat.le_trans (costBind (a := 1) (b := 2) (Nat.le_refl _) fun u _ => ?_) (by omega)
          split
          · refine Nat.le_trans (costBind (a := 1) (b := 1) (Nat.le_refl _) fun n _ => ?_) (by omega)
            exact costBind (a := 1) (b := 0) (Nat.le_refl _) fun _ _ => Nat.le_refl _
          · simp [Timed.ok]
        · simp [Timed.ok]
      · simp [Timed.ok]
    · simp [Timed.ok]

theorem sliceFrom_le {ε : Type} {s t : List Char} {n : Nat} (h : (sliceFrom s n : Res ε _) = .ok t) :
    strLen t ≤ strLen s := by
  unfold sliceFrom at h
  split at h
  · rename_i a b hs
    cases h
    rw [(splitAtByte_some hs).1, strLen_append]
    omega
  · cases h

theorem slice_le {ε : Type} {s t : List Char} {a b : Nat} (h : (slice s a b : Res ε _) = .ok t) :
    strLen t ≤ strLen s := by
  unfold slice at h
  split at h
  · cases h
  · split at h
    · rename_i pre _ u v _ hs
      cases h
      have h1 : strLen (u.take pre.length ++ u.drop pre.length) = strLen u := by rw [List.take_append_drop]
      rw [strLen_append] at h1
      rw [(splitAtByte_some hs).1, strLen_append]
      omega
    · cases h

theorem getRaw_le {ε : Type} {s v : List Char} (h : (PM2.getRaw s : Res ε _) = .ok (some v)) : strLen v ≤ strLen s := by
  rcases getRaw_spec (ε := ε) s with ⟨n, w, hs, h'⟩ | ⟨_, h'⟩
  · rw [h] at h'
    cases h'
    rw [hs]
    simp only [strLen_append, strLen_cons]
    omega
  · rw [h] at h'
    cases h'

theorem valueOf_cost {U V : Type} (I : Unescape U) (pre rawPre : List Char) (cooked : List U → V) (raw : List Char → V)
    (s : List Char) : (T.valueOf I pre rawPre cooked raw s).cost ≤ 4 * strLen s + 12 := by
  simp only [T.valueOf]
  refine Nat.le_trans (costTick (a := 3 * strLen s + 10) ?_) (by omega)
  refine Nat.le_trans (costBind (a := 1) (b := 3 * strLen s + 9) ?_ fun b _ => ?_) (by omega)
  · split
    · exact costBind (a := 1) (b := 0) (Nat.le_refl _) fun _ _ => Nat.le_refl _
    · simp [Timed.ok]
  · split
    · refine Nat.le_trans (costBind (a := 1) (b := 3 * strLen s + 2) (Nat.le_refl _) fun hi _ => ?_) (by omega)
      refine Nat.le_trans (costBind (a := 1) (b := 3 * strLen s + 1) (Nat.le_refl _) fun q hq => ?_) (by omega)
      have h1 := slice_le hq
      have h2 := length_le_strLen q
      have h3 := unescape_cost (ε := ConversionError) I q
      refine Nat.le_trans (costBind (a := 3 * strLen s + 1) (b := 0) (by omega) fun cs _ => ?_) (by omega)
      split <;> simp [Timed.ok, Timed.err]
    · split
      · refine Nat.le_trans (costBind (a := 1) (b := 3 * strLen s + 8) (Nat.le_refl _) fun t ht => ?_) (by omega)
        have h1 := sliceFrom_le ht
        have h2 := getRaw_cost (ε := ConversionError) t
        refine Nat.le_trans (costBind (a := 2 * strLen s + 8) (b := strLen s) (by omega) fun o ho => ?_) (by omega)
        cases o with
        | none => simp [Timed.err]
        | some r =>
          rw [getRaw_val] at ho
          have h3 := getRaw_le ho
          simp only [tick, Timed.ok]
          omega
      · simp [Timed.err]

end PM2.T
