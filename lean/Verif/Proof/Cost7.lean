import Verif.Proof.Cost6
import Verif.Proof.Size
/-! # Bounds on the number of steps of the lexer: documentation comments, and the loop -/

set_option linter.unusedSectionVars false

namespace PM2.T
open Timed (tick step)
variable {ο : Type} [Pos ο] [PosTotal ο] [UnicodeTables] [LawfulUnicode]

/-! ### The text of a comment is not longer than the comment -/

theorem takeUntilLoop_text {ε : Type} {input : Cursor ο} {chars : List Char} {i : Nat}
    {r : Cursor ο × List Char} (hr : (PM2.takeUntilLoop input chars i : Res ε _) = .ok r) :
    strLen r.2 + strLen r.1.rest ≤ strLen input.rest := by
  induction chars generalizing i with
  | nil =>
    unfold PM2.takeUntilLoop at hr
    obtain ⟨c, hc, h2⟩ := bindOk hr
    cases h2
    have := (advance_len hc).2
    simp only []
    omega
  | cons ch chars ih =>
    unfold PM2.takeUntilLoop at hr
    split at hr
    · obtain ⟨c, hc, h2⟩ := bindOk hr
      obtain ⟨t, ht, h3⟩ := bindOk h2
      cases h3
      have := (advance_len hc).2
      obtain ⟨q, -, hq⟩ := sliceTo_ok ht
      simp only []
      omega
    · split at hr
      · obtain ⟨t, ht, h2⟩ := bindOk hr
        split at h2
        · obtain ⟨c, hc, h3⟩ := bindOk h2
          obtain ⟨t, ht, h4⟩ := bindOk h3
          cases h4
          have := (advance_len hc).2
          obtain ⟨q, -, hq⟩ := sliceTo_ok ht
          simp only []
          omega
        · exact ih h2
      · exact ih hr

theorem blockCommentLoop_text {input : Cursor ο} {bs : List UInt8} {i d : Nat} {r : Cursor ο × List Char}
    (hr : PM2.blockCommentLoop input bs i d = .ok r) : strLen r.2 + strLen r.1.rest ≤ strLen input.rest := by
  fun_induction PM2.blockCommentLoop input bs i d with
  | case1 _ _ _ _ _ _ ih => exact ih hr
  | case2 => simp at hr
  | case3 =>
    obtain ⟨c, hc, h2⟩ := bindOk hr
    obtain ⟨t, ht, h3⟩ := bindOk h2
    cases h3
    have := (advance_len hc).2
    obtain ⟨q, -, hq⟩ := sliceTo_ok ht
    simp only []
    omega
  | case4 _ _ _ _ _ _ _ _ _ ih => exact ih hr
  | case5 _ _ _ _ _ _ _ ih => exact ih hr
  | case6 => simp at hr

theorem blockComment_text {input : Cursor ο} {r : Cursor ο × List Char} (hr : PM2.blockComment input = .ok r) :
    strLen r.2 + strLen r.1.rest ≤ strLen input.rest := by
  unfold PM2.blockComment at hr
  split at hr
  · simp at hr
  · exact blockCommentLoop_text hr

theorem strLen_drop (n : Nat) (s : List Char) : strLen (s.drop n) ≤ strLen s := by
  have := List.take_append_drop n s
  have h : strLen (s.take n ++ s.drop n) = strLen s := by rw [this]
  rw [strLen_append] at h
  omega

theorem slice_len {ε : Type} {s t : List Char} {a b : Nat} (h : (slice s a b : Res ε _) = .ok t) : strLen t ≤ strLen s := by
  unfold slice at h
  split at h
  · cases h
  · split at h
    · rename_i h1 h2
      cases h
      obtain ⟨h3, -⟩ := splitAtByte_some h2
      refine Nat.le_trans (strLen_drop _ _) ?_
      rw [h3, strLen_append]
      omega
    · cases h

theorem docCommentContents_fits (c : Cursor ο) :
    Fits 4 c.rest (4 * strLen c.rest + 10) (·.1.rest) (T.docCommentContents c) := by
  have hadv : Fits 4 c.rest (4 * strLen c.rest + 4) (·.rest) (T.advance c 3 : TRes _) := by
    have hc := advance_cost (ε := Unit) c 3
    refine ⟨by omega, fun c' hc' => ?_⟩
    have := advance_len (by simpa using hc')
    refine ⟨this.1, ?_⟩
    have := this.2
    simp only []
    omega
  refine Fits.tick' (M := 4 * strLen c.rest + 9) ?_ (by omega)
  refine Fits.ite (fun _ => ?_) fun _ => Fits.ite (fun _ => ?_) fun _ => Fits.ite (fun _ => ?_) fun _ =>
    Fits.ite (fun _ => ?_) fun _ => Fits.err
  · refine Fits.bind' (b := 4) hadv (fun c1 _ _ => ?_) (by omega)
    refine Fits.bind' (b := 0) (takeUntil_fits c1) (fun v _ _ => ?_) (by omega)
    exact Fits.ok (List.suffix_refl _) (by simp only []; omega)
  · refine Fits.bind' (b := 1) (blockComment_fits c) (fun v _ _ => ?_) (by omega)
    refine Fits.bindStep' (M := 4 * strLen v.1.rest) (fun t _ => ?_) (by omega)
    exact Fits.ok (List.suffix_refl _) (by simp only []; omega)
  · refine Fits.bind' (b := 4) hadv (fun c1 _ _ => ?_) (by omega)
    refine Fits.ite (fun _ => Fits.err) fun _ => ?_
    refine Fits.bind' (b := 0) (takeUntil_fits c1) (fun v _ _ => ?_) (by omega)
    exact Fits.ok (List.suffix_refl _) (by simp only []; omega)
  · refine Fits.bindStep' (M := 4 * strLen c.rest + 6) (fun t _ => ?_) (by omega)
    refine Fits.ite (fun _ => Fits.err) fun _ => ?_
    refine Fits.bind' (b := 1) (blockComment_fits c) (fun v _ _ => ?_) (by omega)
    refine Fits.bindStep' (M := 4 * strLen v.1.rest) (fun t _ => ?_) (by omega)
    exact Fits.ok (List.suffix_refl _) (by simp only []; omega)

theorem docCommentContents_text {c : Cursor ο} {v : Cursor ο × List Char × Bool}
    (h : PM2.docCommentContents c = .ok v) : strLen v.2.1 + strLen v.1.rest ≤ strLen c.rest := by
  have hbl : ∀ {b : Bool} {s : Cursor ο × List Char}, PM2.blockComment c = .ok s →
      ((if strLen s.2 < 2 then .panic else slice s.2 3 (strLen s.2 - 2) : PRes _) >>= fun t => .ok (s.1, t, b)) = .ok v →
      strLen v.2.1 + strLen v.1.rest ≤ strLen c.rest := by
    intro b s h1 h2
    have h3 := blockComment_text h1
    obtain ⟨t, h4, h5⟩ := bindOk h2
    cases h5
    split at h4
    · cases h4
    · have := slice_len h4
      simp only []
      omega
  unfold PM2.docCommentContents at h
  split at h
  · obtain ⟨c1, h1, h⟩ := bindOk h
    obtain ⟨⟨r, s⟩, h2, h⟩ := bindOk h
    cases h
    have := takeUntilLoop_text h2
    have := (advance_len h1).2
    simp only [] at *
    omega
  · split at h
    · obtain ⟨s, h1, h⟩ := bindOk h
      exact hbl h1 h
    · split at h
      · obtain ⟨c1, h1, h⟩ := bindOk h
        split at h
        · cases h
        · obtain ⟨⟨r, s⟩, h2, h⟩ := bindOk h
          cases h
          have := takeUntilLoop_text h2
          have := (advance_len h1).2
          simp only [] at *
          omega
      · split at h
        · obtain ⟨t, h1, h⟩ := bindOk h
          split at h
          · cases h
          · obtain ⟨s, h1, h⟩ := bindOk h
            exact hbl h1 h
        · cases h

theorem scanBareCr_cost (fuel : Nat) (s : List Char) : (T.scanBareCr fuel s).cost ≤ 2 * strLen s + 2 := by
  induction fuel generalizing s with
  | zero => simp [T.scanBareCr, Timed.diverge]
  | succ fuel ih =>
    unfold T.scanBareCr
    have hl := length_le_strLen s
    cases hf : strFind s '\r' with
    | none =>
      simp only [tick, Timed.ok]
      omega
    | some cr =>
      obtain ⟨t, r, h1, h2, -⟩ := strFind_some hf
      have hs : strLen s = cr + 1 + strLen r := by
        rw [h1, h2, strLen_append, strLen_cons]
        have : '\r'.utf8Size = 1 := rfl
        omega
      simp only []
      refine Nat.le_trans (tick_cost (tick_cost (bind_cost (a := 1) (b := 2 * strLen r + 2) (by simp [step]) fun rest hr => ?_))) (by omega)
      obtain ⟨p, h3, h4⟩ := sliceFrom_ok (by simpa using hr)
      have : strLen s = strLen p + strLen rest := by rw [h3, strLen_append]
      split
      · simp [Timed.err]
      · exact Nat.le_trans (ih rest) (by omega)

theorem escapeUnicode_length (c : Char) : (escapeUnicode c).length ≤ 10 := by
  unfold escapeUnicode
  simp only [List.length_append, List.length_cons, List.length_nil]
  refine Nat.le_trans (Nat.add_le_add_right (Nat.add_le_add_left (stripZeros_length _) _) _) ?_
  simp

theorem escapeDebug_length (c : Char) : (escapeDebug c).length ≤ 10 := by
  unfold escapeDebug
  have := escapeUnicode_length c
  repeat' split
  all_goals first | exact this | simp

theorem escapeUtf8_length (s : List Char) : (escapeUtf8 s).length ≤ 10 * s.length := by
  induction s with
  | nil => simp [escapeUtf8]
  | cons c s ih =>
    have h1 := escapeDebug_length c
    unfold escapeUtf8
    rw [List.length_append, List.length_cons]
    refine Nat.le_trans (Nat.add_le_add (b := 10) ?_ ih) (by omega)
    clear ih
    repeat' split
    all_goals first | exact h1 | simp

theorem litString_length (s : List Char) : (litString s).length ≤ 10 * strLen s + 2 := by
  have h1 := escapeUtf8_length s
  have h2 := length_le_strLen s
  simp only [litString, List.length_cons, List.length_append, List.length_nil]
  omega

theorem docComment_fits (c : Cursor ο) : Fits 16 c.rest (16 * strLen c.rest + 20) (·.1.rest) (T.docComment c) := by
  have hfit := docCommentContents_fits c
  refine Fits.tick' (M := 16 * strLen c.rest + 19) ?_ (by omega)
  refine Fits.bindAny (by have := hfit.1; omega) fun v hv => ?_
  obtain ⟨h1, h2⟩ := hfit.2 v hv
  have h3 := docCommentContents_text (by simpa using hv)
  have h4 := scanBareCr_cost (v.2.1.length + 1) v.2.1
  have h5 := litString_length v.2.1
  obtain ⟨r, comment, inner⟩ := v
  simp only [] at h1 h2 h3 h4 h5
  refine ⟨16 * strLen r.rest + (10 * strLen comment + 2) + 1 + 2 + 1 + (2 * strLen comment + 2), ?_, by omega⟩
  refine Fits.bindCost (M := 16 * strLen r.rest + (10 * strLen comment + 2) + 1 + 2 + 1) h4 fun _ _ => ?_
  refine Fits.bindStep (M := 16 * strLen r.rest + (10 * strLen comment + 2) + 1 + 2) fun pound _ => ?_
  refine Fits.bindCost (M := 16 * strLen r.rest + (10 * strLen comment + 2) + 1) (n := 2) ?_ fun _ _ => ?_
  · split
    · exact bind_cost (a := 1) (b := 1) (by simp [step]) fun _ _ => by simp [Timed.ok]
    · simp [Timed.ok]
  refine Fits.bindStep (M := 16 * strLen r.rest + (10 * strLen comment + 2)) fun equal _ => ?_
  refine Fits.tick' (M := 16 * strLen r.rest) ?_ (by omega)
  exact Fits.ok h1 (by simp only []; omega)

theorem docComment_const {c : Cursor ο} (h1 : ¬ ['/', '/'] <+: c.rest) (h2 : ¬ ['/', '*'] <+: c.rest) :
    (T.docComment c).cost ≤ 2 ∧ ∀ v, (T.docComment c).val ≠ .ok v := by
  have hc : T.docCommentContents c = ⟨.err (), 1⟩ := by
    unfold T.docCommentContents
    rw [startsWith_false.mpr (not_longer h1 (by decide)), startsWith_false.mpr (not_longer h2 (by decide)),
      startsWith_false.mpr (not_longer h1 (by decide)), startsWith_false.mpr (not_longer h2 (by decide))]
    rfl
  exact tickErr (x := T.docCommentContents c) (n := 1) (by rw [hc]) (by rw [hc]; exact Nat.le_refl _)

theorem docComment_unterminated {c : Cursor ο} (h : ['/', '*'] <+: c.rest) {e : Unit} (he : PM2.blockComment c = .err e)
    (v : Cursor ο × List TokenTree) : (T.docComment c).val ≠ .ok v := by
  intro hv
  simp only [docComment_val] at hv
  unfold PM2.docComment at hv
  obtain ⟨a, ha, -⟩ := bindOk hv
  obtain ⟨t, ht⟩ := h
  have hn : ∀ x, ¬ ['/', '/', x] <+: c.rest := by
    rintro x ⟨y, hy⟩
    rw [← ht] at hy
    cases hy
  unfold PM2.docCommentContents at ha
  rw [startsWith_false.mpr (hn _), startsWith_false.mpr (hn _), he] at ha
  simp only [Bool.false_eq_true, if_false] at ha
  split at ha
  · cases ha
  · split at ha
    · obtain ⟨t, -, ha⟩ := bindOk ha
      split at ha
      · cases ha
      · cases ha
    · cases ha

/-- A step that goes on pays with what it consumes; and every step is paid by what is left. -/
theorem lexStep_am (st : LState ο) : (T.lexStep st).cost ≤ 68 * strLen st.input.rest + 127 ∧
    ∀ st', (T.lexStep st).val = .ok (.inl st') → (T.lexStep st).cost + 10 * Ph st.input.rest + 40 * strLen st'.input.rest ≤
      40 * strLen st.input.rest + 10 * Ph st'.input.rest + 104 ∧ strLen st'.input.rest ≤ strLen st.input.rest := by
  have hws := skipWhitespace_fits (ε := Span) st.input
  have hadv : ∀ {β : Type} (c : Cursor ο) (f : Cursor ο → Timed Span β), (∀ c1, (f c1).cost = 0) →
      ((T.advance c 1 : Timed Span _) >>= f).cost ≤ 2 := fun c f hf =>
    bind_cost (a := 2) (b := 0) (advance_cost c 1) fun v _ => by rw [hf]; omega
  constructor
  · unfold T.lexStep
    refine Nat.le_trans (tick_cost (bind_cost (b := 16 * strLen st.input.rest + 20 + (40 * strLen st.input.rest + 100)) hws.1 fun c hc => ?_)) (by omega)
    have hlen := strLen_suffix (hws.2 c hc).1
    have hdoc := (docComment_fits c).1
    have hleaf := (leafToken_am c).1
    refine ifOk_cost (by omega) (fun _ _ => by simp [Timed.ok]) ?_
    simp only []
    split
    · split <;> simp [Timed.ok, Timed.err]
    · split
      · exact Nat.le_trans (hadv _ _ fun _ => rfl) (by omega)
      · split
        · split
          · simp [Timed.err]
          · split
            · simp [Timed.err]
            · exact Nat.le_trans (hadv _ _ fun _ => rfl) (by omega)
        · exact ifOk_cost (a := 40 * strLen st.input.rest + 100) (n := 0) (by omega) (fun _ _ => by simp [Timed.ok]) (by simp [Timed.err])
  · intro st' hst
    unfold T.lexStep at hst ⊢
    simp only [Timed.val_tick] at hst
    have hcost : ∀ (c : Cursor ο) (f : Cursor ο → Timed Span (LState ο ⊕ List TokenTree)), (T.skipWhitespace st.input : Timed Span _).val = .ok c →
        (tick 1 ((T.skipWhitespace st.input : Timed Span _) >>= f)).cost = 1 + ((T.skipWhitespace st.input : Timed Span _).cost + (f c).cost) ∧
        ((T.skipWhitespace st.input : Timed Span _) >>= f).val = (f c).val := by
      intro c f h
      show (tick 1 (Timed.bind _ _)).cost = _ ∧ (Timed.bind _ _).val = _
      unfold Timed.bind
      rw [h]
      exact ⟨rfl, rfl⟩
    have hex : ∃ c, (T.skipWhitespace st.input : Timed Span _).val = .ok c := by
      simp only [Timed.val_bind] at hst
      obtain ⟨c, hc, -⟩ := bindOk hst
      exact ⟨c, hc⟩
    obtain ⟨c, hc⟩ := hex
    rw [(hcost c _ hc).1]
    rw [(hcost c _ hc).2] at hst
    obtain ⟨hsuf, hpay⟩ := hws.2 c hc
    have hlen := strLen_suffix hsuf
    have hphs := Ph_suffix hsuf
    rcases ifOk_ok hst with ⟨v, hv, hk, hcc⟩ | ⟨e, hv, hk, hcc⟩
    · rcases hpay with hpay | ⟨hu, e, he⟩
      · simp only [Timed.val_ok, Res.ok.injEq, Sum.inl.injEq] at hk
        subst hk
        obtain ⟨h1, h2⟩ := (docComment_fits c).2 v hv
        have h3 := strLen_suffix h1
        have h4 := Ph_suffix h1
        rw [hcc]
        simp only [Timed.ok] at h2 h3 h4 ⊢
        omega
      · exact absurd hv (docComment_unterminated (startsWith_iff.mp hu) he v)
    · rw [hcc]
      clear hst hcc hcost
      by_cases hcm : ['/', '/'] <+: c.rest ∨ ['/', '*'] <+: c.rest
      · exfalso
        have hs : ∃ t, c.rest = '/' :: t := by
          rcases hcm with ⟨t, h⟩ | ⟨t, h⟩
          · exact ⟨_, h.symm⟩
          · exact ⟨_, h.symm⟩
        obtain ⟨t, hs⟩ := hs
        have hb : ∃ l, bytesOf c.rest = B '/' :: l := by
          obtain ⟨b, l, e, -, -, -, hasc, -⟩ := bytes_cons '/' t
          rw [hs, e, (hasc (by decide)).2]
          exact ⟨_, rfl⟩
        obtain ⟨l, hb⟩ := hb
        have ho : openDelimiter c (B '/') = none := by
          unfold openDelimiter
          simp [show (B '/' ≠ B '(') from by decide, show (B '/' ≠ B '[') from by decide, show (B '/' ≠ B '{') from by decide]
        have hcl : closeDelimiter (B '/') = none := by decide
        simp only [hb, ho, hcl] at hk
        rcases ifOk_ok hk with ⟨v, hv, hk, hcc⟩ | ⟨e, hv, hk, hcc⟩
        · exact leafToken_comment hcm hv
        · cases hk
      · rw [not_or] at hcm
        have hdoc := (docComment_const hcm.1 hcm.2).1
        have hpay : (T.skipWhitespace st.input : Timed Span _).cost + 12 * strLen c.rest ≤ 12 * strLen st.input.rest + 1 := by
          rcases hpay with h | ⟨h, -⟩
          · exact h
          · exact absurd (startsWith_iff.mp h) hcm.2
        have hone : ∀ (f : Cursor ο → Timed Span (LState ο ⊕ List TokenTree)), (∀ c1, (f c1).cost = 0) →
            (∀ c1, (f c1).val = .ok (.inl st') → st'.input = c1) → ((T.advance c 1 : Timed Span _) >>= f).val = .ok (.inl st') →
            1 + ((T.skipWhitespace st.input : Timed Span _).cost + ((T.docComment c).cost + ((T.advance c 1 : Timed Span _) >>= f).cost)) + 10 * Ph st.input.rest + 40 * strLen st'.input.rest ≤
              40 * strLen st.input.rest + 10 * Ph st'.input.rest + 104 ∧ strLen st'.input.rest ≤ strLen st.input.rest := by
          intro f h1 h2 h3
          have h4 := hadv c f h1
          simp only [Timed.val_bind] at h3
          obtain ⟨c1, h5, h6⟩ := bindOk h3
          obtain ⟨h7, h8⟩ := advance_len (by simpa using h5)
          have h9 := Ph_suffix h7
          rw [h2 c1 h6]
          omega
        split at hk
        · split at hk <;> cases hk
        · rename_i first tl hfirst
          split at hk
          · rename_i d ho
            refine hone _ (fun _ => rfl) (fun c1 h => ?_) hk
            simp only [Timed.val_ok, Res.ok.injEq, Sum.inl.injEq] at h
            rw [← h]
          · rename_i ho
            split at hk
            · rename_i d hcl
              split at hk
              · cases hk
              · rename_i f stack hstack
                split at hk
                · cases hk
                · rename_i hd
                  rw [if_neg hd]
                  refine hone _ (fun _ => rfl) (fun c1 h => ?_) hk
                  simp only [Timed.val_ok, Res.ok.injEq, Sum.inl.injEq] at h
                  rw [← h]
            · rcases ifOk_ok hk with ⟨v, hv, hk, hcc⟩ | ⟨e, hv, hk, hcc⟩
              · rw [hcc]
                simp only [Timed.val_ok, Res.ok.injEq, Sum.inl.injEq] at hk
                subst hk
                obtain ⟨h1, h2⟩ := (leafToken_am c).2 v hv
                have h3 := strLen_suffix h1
                have h4 := Ph_suffix h1
                simp only [Timed.ok] at h2 h3 h4 ⊢
                omega
              · cases hk

theorem lexLoop_cost (fuel : Nat) (st : LState ο) :
    (T.lexLoop fuel st).cost + 10 * Ph st.input.rest ≤ 88 * strLen st.input.rest + 127 * fuel := by
  have hph : ∀ s, Ph s ≤ 2 * strLen s := fun s => by
    have := Ph_suffix (List.nil_suffix (l := s))
    simpa [Ph] using this
  induction fuel generalizing st with
  | zero =>
    have := hph st.input.rest
    simp only [T.lexLoop, Timed.diverge]
    omega
  | succ fuel ih =>
    have h1 := hph st.input.rest
    obtain ⟨h2, h3⟩ := lexStep_am st
    unfold T.lexLoop
    show (Timed.bind _ _).cost + _ ≤ _
    unfold Timed.bind
    split
    · rename_i v hv
      cases v with
      | inl st' =>
        obtain ⟨h4, h5⟩ := h3 st' hv
        have h6 := ih st'
        simp only []
        omega
      | inr ts =>
        simp only [Timed.ok]
        omega
    all_goals (simp only []; omega)

/-- The number of steps of parsing a text. -/
theorem fromStrAt_cost (src : List Char) (off : ο) : (T.fromStrAt src off).cost ≤ 215 * strLen src + 132 := by
  unfold T.fromStrAt
  refine Nat.le_trans (tick_cost (bind_cost (a := 4) (b := 215 * strLen src + 127) ?_ fun c hc => ?_)) (by omega)
  · split
    · exact advance_cost _ 3
    · simp [Timed.ok]
  · have hlen : strLen c.rest ≤ strLen src := by
      split at hc
      · exact strLen_suffix (advance_len (by simpa using hc)).1
      · cases hc; exact Nat.le_refl _
    unfold T.tokenStream
    have h1 := lexLoop_cost (c.rest.length + 1) (⟨c, [], []⟩ : LState ο)
    have h2 := length_le_strLen c.rest
    simp only [] at h1
    omega

theorem literalFromStrAt_cost (src : List Char) (off : ο) : (T.literalFromStrAt src off).cost ≤ 32 * strLen src + 67 := by
  unfold T.literalFromStrAt
  have hgo : ∀ c : Cursor ο, strLen c.rest ≤ strLen src → ((T.literal c).ifOk
      (fun (rest, repr) =>
        if rest.rest.isEmpty then
          tick repr.length <| .ok ((if startsWithChar src '-' then '-' :: repr else repr), Pos.span off rest.off)
        else .err Span.callSite)
      (fun _ => .err Span.callSite) : Timed Span (List Char × Span)).cost ≤ 32 * strLen src + 64 := by
    intro c hc
    refine Nat.le_trans (ifOk_cost (literal_am c).1 (n := strLen src) (fun v hv => ?_) (by simp [Timed.err])) (by omega)
    simp only []
    split
    · have hr : v.2.length ≤ strLen c.rest := by
        simp only [T.literal, Timed.val_tick, Timed.val_bind] at hv
        obtain ⟨r, -, hv⟩ := bindOk hv
        obtain ⟨t, ht, hv⟩ := bindOk hv
        cases hv
        obtain ⟨q, h1, h2⟩ := sliceTo_ok (by simpa using ht)
        rw [h1, strLen_append]
        have := length_le_strLen t
        simp only []
        omega
      simp only [tick, Timed.ok]
      omega
    · simp [Timed.err]
  simp only []
  by_cases hn : startsWithChar src '-' = true
  · simp only [hn, if_true] at hgo ⊢
    refine Nat.le_trans (tick_cost (bind_cost (a := 2) (b := 32 * strLen src + 64) (advance_cost _ 1) fun c hc => ?_)) (by omega)
    have hlen := strLen_suffix (advance_len (by simpa using hc)).1
    split
    · split
      · exact hgo c hlen
      · simp [Timed.err]
    · simp [Timed.err]
  · rw [Bool.not_eq_true] at hn
    simp only [hn, Bool.false_eq_true, if_false] at hgo ⊢
    exact Nat.le_trans (tick_cost (hgo ⟨src, off⟩ (Nat.le_refl _))) (by omega)

end PM2.T
