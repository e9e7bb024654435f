import Verif.Proof.Cost5
import Verif.Proof.Layout
/-! # Bounds on the number of steps of the parts of the lexer: one leaf -/

set_option linter.unusedSectionVars false

namespace PM2.T
open Timed (tick step)
variable {ο : Type} [Pos ο] [PosTotal ο] [UnicodeTables] [LawfulUnicode]

theorem noLit_head {s : List Char} {ch : Char} {t : List Char} (hs : s = ch :: t)
    (h : ch ≠ '"' ∧ ch ≠ 'r' ∧ ch ≠ 'b' ∧ ch ≠ 'c' ∧ ch ≠ '\'' ∧ isDecDigit ch = false) : NoLit s := by
  have h0 : s.head? = some ch := by rw [hs]; rfl
  obtain ⟨h1, h2, h3, h4, h5, h6⟩ := h
  refine ⟨fun h' => ?_, fun h' => ?_, fun h' => ?_, fun h' => ?_, fun h' => ?_, fun h' => ?_⟩
  · rcases stS_head h' with h' | h' <;> rw [h0] at h' <;> cases h' <;> contradiction
  · have := (stB_head h').1; rw [h0] at this; cases this; contradiction
  · have := stC_head h'; rw [h0] at this; cases this; contradiction
  · have := (stY_head h').1; rw [h0] at this; cases this; contradiction
  · have := stQ_head h'; rw [h0] at this; cases this; contradiction
  · obtain ⟨d, hd, hdd⟩ := stD_head h'; rw [h0] at hd; cases hd; rw [h6] at hdd; cases hdd

theorem noLit_punct {s : List Char} {ch : Char} {t : List Char} (hs : s = ch :: t) (h : ch ∈ recognizedPunct)
    (hq : ch ≠ '\'') : NoLit s := by
  refine noLit_head hs ?_
  have : ∀ c ∈ recognizedPunct, c ≠ '\'' → c ≠ '"' ∧ c ≠ 'r' ∧ c ≠ 'b' ∧ c ≠ 'c' ∧ c ≠ '\'' ∧ isDecDigit c = false := by decide
  exact this ch h hq

theorem noLit_ident {c : Cursor ο} {v : Cursor ο × TokenTree} (h : (T.ident c).val = .ok v) :
    NoLit c.rest ∧ ∃ ch t, c.rest = ch :: t ∧ isIdentStart ch = true := by
  simp only [ident_val] at h
  unfold PM2.ident at h
  split at h
  · cases h
  · rename_i hp
    obtain ⟨ch, t, h1, h2⟩ := identAny_ok h
    refine ⟨?_, ch, t, h1, h2⟩
    simp only [identRejectPrefixes, List.any_cons, List.any_nil, Bool.or_false, Bool.or_eq_true, startsWith_iff, not_or] at hp
    obtain ⟨p1, p2, p3, p4, p5, p6, p7, p8, p9, p10⟩ := hp
    have hne : ∀ d : Char, isIdentStart d = false → ∀ x, d :: x ≠ c.rest := by
      intro d hd x hx
      rw [h1] at hx
      cases hx
      rw [hd] at h2
      cases h2
    have hz : ∀ d : Char, d.toNat < 128 → d.isAlpha = false → d ≠ '_' → isIdentStart d = false := by
      intro d h1 h2 h3
      cases hi : isIdentStart d with
      | false => rfl
      | true =>
        rcases (identStart_facts hi).2 h1 with h | h
        · rw [h2] at h; cases h
        · exact absurd h h3
    refine ⟨?_, ?_, ?_, p5, ?_, ?_⟩
    · rintro (⟨x, hx⟩ | h | h | h)
      · exact hne '"' (hz _ (by decide) (by decide) (by decide)) _ hx
      · exact p1 h
      · exact p2 h
      · exact p3 h
    · rintro (h | h | h)
      · exact p4 h
      · exact p6 h
      · exact p7 h
    · rintro (h | h | h)
      · exact p8 h
      · exact p9 h
      · exact p10 h
    · rintro ⟨x, hx⟩
      exact hne '\'' (hz _ (by decide) (by decide) (by decide)) _ hx
    · rintro ⟨d, x, hx, hd⟩
      rw [h1] at hx
      cases hx
      refine absurd ?_ (identStart_not_digit h2)
      simpa [isDecDigit] using hd

theorem literal_no {c : Cursor ο} (h : NoLit c.rest) : (T.literal c).cost ≤ 44 ∧ ∀ v, (T.literal c).val ≠ .ok v := by
  have hc := literalNocapture_no h
  have hn : ∀ v, (T.literalNocapture c).val ≠ .ok v := by
    intro v hv
    obtain ⟨h1, h2, h3, h4, h5, h6⟩ := h
    rcases literalNocapture_some hv with h | h | h | h | h | h | h
    · exact (string_const h1).2 _ h
    · exact (byteString_const h2).2 _ h
    · exact (cString_const h3).2 _ h
    · exact (byte_const h4).2 _ h
    · exact (character_const h5).2 _ h
    · exact (float_const' h6).2 _ h
    · exact (int_const h6).2 _ h
  refine ⟨?_, fun v hv => ?_⟩
  · exact Nat.le_trans (tick_cost (bind_cost (b := 0) hc fun v hv => absurd hv (hn v))) (by omega)
  · simp only [T.literal, Timed.val_tick, Timed.val_bind] at hv
    obtain ⟨a, ha, -⟩ := bindOk hv
    exact hn a ha

theorem literalNocapture_err {c : Cursor ο} (h : (T.literalNocapture c).val = .err ()) :
    ∃ e, (T.character c).val = .err e := by
  have key : ∀ {x y : TRes (Cursor ο)}, (x.ifOk .ok fun _ => y).val = .err () → (∃ e, x.val = .err e) ∧ y.val = .err () := by
    intro x y h
    unfold Timed.ifOk at h
    cases hx : x.val with
    | ok a => simp [hx] at h
    | err e => simp only [hx] at h; exact ⟨⟨e, rfl⟩, h⟩
    | _ => simp [hx] at h
  unfold T.literalNocapture at h
  simp only [Timed.val_tick] at h
  exact (key (key (key (key (key h).2).2).2).2).1

theorem ident_cost (c : Cursor ο) : (T.ident c).cost ≤ 3 * Ph c.rest + 10 := by
  unfold T.ident
  refine tick_cost (a := 3 * Ph c.rest + 9) ?_
  split
  · simp [Timed.err]
  · exact identAny_cost c

theorem leafToken_am (c : Cursor ο) : Am 40 100 c.rest (·.1.rest) (T.leafToken c) := by
  have hlit := literal_am c
  have hpun := punct_cost c
  have hid := ident_fits c
  have hadv := advance_cost (ε := Unit) c (strLen errorRepr)
  have hel : strLen errorRepr = 11 := by decide
  refine ⟨?_, fun a ha => ?_⟩
  · unfold T.leafToken
    refine Nat.le_trans (tick_cost (ifOk_cost hlit.1 (n := (3 * strLen c.rest + 12) + ((3 * strLen c.rest + 9) + 12)) (fun _ _ => by simp [Timed.ok])
      (ifOk_cost hpun (fun _ _ => by simp [Timed.ok]) (ifOk_cost hid.1 (fun _ _ => by simp [Timed.ok]) ?_)))) (by omega)
    split
    · refine Nat.le_trans (bind_cost (b := 0) hadv fun _ _ => by simp [Timed.ok]) (by omega)
    · simp [Timed.err]
  · unfold T.leafToken at ha ⊢
    simp only [Timed.val_tick] at ha
    simp only [Timed.tick]
    rcases ifOk_ok ha with ⟨v, hv, hk, hc⟩ | ⟨e, hv, hk, hc⟩
    · simp only [Timed.val_ok, Res.ok.injEq] at hk
      subst hk
      obtain ⟨h1, h2⟩ := hlit.2 v hv
      refine ⟨h1, ?_⟩
      have h3 := strLen_suffix h1
      rw [hc]
      simp only [Timed.ok] at h2 h3 ⊢
      omega
    · have hle := literal_err hv
      rw [hc]
      clear hc ha
      rcases ifOk_ok hk with ⟨v, hv2, hk2, hc⟩ | ⟨e, hv2, hk2, hc⟩
      · simp only [Timed.val_ok, Res.ok.injEq] at hk2
        subst hk2
        obtain ⟨ch, h1, h2, h3, -, -, h4⟩ := punct_ok hv2
        have hl : (T.literal c).cost ≤ 47 := by
          by_cases hq : ch = '\''
          · subst hq
            obtain ⟨d, t, hd, hds⟩ := h3 rfl
            have h5 := literalNocapture_quote (c := c) ⟨v.1.rest, h1.symm⟩
            obtain ⟨e', he⟩ := literalNocapture_err hle.2
            have h6 := character_err (r := v.1) h1 (fun t ht => by
              rw [hd] at ht
              cases ht
              have := (identStart_facts hds).2 (by decide)
              revert this
              decide) he
            omega
          · have := (literal_no (c := c) (noLit_punct h1 h2 hq)).1
            omega
        have hsz := utf8Size_pos ch
        refine ⟨by rw [h1]; exact List.suffix_cons _ _, ?_⟩
        have hlen : strLen c.rest = ch.utf8Size + strLen v.1.rest := by rw [h1]; simp
        rw [hc]
        simp only [Timed.ok]
        omega
      · rw [hc]
        clear hc hk
        rcases ifOk_ok hk2 with ⟨v, hv3, hk3, hc⟩ | ⟨e, hv3, hk3, hc⟩
        · simp only [Timed.val_ok, Res.ok.injEq] at hk3
          subst hk3
          obtain ⟨hno, ch, t, hs, hst⟩ := noLit_ident hv3
          have h1 := (literal_no hno).1
          have h2 := (punct_const (c := c) fun ch' t' h => by
            rw [hs] at h; cases h; exact identStart_not_punct hst).1
          obtain ⟨h3, h4⟩ := (Fits.am hid).2 v hv3
          refine ⟨h3, ?_⟩
          have h5 := strLen_suffix h3
          rw [hc]
          simp only [Timed.ok] at h4 h5 ⊢
          omega
        · rw [hc]
          clear hc hk2
          split at hk3
          · rename_i hst
            obtain ⟨t, ht⟩ := startsWith_iff.mp hst
            rw [if_pos hst]
            simp only [Timed.val_bind, Timed.val_ok] at hk3
            obtain ⟨c1, h1, h2⟩ := bindOk hk3
            cases h2
            have h3 := (literal_no (c := c) (noLit_head (ch := '(') (by rw [← ht]; rfl) (by decide))).1
            have h4 := (punct_const (c := c) fun ch' t' h => by rw [← ht] at h; cases h; decide).1
            have hn : ¬ isIdentContinue '(' = true := by
              intro hc
              exact absurd ((identContinue_facts hc).2 (by decide)) (by decide)
            have hph : Ph c.rest = 0 := by
              rw [← ht]
              show Ph ('(' :: _) = 0
              rw [Ph_cons, if_neg (by decide), if_neg (by decide)]
              rw [idr_neg hn, idd_neg hn, rn_cons, if_neg (by decide)]
            have h5 := ident_cost c
            have h6 := advance_len (by simpa using h1)
            refine ⟨h6.1, ?_⟩
            have h7 : (T.advance c (strLen errorRepr) >>= fun rest => (.ok (rest, literalNew errorRepr) : TRes (Cursor ο × TokenTree))).cost ≤ 12 :=
              Nat.le_trans (bind_cost (b := 0) hadv fun _ _ => by simp [Timed.ok]) (by omega)
            have h8 := h6.2
            simp only []
            omega
          · cases hk3

theorem leafToken_comment {c : Cursor ο} (h : ['/', '/'] <+: c.rest ∨ ['/', '*'] <+: c.rest) {v : Cursor ο × TokenTree} :
    (T.leafToken c).val ≠ .ok v := by
  have hs : ∃ t, c.rest = '/' :: t := by
    rcases h with ⟨t, h⟩ | ⟨t, h⟩
    · exact ⟨_, h.symm⟩
    · exact ⟨_, h.symm⟩
  obtain ⟨t, hs⟩ := hs
  intro hv
  unfold T.leafToken at hv
  simp only [Timed.val_tick] at hv
  rcases ifOk_ok hv with ⟨v, hv, hk, hc⟩ | ⟨e, hv, hk, hc⟩
  · exact (literal_no (noLit_head hs (by decide))).2 _ hv
  · rcases ifOk_ok hk with ⟨v, hv2, hk2, hc⟩ | ⟨e, hv2, hk2, hc⟩
    · obtain ⟨ch, h1, h2, h3, h4, h5, h6⟩ := punct_ok hv2
      rcases h with h | h
      · exact h4 h
      · exact h5 h
    · rcases ifOk_ok hk2 with ⟨v, hv3, hk3, hc⟩ | ⟨e, hv3, hk3, hc⟩
      · obtain ⟨-, ch, t', h1, h2⟩ := noLit_ident hv3
        rw [hs] at h1
        cases h1
        exact (identStart_leaf h2).2.1 rfl
      · split at hk3
        · rename_i hst
          obtain ⟨t', ht⟩ := startsWith_iff.mp hst
          rw [hs] at ht
          cases ht
        · cases hk3

end PM2.T
