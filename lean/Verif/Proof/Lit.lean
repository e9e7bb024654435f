import Verif.Proof.Tile
import Verif.Proof.History
/-! # Heads of tokens, `Literal::from_str`, and texts that are one token -/

set_option linter.unusedSectionVars false

namespace PM2
open Spec

theorem isWhitespace_nat {c : Char} (h : isWhitespace c = true) :
    (9 ≤ c.toNat ∧ c.toNat ≤ 13) ∨ c.toNat = 32 ∨ c.toNat = 0x85 ∨ c.toNat = 0xA0 ∨
      0x1680 ≤ c.toNat := by
  simp only [isWhitespace, charIsWhitespace, Bool.or_eq_true, Bool.and_eq_true, beq_iff_eq,
    decide_eq_true_eq] at h
  rcases h with (h | rfl) | rfl
  · omega
  · exact .inr (.inr (.inr (.inr (by decide))))
  · exact .inr (.inr (.inr (.inr (by decide))))

theorem isAlpha_nat {c : Char} (h : c.isAlpha = true) :
    (65 ≤ c.toNat ∧ c.toNat ≤ 90) ∨ (97 ≤ c.toNat ∧ c.toNat ≤ 122) := by
  simp only [Char.isAlpha, Char.isUpper, Char.isLower, Bool.or_eq_true, Bool.and_eq_true,
    decide_eq_true_eq, ge_iff_le, UInt32.le_iff_toNat_le] at h
  exact h

theorem isAlphanum_nat {c : Char} (h : c.isAlphanum = true) :
    (65 ≤ c.toNat ∧ c.toNat ≤ 90) ∨ (97 ≤ c.toNat ∧ c.toNat ≤ 122) ∨
      (48 ≤ c.toNat ∧ c.toNat ≤ 57) := by
  simp only [Char.isAlphanum, Bool.or_eq_true, Char.isDigit, Bool.and_eq_true,
    decide_eq_true_eq, ge_iff_le, UInt32.le_iff_toNat_le] at h
  rcases h with h | h
  · have := isAlpha_nat h; omega
  · exact .inr (.inr h)

theorem not_ws_of {c : Char} (h : ¬ ((9 ≤ c.toNat ∧ c.toNat ≤ 13) ∨ c.toNat = 32 ∨
    c.toNat = 0x85 ∨ c.toNat = 0xA0 ∨ 0x1680 ≤ c.toNat)) : isWhitespace c = false := by
  cases hw : isWhitespace c with
  | false => rfl
  | true => exact absurd (isWhitespace_nat hw) h

/-- The sample tables are lawful. -/
theorem sampleTables_lawful : @LawfulUnicode sampleTables := by
  letI := sampleTables
  have halpha : ∀ c : Char, c.isAlpha = true → c.isAlphanum = true := by
    intro c h; simp [Char.isAlphanum, h]
  constructor
  · intro c h
    show (c.isAlpha || _ || _) = _
    have h1 : (decide (0xC0 ≤ c.toNat) && decide (c.toNat ≤ 0xD6)) = false := by simp; omega
    have h2 : (decide (0x3B1 ≤ c.toNat) && decide (c.toNat ≤ 0x3C9)) = false := by simp; omega
    rw [h1, h2]; simp
  · intro c h
    show (c.isAlphanum || c == '_' || c.toNat == 0xB7 || _ || _) = _
    have h0 : (c.toNat == 0xB7) = false := by simp; omega
    have h1 : (decide (0xC0 ≤ c.toNat) && decide (c.toNat ≤ 0xD6)) = false := by simp; omega
    have h2 : (decide (0x3B1 ≤ c.toNat) && decide (c.toNat ≤ 0x3C9)) = false := by simp; omega
    rw [h0, h1, h2]; simp
  · intro c h
    change (c.isAlpha || _ || _) = true at h
    show (c.isAlphanum || c == '_' || c.toNat == 0xB7 || _ || _) = true
    simp only [Bool.or_eq_true] at h ⊢
    rcases h with (h | h) | h
    · exact .inl (.inl (.inl (.inl (halpha c h))))
    · exact .inl (.inr h)
    · exact .inr h
  · intro c h
    change (c.isAlphanum || c == '_' || c.toNat == 0xB7 || _ || _) = true at h
    simp only [Bool.or_eq_true, Bool.and_eq_true, decide_eq_true_eq, beq_iff_eq] at h
    rcases h with (((h | h) | h) | h) | h
    · have := isAlphanum_nat h; exact not_ws_of (by omega)
    · subst h; decide
    · exact not_ws_of (by omega)
    · exact not_ws_of (by omega)
    · exact not_ws_of (by omega)
  · decide

section
variable [UnicodeTables]

/-! ### Heads -/

theorem P.strBody_head {k : P.Kind} {s r : List Char} (h : P.strBody k s = some r) :
    ∃ c u, s = c :: u ∧ (c = '"' ∨ c = 'r' ∨ c = 'b' ∨ c = 'c') := by
  unfold P.strBody at h
  split at h
  · rename_i hp
    obtain ⟨u, rfl⟩ := startsWith_iff.mp hp
    cases k
    · exact ⟨'"', u, rfl, by simp⟩
    · exact ⟨'b', '"' :: u, rfl, by simp⟩
    · exact ⟨'c', '"' :: u, rfl, by simp⟩
  · split at h
    · rename_i hp
      obtain ⟨u, rfl⟩ := startsWith_iff.mp hp
      cases k
      · exact ⟨'r', u, rfl, by simp⟩
      · exact ⟨'b', 'r' :: u, rfl, by simp⟩
      · exact ⟨'c', 'r' :: u, rfl, by simp⟩
    · simp at h

theorem P.digits_head {s r : List Char} (h : P.digits s = some r) :
    ∃ c u, s = c :: u ∧ isDecDigit c = true := by
  unfold P.digits at h
  by_cases h16 : startsWith s ['0', 'x'] = true
  · obtain ⟨u, rfl⟩ := startsWith_iff.mp h16
    exact ⟨'0', _, rfl, by decide⟩
  by_cases h8 : startsWith s ['0', 'o'] = true
  · obtain ⟨u, rfl⟩ := startsWith_iff.mp h8
    exact ⟨'0', _, rfl, by decide⟩
  by_cases h2 : startsWith s ['0', 'b'] = true
  · obtain ⟨u, rfl⟩ := startsWith_iff.mp h2
    exact ⟨'0', _, rfl, by decide⟩
  have hb : P.digitsBase s = (s, 10) := by
    unfold P.digitsBase; rw [if_neg h16, if_neg h8, if_neg h2]
  rw [hb] at h
  cases s with
  | nil => simp [P.digitsLoop] at h
  | cons c u =>
    refine ⟨c, u, rfl, ?_⟩
    cases hc : isDecDigit c with
    | true => rfl
    | false =>
      exfalso
      have hc' : ¬ ('0' ≤ c ∧ c ≤ '9') := by simpa [isDecDigit] using hc
      have : P.digitsLoop 10 (c :: u) true = none ∨
          P.digitsLoop 10 (c :: u) true = some (c :: u, true) := by
        simp only [P.digitsLoop]
        rw [if_neg hc']
        split
        · exact .inr (if_pos (by omega))
        · split
          · exact .inr (if_pos (by omega))
          · split
            · exact .inl rfl
            · exact .inr rfl
      rcases this with h' | h' <;> simp [h'] at h

/-- how a literal starts -/
theorem P.literal_head {s r : List Char} (h : P.literal s = some r) :
    ∃ c u, s = c :: u ∧ (c = '"' ∨ c = 'r' ∨ c = 'b' ∨ c = 'c' ∨ c = '\'' ∨ isDecDigit c = true) := by
  rcases P.literal_cases h with ⟨k, h⟩ | h | h | h | h
  · unfold P.strLit at h
    cases hb : P.strBody k s with
    | none => rw [hb] at h; simp at h
    | some x =>
      obtain ⟨c, u, h1, h2⟩ := P.strBody_head hb
      refine ⟨c, u, h1, ?_⟩
      rcases h2 with h2 | h2 | h2 | h2 <;> simp [h2]
  · unfold P.byteLit P.byteBody at h
    split at h
    · rename_i hp
      obtain ⟨u, rfl⟩ := startsWith_iff.mp hp
      exact ⟨'b', _, rfl, by simp⟩
    · simp at h
  · unfold P.charLit P.charBody at h
    split at h
    · rename_i hp
      obtain ⟨u, rfl⟩ := startsWith_iff.mp hp
      exact ⟨'\'', _, rfl, by simp⟩
    · simp at h
  · unfold P.float P.floatDigits at h
    cases s with
    | nil => simp at h
    | cons c u =>
      simp only at h
      split at h
      · rename_i hc
        exact ⟨c, u, rfl, by simp [hc]⟩
      · simp at h
  · unfold P.int at h
    cases hd : P.digits s with
    | none => rw [hd] at h; simp at h
    | some x =>
      obtain ⟨c, u, h1, h2⟩ := P.digits_head hd
      exact ⟨c, u, h1, by simp [h2]⟩

theorem P.identNotRaw_head {s sym r : List Char} (h : P.identNotRaw s = some (sym, r)) :
    ∃ c u, s = c :: u ∧ isIdentStart c = true ∧ sym = c :: u.takeWhile isIdentContinue ∧
      r = u.dropWhile isIdentContinue := by
  unfold P.identNotRaw at h
  cases s with
  | nil => simp at h
  | cons c u =>
    simp only at h
    split at h
    · rename_i hc
      simp at h
      exact ⟨c, u, rfl, hc, h.1.symm, h.2.symm⟩
    · simp at h

theorem P.identAny_head {s sym r : List Char} {raw : Bool} (h : P.identAny s = some (sym, raw, r)) :
    ∃ c u, s = c :: u ∧ (isIdentStart c = true ∨ c = 'r') := by
  unfold P.identAny at h
  split at h
  · rename_i hp
    obtain ⟨u, rfl⟩ := startsWith_iff.mp hp
    exact ⟨'r', _, rfl, .inr rfl⟩
  · cases hi : P.identNotRaw s with
    | none => rw [hi] at h; simp at h
    | some v =>
      obtain ⟨a, b⟩ := v
      obtain ⟨c, u, h1, h2, -⟩ := P.identNotRaw_head hi
      exact ⟨c, u, h1, .inl h2⟩

/-- how a leaf token starts -/
theorem P.leaf_head {s r : List Char} {l : P.Leaf} (h : P.leaf s = some (l, r)) :
    ∃ c u, s = c :: u ∧ (c = '"' ∨ c = 'r' ∨ c = 'b' ∨ c = 'c' ∨ isDecDigit c = true ∨
      isIdentStart c = true ∨ c = '\'' ∨
      (c ∈ recognizedPunct ∧ startsWith s ['/', '/'] = false ∧ startsWith s ['/', '*'] = false) ∨
      startsWith s errorRepr = true) := by
  unfold P.leaf at h
  cases h1 : P.literal s with
  | some v =>
    obtain ⟨c, u, h1, h2⟩ := P.literal_head h1
    refine ⟨c, u, h1, ?_⟩
    rcases h2 with h2 | h2 | h2 | h2 | h2 | h2 <;> simp [h2]
  | none =>
    cases h2 : P.punct s with
    | some v =>
      obtain ⟨c, sp, r'⟩ := v
      have h3 := P.punct_some h2
      refine ⟨c, r', h3.1, ?_⟩
      unfold P.punct P.punctChar at h2
      cases hq : (startsWith s ['/', '/'] || startsWith s ['/', '*']) with
      | true => rw [hq] at h2; simp at h2
      | false =>
        simp at hq
        simp [h3.2, hq]
    | none =>
      cases h3 : P.ident s with
      | some v =>
        obtain ⟨sym, raw, r'⟩ := v
        unfold P.ident at h3
        split at h3
        · simp at h3
        · obtain ⟨c, u, h4, h5⟩ := P.identAny_head h3
          refine ⟨c, u, h4, ?_⟩
          rcases h5 with h5 | h5 <;> simp [h5]
      | none =>
        simp [h1, h2, h3] at h
        obtain ⟨u, hu⟩ := startsWith_iff.mp h.1
        refine ⟨'(', errorRepr.tail ++ u, hu, ?_⟩
        simp [h.1]

theorem isDecDigit_nat {c : Char} (h : isDecDigit c = true) : 48 ≤ c.toNat ∧ c.toNat ≤ 57 := by
  simp [isDecDigit, Char.le_def, UInt32.le_iff_toNat_le] at h
  exact h

section
variable [LawfulUnicode]

/-- characters that start an identifier are no whitespace and no ASCII punctuation -/
theorem identStart_facts {c : Char} (h : isIdentStart c = true) :
    isWhitespace c = false ∧ (c.toNat < 128 → c.isAlpha = true ∨ c = '_') := by
  simp only [isIdentStart, Bool.or_eq_true, beq_iff_eq] at h
  rcases h with rfl | h
  · exact ⟨by decide, fun _ => .inr rfl⟩
  · refine ⟨LawfulUnicode.continue_not_ws c (LawfulUnicode.start_continue c h), ?_⟩
    intro hc
    rw [LawfulUnicode.start_ascii c hc] at h
    exact .inl h

theorem identContinue_facts {c : Char} (h : isIdentContinue c = true) :
    isWhitespace c = false ∧ (c.toNat < 128 → c.isAlphanum = true ∨ c = '_') := by
  refine ⟨LawfulUnicode.continue_not_ws c h, ?_⟩
  intro hc
  have h' : xidContinue c = true := h
  rw [LawfulUnicode.continue_ascii c hc] at h'
  simpa using h'

theorem identStart_continue {c : Char} (h : isIdentStart c = true) : isIdentContinue c = true := by
  simp only [isIdentStart, Bool.or_eq_true, beq_iff_eq] at h
  rcases h with rfl | h
  · show xidContinue '_' = true
    rw [LawfulUnicode.continue_ascii '_' (by decide)]; decide
  · exact LawfulUnicode.start_continue c h

/-- the first character of a leaf token that is not the ERROR literal -/
def TokStart (c : Char) : Prop := isWhitespace c = false ∧ c ≠ '(' ∧ c ≠ '[' ∧ c ≠ '{' ∧ c ≠ ')' ∧
  c ≠ ']' ∧ c ≠ '}'

theorem tokStart_ident {c : Char} (h : isIdentStart c = true) : TokStart c ∧ c ≠ '/' := by
  obtain ⟨h1, h2⟩ := identStart_facts h
  refine ⟨⟨h1, ?_, ?_, ?_, ?_, ?_, ?_⟩, ?_⟩ <;>
    (rintro rfl; revert h2; decide)

theorem tokStart_digit {c : Char} (h : isDecDigit c = true) : TokStart c ∧ c ≠ '/' := by
  have hd := isDecDigit_nat h
  refine ⟨⟨?_, ?_, ?_, ?_, ?_, ?_, ?_⟩, ?_⟩
  · exact not_ws_of (by omega)
  all_goals (rintro rfl; revert hd; decide)

instance (c : Char) : Decidable (TokStart c) := inferInstanceAs (Decidable (_ ∧ _))

theorem tokStart_punct : ∀ c ∈ recognizedPunct, TokStart c := by decide

theorem P.closeD_none {c : Char} (h : TokStart c) : P.closeD c = none ∧ ∀ s, P.openD s c = none := by
  obtain ⟨-, h1, h2, h3, h4, h5, h6⟩ := h
  exact ⟨by simp [P.closeD, h4, h5, h6], fun s => by simp [P.openD, h1, h2, h3]⟩

/-- a text at which a leaf token is recognised is not trivia, a doc comment or a delimiter -/
theorem P.next_of_leaf {s r : List Char} {l : P.Leaf} (h : P.leaf s = some (l, r)) :
    P.next s = .leaf l s r := by
  have key : P.triv1 s = none ∧ P.doc s = none ∧ ∃ c u, s = c :: u ∧ P.openD s c = none ∧
      P.closeD c = none := by
    obtain ⟨c, u, e, hc⟩ := P.leaf_head h
    have done : TokStart c → c ≠ '/' → P.triv1 s = none ∧ P.doc s = none ∧ ∃ c u, s = c :: u ∧
        P.openD s c = none ∧ P.closeD c = none := by
      intro h1 h2
      obtain ⟨g1, g2, -⟩ := P.no_trivia (r := u) h1.1 h2
      rw [e]
      exact ⟨g1, g2, c, u, rfl, (P.closeD_none h1).2 _, (P.closeD_none h1).1⟩
    rcases hc with rfl | rfl | rfl | rfl | hc | hc | rfl | ⟨hc, h1, h2⟩ | hc
    · exact done (by decide) (by decide)
    · exact done (by decide) (by decide)
    · exact done (by decide) (by decide)
    · exact done (by decide) (by decide)
    · exact done (tokStart_digit hc).1 (tokStart_digit hc).2
    · exact done (tokStart_ident hc).1 (tokStart_ident hc).2
    · exact done (by decide) (by decide)
    · have ht := tokStart_punct c hc
      by_cases hs : c = '/'
      · subst hs
        rw [startsWith_false_iff] at h1 h2
        have g1 : startsWith s ['/', '/'] = false := startsWith_false_iff.mpr h1
        have g2 : startsWith s ['/', '*'] = false := startsWith_false_iff.mpr h2
        have ext : ∀ a b, startsWith s a = false → startsWith s (a ++ b) = false := by
          intro a b ha
          rw [startsWith_false_iff] at ha ⊢
          exact fun hp => ha ((List.prefix_append a b).trans hp)
        have hw : isWhitespace '/' = false := by decide
        refine ⟨?_, ?_, '/', u, e, (P.closeD_none ht).2 _, (P.closeD_none ht).1⟩
        · subst e
          unfold P.triv1
          simp only [g1, g2]
          have := ext _ ['*', '/'] g2
          simp only [List.cons_append, List.nil_append] at this
          simp [hw, this]
        · unfold P.doc P.docContents
          have e1 := ext _ ['!'] g1
          have e2 := ext _ ['!'] g2
          have e3 := ext _ ['/'] g1
          have e4 := ext _ ['*'] g2
          simp only [List.cons_append, List.nil_append] at e1 e2 e3 e4
          simp [e1, e2, e3, e4]
      · exact done ht hs
    · obtain ⟨v, hv⟩ := startsWith_iff.mp hc
      subst hv
      obtain ⟨g1, g2, -⟩ := P.no_trivia (c := '(') (r := errorRepr.tail ++ v) (by decide) (by decide)
      refine ⟨g1, g2, '(', errorRepr.tail ++ v, rfl, ?_, by decide⟩
      unfold P.openD
      have : startsWith (errorRepr ++ v) errorRepr = true := startsWith_iff.mpr ⟨v, rfl⟩
      simp [this]
  obtain ⟨ht, hd, c, u, e, ho, hc⟩ := key
  unfold P.next
  have : P.skipWs s = s := by rw [P.skipWs_eq, ht]
  rw [this]
  unfold P.next1
  rw [hd, e]
  simp only
  rw [← e, ho]
  simp only
  rw [hc]
  simp only
  rw [h]

/-- end of text -/
theorem P.next_nil : P.next [] = .eof := by
  have : P.skipWs [] = [] := by rw [P.skipWs_eq]; rfl
  unfold P.next
  rw [this]; rfl

/-- a text that is exactly one leaf token -/
theorem P.lex_single {E : Nat} {s : List Char} {l : P.Leaf} (h : P.leaf s = some (l, [])) :
    P.Lex E s [l.tok ⟨E - s.length, E⟩] [] :=
  .leaf (P.next_of_leaf h) (.eof P.next_nil)

end

/-! ### `Literal::from_str` -/

/-- the texts accepted by `Literal::from_str` -/
def P.litAccepts (s : List Char) : Bool :=
  match s with
  | '-' :: ch :: u => isDecDigit ch && P.literal (ch :: u) == some []
  | _ => P.literal s == some []

theorem P.literal_minus (u : List Char) : P.literal ('-' :: u) = none := by
  cases h : P.literal ('-' :: u) with
  | none => rfl
  | some r =>
    obtain ⟨c, u', h1, h2⟩ := P.literal_head h
    simp at h1
    obtain ⟨rfl, -⟩ := h1
    exact absurd h2 (by decide)

theorem literalFromStrAt_eq {src : List Char} {off : Nat} (hb : off + src.length < u32Size) :
    literalFromStrAt src off = if P.litAccepts src then .ok (src, ⟨off, off + src.length⟩)
      else .err Span.callSite := by
  have hgo : ∀ (neg : Bool) (s : List Char) (o : Nat), o + s.length = off + src.length →
      ((literal (⟨s, o⟩ : Cursor Nat)).ifOk
        (fun (rest, repr) =>
          if rest.rest.isEmpty then
            Res.ok ((if neg then '-' :: repr else repr), (⟨off, rest.off⟩ : Span))
          else .err Span.callSite)
        (fun _ => .err Span.callSite)) =
      if P.literal s == some [] then
        Res.ok ((if neg then '-' :: s else s), ⟨off, off + src.length⟩)
      else .err Span.callSite := by
    intro neg s o ho
    have hb' : Bnd (⟨s, o⟩ : Cursor Nat) := by show o + s.length < u32Size; omega
    rw [literal_eq hb']
    cases hl : P.literal s with
    | none => simp [Res.ifOk, hl, lift2]
    | some r =>
      simp only [hl, lift2_some, Res.ifOk, Cursor.to_rest]
      cases r with
      | nil =>
        simp only [List.isEmpty_nil, if_true, beq_self_eq_true]
        have : P.eaten s [] = s := by simp [P.eaten]
        rw [this]
        simp only [Cursor.to, Nat.move_eq, List.length_nil, Nat.sub_zero]
        rw [ho]
      | cons c r => simp
  unfold literalFromStrAt
  cases src with
  | nil =>
    simp only [startsWithChar]
    exact hgo false [] off rfl
  | cons c u =>
    by_cases hc : c = '-'
    · subst hc
      have hb' : Bnd (⟨'-' :: u, off⟩ : Cursor Nat) := hb
      simp only [startsWithChar, beq_self_eq_true, if_true]
      rw [advance_eq hb' (t := ['-']) (r := u) rfl (by decide), Res.ok_bind]
      simp only [Cursor.to_rest]
      cases u with
      | nil =>
        simp [P.litAccepts, P.literal_minus]
      | cons ch u =>
        simp only [P.litAccepts]
        cases hd : isDecDigit ch with
        | false => simp
        | true =>
          simp only [if_true, Bool.true_and]
          have := hgo true (ch :: u) (off + 1) (by simp only [List.length_cons]; omega)
          simp only [Cursor.to, Nat.move_eq, List.length_cons] at this ⊢
          have e : u.length + 1 + 1 - (u.length + 1) = 1 := by omega
          rw [e]
          exact this
    · have h1 : startsWithChar (c :: u) '-' = false := by simp [startsWithChar, hc]
      simp only [h1]
      have h2 : P.litAccepts (c :: u) = (P.literal (c :: u) == some []) := by
        unfold P.litAccepts
        split
        · rename_i heq; simp at heq; exact absurd heq.1 hc
        · rfl
      rw [h2]
      exact hgo false (c :: u) off rfl

end
end PM2
