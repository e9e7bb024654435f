import Verif.Proof.Number
import Verif.Spec.Number
import Verif.Props.Printing
import Verif.Spec.Decide
/-! # C23, C24: numeric literals -/

set_option linter.unusedSectionVars false

namespace PM2.Props
open Spec

/-! ### Decimal representation -/

theorem decNumber_append (a b : List Char) :
    decNumber (a ++ b) = b.foldl (fun n c => n * 10 + (c.toNat - 48)) (decNumber a) := by
  simp [decNumber, List.foldl_append]

theorem digitChar_val {d : Nat} (h : d < 10) : (Nat.digitChar d).toNat - 48 = d ∧
    (Nat.digitChar d = '0' ↔ d = 0) := by
  revert d; decide

theorem natDec_decimal (n : Nat) : Decimal (natDec n) n := by
  refine ⟨Nat.toDigits_ne_nil, toDigits_dig n, ?_, ?_⟩
  · unfold natDec
    induction n using Nat.strongRecOn with
    | ind n ih =>
      by_cases h : n < 10
      · rw [Nat.toDigits_of_lt_base h]
        simp [(digitChar_val h).2]
      · rw [Nat.toDigits_of_base_le (by omega) (by omega)]
        have h1 := ih (n / 10) (by omega)
        have hne : Nat.toDigits 10 (n / 10) ≠ [] := Nat.toDigits_ne_nil
        intro h0
        obtain ⟨c, t, e⟩ := List.exists_cons_of_ne_nil hne
        rw [e] at h0 h1
        simp at h0
        have h2 := h1 (by simp [h0])
        exfalso
        have hv : ∀ m, m ≠ 0 → Nat.toDigits 10 m ≠ ['0'] := by
          intro m hm he
          by_cases hl : m < 10
          · rw [Nat.toDigits_of_lt_base hl] at he
            simp [(digitChar_val hl).2] at he
            exact hm he
          · rw [Nat.toDigits_of_base_le (by omega) (by omega)] at he
            have := congrArg List.length he
            have h3 : Nat.toDigits 10 (m / 10) ≠ [] := Nat.toDigits_ne_nil
            have := List.length_pos_iff.mpr h3
            simp at *
        exact hv (n / 10) (by omega) (by rw [e, h2])
  · unfold natDec
    induction n using Nat.strongRecOn with
    | ind n ih =>
      by_cases h : n < 10
      · rw [Nat.toDigits_of_lt_base h]
        simp [decNumber, (digitChar_val h).1]
      · rw [Nat.toDigits_of_base_le (by omega) (by omega), decNumber_append, ih _ (by omega)]
        simp only [List.foldl_cons, List.foldl_nil]
        rw [(digitChar_val (Nat.mod_lt n (by omega))).1]
        omega

theorem digit_char {c : Char} (h : '0' ≤ c ∧ c ≤ '9') :
    c.toNat - 48 < 10 ∧ Nat.digitChar (c.toNat - 48) = c := by
  have h1 : 48 ≤ c.toNat := charLe.mp h.1
  have h2 : c.toNat ≤ 57 := charLe.mp h.2
  refine ⟨by omega, ?_⟩
  have : ∀ d, d < 10 → (Nat.digitChar d).toNat = d + 48 := by decide
  have h3 := this (c.toNat - 48) (by omega)
  apply Char.toNat_inj.mp
  omega

theorem decNumber_pos {c : Char} {t : List Char} (h : '0' ≤ c ∧ c ≤ '9') (hc : c ≠ '0') :
    0 < decNumber (c :: t) := by
  have key : ∀ (t : List Char) (a : Nat), 0 < a →
      0 < t.foldl (fun n c => n * 10 + (c.toNat - 48)) a := by
    intro t
    induction t with
    | nil => intro a ha; exact ha
    | cons d t ih => intro a ha; exact ih _ (by show 0 < a * 10 + (d.toNat - 48); omega)
  refine key t _ ?_
  show 0 < 0 * 10 + (c.toNat - 48)
  have h1 : 48 ≤ c.toNat := charLe.mp h.1
  have : c.toNat ≠ 48 := fun h => hc (Char.toNat_inj.mp h)
  omega

/-- **C23**: the decimal representation is unique, so the texts determine the number. -/
theorem C23_unique {ds : List Char} {n : Nat} (h : Decimal ds n) : ds = natDec n := by
  obtain ⟨h1, h2, h3, h4⟩ := h
  unfold natDec
  generalize hk : ds.length = k
  induction k generalizing ds n with
  | zero => exact absurd (List.length_eq_zero_iff.mp hk) h1
  | succ k ih =>
    obtain ⟨t, c, rfl⟩ : ∃ t c, ds = t ++ [c] := ⟨_, _, (List.dropLast_concat_getLast h1).symm⟩
    obtain ⟨g1, g2⟩ := digit_char (h2 c (by simp))
    rw [decNumber_append] at h4
    simp only [List.foldl_cons, List.foldl_nil] at h4
    cases t with
    | nil =>
      simp [decNumber] at h4
      rw [Nat.toDigits_of_lt_base (by omega), ← h4, g2]
      rfl
    | cons d u =>
      have hd : d ≠ '0' := by
        rintro rfl
        simpa using h3 rfl
      have hp := decNumber_pos (t := u) (h2 d (by simp)) hd
      have e := ih (ds := d :: u) (n := decNumber (d :: u)) (by simp)
        (fun c hc => h2 c (List.mem_append_left _ hc)) (by simp [hd]) rfl (by simpa using hk)
      rw [Nat.toDigits_of_base_le (by omega) (by omega)]
      have e1 : n / 10 = decNumber (d :: u) := by omega
      have e2 : n % 10 = c.toNat - 48 := by omega
      rw [e1, e2, g2, ← e]

section
variable [UnicodeTables] [LawfulUnicode]

/-! ### Texts of numbers -/

theorem bdL_nil : P.BdL [] := by
  intro c w h
  simp at h

/-- A number, with its first character a digit, that the lexer takes in whole. -/
structure NumText (x : List Char) : Prop where
  lit : P.literal x = some []
  head : ∃ d u, x = d :: u ∧ '0' ≤ d ∧ d ≤ '9'

theorem NumText.single {x : List Char} (hx : NumText x) {sm : SourceMap} {texts : List (List Char)}
    (h : History sm texts) (hr : Room texts x) :
    (TokenStream.fromStr sm x).2 =
      .ok [.literal x ⟨base texts texts.length, base texts texts.length + x.length⟩] ∧
    (Literal.fromStr sm x).2 =
      .ok (x, ⟨base texts texts.length, base texts texts.length + x.length⟩) := by
  constructor
  · refine fromStr_of_lex h hr ?_
    have hl := leaf_written_literal (w := []) (.inr hx.lit) bdL_nil
    rw [List.append_nil] at hl
    simpa [P.Leaf.tok] using P.lex_single (E := base texts texts.length + x.length) hl
  · obtain ⟨-, e, -, -, hb⟩ := h.fromStr hr
    rw [e, literalFromStrAt_eq hb, if_pos ((litAccepts_iff x).mpr (.inl hx.lit))]

theorem NumText.negative {x : List Char} (hx : NumText x) {sm : SourceMap} {texts : List (List Char)}
    (h : History sm texts) (hr : Room texts ('-' :: x)) :
    (TokenStream.fromStr sm ('-' :: x)).2 =
      .ok [.punct '-' .alone ⟨base texts texts.length, base texts texts.length + 1⟩,
        .literal x ⟨base texts texts.length + 1, base texts texts.length + 1 + x.length⟩] ∧
    (Literal.fromStr sm ('-' :: x)).2 =
      .ok ('-' :: x, ⟨base texts texts.length, base texts texts.length + 1 + x.length⟩) := by
  obtain ⟨d, u, e, h1, h2⟩ := hx.head
  constructor
  · refine fromStr_of_lex h hr ?_
    have hp : P.punctChar x = none := by
      cases hp : P.punctChar x with
      | none => rfl
      | some y =>
        obtain ⟨⟨c', r', e', hc'⟩, -⟩ := P.punctChar_isSome.mp (by rw [hp]; rfl : (P.punctChar x).isSome = true)
        rw [e] at e'
        simp at e'
        rw [← e'.1] at hc'
        have := dig_nat ⟨h1, h2⟩
        exfalso
        revert hc' this
        have : ∀ c ∈ recognizedPunct, ¬ (48 ≤ c.toNat ∧ c.toNat ≤ 57) := by decide
        intro hc' hd
        exact this _ hc' hd
    have hm : P.leaf ('-' :: x) = some (.punct '-' .alone, x) := by
      rw [leaf_written_punct (by decide) (by decide) (by intro h; exact absurd h (by decide)), hp]
      rfl
    have hl := leaf_written_literal (w := []) (.inr hx.lit) bdL_nil
    rw [List.append_nil] at hl
    have key := P.Lex.leaf (P.next_of_leaf hm)
      (P.lex_single (E := base texts texts.length + ('-' :: x).length) hl)
    simp only [P.Leaf.tok, List.length_cons] at key ⊢
    have e1 : base texts texts.length + (x.length + 1) - (x.length + 1) = base texts texts.length := by
      omega
    have e2 : base texts texts.length + (x.length + 1) - x.length = base texts texts.length + 1 := by
      omega
    have e3 : base texts texts.length + (x.length + 1) = base texts texts.length + 1 + x.length := by
      omega
    rw [e1, e2] at key
    rw [e3] at key ⊢
    exact key
  · obtain ⟨-, e', -, -, hb⟩ := h.fromStr hr
    rw [e', literalFromStrAt_eq hb, if_pos ((litAccepts_iff _).mpr (.inr ⟨d, u, by rw [e], ⟨h1, h2⟩, by rw [← e]; exact hx.lit⟩))]
    simp [Nat.add_assoc, Nat.add_comm]

theorem numText_int {ds suf : List Char} {n : Nat} (h : Decimal ds n) (hs : NumSuffix suf) :
    NumText (ds ++ suf) := by
  refine ⟨literal_int h.nonempty h.digits hs, ?_⟩
  obtain ⟨d, u, e⟩ := List.exists_cons_of_ne_nil h.nonempty
  exact ⟨d, u ++ suf, by rw [e]; rfl, h.digits d (by rw [e]; simp)⟩

theorem numText_float {ds gs suf : List Char} (h1 : ds ≠ []) (h2 : ∀ c ∈ ds, '0' ≤ c ∧ c ≤ '9')
    (h3 : gs ≠ []) (h4 : ∀ c ∈ gs, '0' ≤ c ∧ c ≤ '9') (hs : NumSuffix suf) :
    NumText (ds ++ '.' :: (gs ++ suf)) := by
  refine ⟨literal_float h1 h2 h3 h4 hs, ?_⟩
  obtain ⟨d, u, e⟩ := List.exists_cons_of_ne_nil h1
  exact ⟨d, u ++ '.' :: (gs ++ suf), by rw [e]; rfl, h2 d (by rw [e]; simp)⟩

/-! ### C23 -/

/-- The text `x`, which does not begin with a minus sign, is one literal, spanning all of the text, both
for `TokenStream::from_str` and for `Literal::from_str`; and preceded by a minus sign it is a lone punct
and that literal for the former, and one literal for the latter. -/
def ReadsAsNumber (x : List Char) : Prop :=
  ∀ {sm : SourceMap} {texts : List (List Char)}, History sm texts →
    (Room texts x →
      (TokenStream.fromStr sm x).2 =
        .ok [.literal x ⟨base texts texts.length, base texts texts.length + x.length⟩] ∧
      (Literal.fromStr sm x).2 =
        .ok (x, ⟨base texts texts.length, base texts texts.length + x.length⟩)) ∧
    (Room texts ('-' :: x) →
      (TokenStream.fromStr sm ('-' :: x)).2 =
        .ok [.punct '-' .alone ⟨base texts texts.length, base texts texts.length + 1⟩,
          .literal x ⟨base texts texts.length + 1, base texts texts.length + 1 + x.length⟩] ∧
      (Literal.fromStr sm ('-' :: x)).2 =
        .ok ('-' :: x, ⟨base texts texts.length, base texts texts.length + 1 + x.length⟩))

theorem NumText.reads {x : List Char} (h : NumText x) : ReadsAsNumber x :=
  fun hh => ⟨h.single hh, h.negative hh⟩

theorem intDec_eq (n : Int) : intDec n = (if n < 0 then ['-'] else []) ++ natDec n.natAbs := by
  cases n with
  | ofNat n => simp [intDec]
  | negSucc n => simp [intDec, Int.negSucc_lt_zero]

theorem intKind_name (k : IntKind) : k.name = intTypeName k := by
  cases k <;> decide +kernel

theorem floatKind_name (k : FloatKind) : k.name = floatTypeName k := by
  cases k <;> decide +kernel

/-- **C23.** The suffixed constructors of the integer types print the sign, the decimal representation of
the absolute value and the name of the type; and without the sign, that text reads as one literal. -/
theorem C23_suffixed (k : IntKind) (n : Int) :
    ∃ ds, Decimal ds n.natAbs ∧ ReadsAsNumber (ds ++ intTypeName k) ∧
      Literal.intSuffixed k n =
        .literal ((if n < 0 then ['-'] else []) ++ (ds ++ intTypeName k)) Span.callSite := by
  refine ⟨natDec n.natAbs, natDec_decimal _, ?_, ?_⟩
  · rw [← intKind_name]
    exact (numText_int (natDec_decimal _) (kind_suffix k)).reads
  · rw [← intKind_name]
    simp [Literal.intSuffixed, litIntSuffixed, literalNew, intDec_eq]

/-- **C23**, the unsuffixed constructors. -/
theorem C23_unsuffixed (n : Int) :
    ∃ ds, Decimal ds n.natAbs ∧ ReadsAsNumber ds ∧
      Literal.intUnsuffixed n = .literal ((if n < 0 then ['-'] else []) ++ ds) Span.callSite := by
  refine ⟨natDec n.natAbs, natDec_decimal _, ?_, ?_⟩
  · have : ReadsAsNumber _ := (numText_int (natDec_decimal n.natAbs) (.inl rfl)).reads
    rwa [List.append_nil] at this
  · simp [Literal.intUnsuffixed, litIntUnsuffixed, literalNew, intDec_eq]

/-! ### C24 -/

/-- **C24.** The unsuffixed constructors of the float types: they panic unless the value is finite; the
text is what std prints, with `.0` appended if that has no point; it reads as one literal. -/
theorem C24_unsuffixed {s : List Char} (hs : FloatText s) :
    Literal.floatUnsuffixed (ε := ε) false s = .panic ∧
    ∃ x, ('.' ∈ s → x = s) ∧ ('.' ∉ s → x = s ++ ".0".toList) ∧ '.' ∈ x ∧ ReadsAsNumber x ∧
      Literal.floatUnsuffixed (ε := ε) true s = .ok (.literal x Span.callSite) ∧
      Literal.floatUnsuffixed (ε := ε) true ('-' :: s) = .ok (.literal ('-' :: x) Span.callSite) := by
  refine ⟨rfl, ?_⟩
  obtain ⟨ds, fs, rfl, h1, h2, h3⟩ := hs
  have hnd : '.' ∉ ds := fun hm => absurd (h2 _ hm) (by decide)
  rcases h3 with rfl | ⟨gs, rfl, h4, h5⟩
  · refine ⟨ds ++ ['.', '0'], ?_, ?_, by simp, ?_, ?_, ?_⟩
    · intro h; simp at h; exact absurd h hnd
    · intro _; simp
    · exact (numText_float (gs := ['0']) (suf := []) h1 h2 (by simp) (by decide) (.inl rfl)).reads
    · simp [Literal.floatUnsuffixed, litFloatUnsuffixed, literalNew, hnd]
    · simp [Literal.floatUnsuffixed, litFloatUnsuffixed, literalNew, hnd]
  · refine ⟨ds ++ '.' :: gs, fun _ => rfl, ?_, by simp, ?_, ?_, ?_⟩
    · intro h; simp at h
    · have : ReadsAsNumber _ := (numText_float (suf := []) h1 h2 h4 h5 (.inl rfl)).reads
      rwa [List.append_nil] at this
    · simp [Literal.floatUnsuffixed, litFloatUnsuffixed, literalNew]
    · simp [Literal.floatUnsuffixed, litFloatUnsuffixed, literalNew]

/-- **C24.** The suffixed constructors. -/
theorem C24_suffixed (k : FloatKind) {s : List Char} (hs : FloatText s) :
    Literal.floatSuffixed (ε := ε) k false s = .panic ∧
    ReadsAsNumber (s ++ floatTypeName k) ∧
    Literal.floatSuffixed (ε := ε) k true s = .ok (.literal (s ++ floatTypeName k) Span.callSite) ∧
    Literal.floatSuffixed (ε := ε) k true ('-' :: s) =
      .ok (.literal ('-' :: (s ++ floatTypeName k)) Span.callSite) := by
  rw [← floatKind_name]
  refine ⟨rfl, ?_, rfl, rfl⟩
  obtain ⟨ds, fs, rfl, h1, h2, h3⟩ := hs
  rcases h3 with rfl | ⟨gs, rfl, h4, h5⟩
  · rw [List.append_nil]
    refine NumText.reads ⟨literal_int h1 h2 (fkind_suffix k), ?_⟩
    obtain ⟨d, u, e⟩ := List.exists_cons_of_ne_nil h1
    exact ⟨d, u ++ k.name, by rw [e]; rfl, h2 d (by rw [e]; simp)⟩
  · rw [List.append_assoc, List.cons_append]
    exact (numText_float h1 h2 h4 h5 (fkind_suffix k)).reads

end

section
attribute [local instance] sampleTables sampleTables_lawful

example : Decimal "1205".toList 1205 := by
  refine ⟨by decide +kernel, by decide +kernel, by decide +kernel, by decide +kernel⟩
example : Literal.intSuffixed .i128 (-1205) = .literal "-1205i128".toList Span.callSite := by
  decide +kernel
example : Literal.intUnsuffixed 0 = .literal "0".toList Span.callSite := by decide +kernel
example : (TokenStream.fromStr SourceMap.init "-1205i128".toList).2 =
    .ok [.punct '-' .alone ⟨1, 2⟩, .literal "1205i128".toList ⟨2, 10⟩] := by decide +kernel
example : FloatText "0.125".toList := by
  refine ⟨['0'], ['.', '1', '2', '5'], by decide +kernel, by decide, by decide, .inr ⟨['1', '2', '5'], rfl, by decide, by decide⟩⟩
example : Literal.floatUnsuffixed (ε := Unit) true "3".toList =
    .ok (.literal "3.0".toList Span.callSite) := by decide +kernel
example : (TokenStream.fromStr SourceMap.init "3f64".toList).2 =
    .ok [.literal "3f64".toList ⟨1, 5⟩] := by decide +kernel

end

end PM2.Props
