import Verif.Proof.Escape
import Verif.Props.Tokens
import Verif.Spec.Decide
/-! # C18–C22, C26–C28, C59, C62: the values of literals -/

set_option linter.unusedSectionVars false

namespace PM2.Props
open Spec

/-! ### C28: what the accessors return -/

/-- **C28**, `str_value`: it succeeds on exactly the string literals that have a value, and returns
that value. -/
theorem C28_str (x v : List Char) : strValue x = .ok v ↔ HasValue .str x (bytesOf v) :=
  strValue_iff x v

/-- **C28**, `byte_str_value`. -/
theorem C28_byte_str (x : List Char) (v : List UInt8) :
    byteStrValue x = .ok v ↔ HasValue .byte x v :=
  byteStrValue_iff x v

/-- **C28**, `cstr_value`: the value is followed by the terminating NUL. -/
theorem C28_cstr (x : List Char) (v : List UInt8) :
    cstrValue x = .ok v ↔ ∃ m, HasValue .c x m ∧ v = m ++ [0] :=
  cstrValue_iff x v

/-- **C28**: a literal has at most one value. -/
theorem C28_unique {k : StrKind} {x : List Char} {m n : List UInt8} (h1 : HasValue k x m)
    (h2 : HasValue k x n) : m = n := by
  cases k with
  | str => exact hasValue_unique lawful_str h1 h2
  | byte => exact hasValue_unique lawful_byte h1 h2
  | c => exact hasValue_unique lawful_c h1 h2

/-- The value of a string literal contains no NUL if it is a cooked C string. -/
theorem C28_cstr_no_nul {t : List Char} {m : List UInt8} (h : Means .c t m) : (0 : UInt8) ∉ m := by
  have henc : ∀ c : Char, c ≠ '\x00' → (0 : UInt8) ∉ String.utf8EncodeChar c := by
    intro c hc h0
    by_cases hlt : c.toNat < 128
    · rw [encode_ascii hlt] at h0
      simp at h0
      apply hc
      apply char_ext
      rw [← B_toNat hlt, ← h0]; rfl
    · exact encode_high hlt 0 h0 (by decide)
  induction h with
  | nil => simp
  | piece hp _ ih =>
    rw [List.mem_append]
    rintro (h0 | h0)
    · cases hp with
      | char _ _ _ h4 => exact henc _ h4 h0
      | simple hm =>
        simp at h0; subst h0
        simp [simpleEscapes] at hm
      | zero hk => exact hk rfl
      | @hex a b g1 g2 _ h4 =>
        simp only [List.mem_singleton] at h0
        have hlt : hexNumber [a, b] < 256 := by
          rw [hexNumber_two]
          have := hexDigitVal_lt g1; have := hexDigitVal_lt g2; omega
        have := congrArg UInt8.toNat h0
        rw [ofNat_toNat_small hlt] at this
        exact h4 rfl (by simpa using this.symm)
      | uni _ _ h3 => exact henc _ (h3 rfl) h0
    · exact ih h0
  | cont _ _ _ ih => exact ih

/-! ### C27 -/

/-- **C27**, totality: on every text, each accessor returns `Ok`, `FailedToUnescape` with a fatal
error, or `InvalidLiteralKind`. -/
theorem C27_total (x : List Char) :
    ((∃ v, strValue x = .ok v) ∨ (∃ e, strValue x = .err (.failedToUnescape e) ∧ e.isFatal = true) ∨
      strValue x = .err .invalidLiteralKind) ∧
    ((∃ v, byteStrValue x = .ok v) ∨
      (∃ e, byteStrValue x = .err (.failedToUnescape e) ∧ e.isFatal = true) ∨
      byteStrValue x = .err .invalidLiteralKind) ∧
    ((∃ v, cstrValue x = .ok v) ∨ (∃ e, cstrValue x = .err (.failedToUnescape e) ∧ e.isFatal = true) ∨
      cstrValue x = .err .invalidLiteralKind) := by
  refine ⟨?_, ?_, ?_⟩
  · rcases valueOf_total lawful_str id id x with h | ⟨e, h, hf, -⟩ | ⟨h, -⟩
    · exact .inl h
    · exact .inr (.inl ⟨e, h, hf⟩)
    · exact .inr (.inr h)
  · rcases valueOf_total lawful_byte id bytesOf x with h | ⟨e, h, hf, -⟩ | ⟨h, -⟩
    · exact .inl h
    · exact .inr (.inl ⟨e, h, hf⟩)
    · exact .inr (.inr h)
  · rcases valueOf_total lawful_c (fun us => us.flatMap MixedUnit.bytes ++ [0])
      (fun r => bytesOf r ++ [0]) x with h | ⟨e, h, hf, -⟩ | ⟨h, -⟩
    · exact .inl h
    · exact .inr (.inl ⟨e, h, hf⟩)
    · exact .inr (.inr h)

/-- The texts on which the accessor of kind `k` returns something else than `InvalidLiteralKind`. -/
def OfKind (k : StrKind) (x : List Char) : Prop :=
  (∃ t, x = kindPrefix k ++ '"' :: t ++ ['"']) ∨
  (∃ n v, x = kindPrefix k ++ 'r' :: List.replicate n '#' ++ '"' :: v ++ '"' :: List.replicate n '#')

/-- **C27**, the kind: each accessor refuses exactly the texts that are not of its kind. -/
theorem C27_kind (x : List Char) :
    (strValue x = .err .invalidLiteralKind ↔ ¬ OfKind .str x) ∧
    (byteStrValue x = .err .invalidLiteralKind ↔ ¬ OfKind .byte x) ∧
    (cstrValue x = .err .invalidLiteralKind ↔ ¬ OfKind .c x) := by
  have key : ∀ {U V : Type} {k : StrKind} {I : Unescape U} {bytes : U → List UInt8}
      (_ : LawfulUnescape k I bytes) (cooked : List U → V) (raw : List Char → V),
      valueOf I (kindPrefix k ++ ['"']) (kindPrefix k ++ ['r']) cooked raw x =
        .err .invalidLiteralKind ↔ ¬ OfKind k x := by
    intro U V k I bytes L cooked raw
    rcases valueOf_spec L cooked raw x with
      ⟨t, ht, ⟨us, h1, -⟩ | ⟨e, h1, -, -⟩⟩ | ⟨n, w, ht, h1⟩ | ⟨h1, h2, h3⟩
    · rw [h1]; simp; exact .inl ⟨t, ht⟩
    · rw [h1]; simp; exact .inl ⟨t, ht⟩
    · rw [h1]; simp; exact .inr ⟨n, w, ht⟩
    · rw [h3]; simp
      rintro (⟨t, ht⟩ | ⟨n, v, ht⟩)
      · exact h1 t ht
      · exact h2 n v ht
  exact ⟨key lawful_str id id, key lawful_byte id bytesOf, key lawful_c _ _⟩

/-- **C27**, exclusivity: a text is of at most one kind. -/
theorem C27_exclusive {x : List Char} {k k' : StrKind} (h : OfKind k x) (h' : OfKind k' x) : k = k' := by
  have hh : ∀ k, OfKind k x → ∃ d u, x = kindPrefix k ++ d :: u ∧ (d = '"' ∨ d = 'r') := by
    rintro k (⟨t, rfl⟩ | ⟨n, v, rfl⟩)
    · exact ⟨'"', t ++ ['"'], by simp, .inl rfl⟩
    · exact ⟨'r', _, by simp; rfl, .inr rfl⟩
  obtain ⟨d, u, h1, h2⟩ := hh k h
  obtain ⟨d', u', h3, h4⟩ := hh k' h'
  rw [h1] at h3
  cases k <;> cases k' <;> simp [kindPrefix] at h3 <;> try rfl
  all_goals
    obtain ⟨rfl, h3⟩ := h3
    first
      | (rcases h2 with h | h <;> revert h <;> decide)
      | (rcases h4 with h | h <;> revert h <;> decide)

/-- The accessor of kind `k` succeeds. -/
def ValueOk (k : StrKind) (x : List Char) : Prop :=
  match k with
  | .str => ∃ v, strValue x = .ok v
  | .byte => ∃ v, byteStrValue x = .ok v
  | .c => ∃ v, cstrValue x = .ok v

theorem value_of {k : StrKind} {x : List Char} {m : List UInt8} (hm : HasValue k x m) :
    ValueOk k x := by
  cases k with
  | str =>
    rcases valueOf_spec lawful_str (cooked := id) (raw := id) x with
      ⟨t, ht, ⟨us, h1, -⟩ | ⟨e, h1, -, h3⟩⟩ | ⟨n, w, ht, h1⟩ | ⟨h1, h2, h3⟩
    · exact ⟨_, h1⟩
    · exfalso
      rcases hasValue_iff.mp hm with ⟨t', ht', hm'⟩ | ⟨n, v, ht', -⟩
      · rw [ht] at ht'; rw [cookedText_inj ht'] at h3; exact h3 m hm'
      · rw [ht] at ht'; exact cooked_raw_disjoint ht'
    · exact ⟨_, h1⟩
    · exfalso
      rcases hasValue_iff.mp hm with ⟨t', ht', -⟩ | ⟨n, v, ht', -⟩
      · exact h1 _ ht'
      · exact h2 _ _ ht'
  | byte => exact ⟨m, (C28_byte_str _ _).mpr hm⟩
  | c => exact ⟨m ++ [0], (C28_cstr _ _).mpr ⟨m, hm, rfl⟩⟩

/-! ### C26: the lexer and the unescaper agree -/

section
variable [UnicodeTables]

/-- A literal without a suffix ends in a quote or a hash. -/
def Unsuffixed (x : List Char) : Prop := x.getLast? = some '"' ∨ x.getLast? = some '#'

variable [LawfulUnicode]

theorem suffix_last {suf : List Char} (h : Suffix suf) (hne : suf ≠ []) : ¬ Unsuffixed suf := by
  have hall : ∀ d ∈ suf, isIdentContinue d = true := by
    rcases h with rfl | ⟨c, t, rfl, h1, h2⟩
    · exact absurd rfl hne
    · intro d hd
      rcases List.mem_cons.mp hd with rfl | hd
      · exact identStart_continue h1
      · exact h2 d hd
  rintro (h | h)
  · have := (identContinue_facts (hall _ (List.mem_of_getLast? h))).2 (by decide)
    revert this; decide
  · have := (identContinue_facts (hall _ (List.mem_of_getLast? h))).2 (by decide)
    revert this; decide

theorem strText_value {k : StrKind} {x : List Char} (h : StrText k x) (hcr : '\r' ∉ x) :
    ∃ m, HasValue k x m := by
  cases h with
  | @cooked b hb =>
    obtain ⟨m, hm⟩ := hb.means (fun h => hcr (by simp [h]))
    exact ⟨m, .cooked hm⟩
  | raw => exact ⟨_, .raw⟩

theorem goodString_value {k : StrKind} {x : List Char} (h : GoodString k x) (hcr : '\r' ∉ x)
    (hu : Unsuffixed x) : ∃ m, HasValue k x m := by
  obtain ⟨y, suf, rfl, h1, h2, -, -⟩ := h
  have : suf = [] := by
    apply Classical.byContradiction
    intro hne
    apply suffix_last h2 hne
    unfold Unsuffixed at hu ⊢
    rw [List.getLast?_append] at hu
    cases hl : suf.getLast? with
    | none => exact absurd (List.getLast?_eq_none_iff.mp hl) hne
    | some d => rw [hl] at hu; simpa using hu
  subst this
  rw [List.append_nil] at hcr ⊢
  exact strText_value h1 hcr

/-- **C26**, `Literal::from_str`: an accepted string literal of kind `k` without suffix and without
carriage return has a value. -/
theorem C26_literal {sm : SourceMap} {texts : List (List Char)} (h : History sm texts)
    {src : List Char} (hr : Room texts src) {repr : List Char} {span : Span}
    (hok : (Literal.fromStr sm src).2 = .ok (repr, span)) {k : StrKind} (hk : StrStart k repr)
    (hcr : '\r' ∉ repr) (hu : Unsuffixed repr) :
    ValueOk k repr := by
  obtain ⟨m, hm⟩ := goodString_value (C14_literal h hr hok hk) hcr hu
  exact value_of hm

/-- **C26**, tokens: the same for every literal token of an accepted text. -/
theorem C26_token {sm : SourceMap} {texts : List (List Char)} (h : History sm texts)
    {src : List Char} (hr : Room texts src) {ts : List TokenTree}
    (hok : (TokenStream.fromStr sm src).2 = .ok ts) {repr : List Char} {span : Span}
    (ht : Sub (.literal repr span) ts) {a x r : List Char}
    (hat : At (base texts texts.length) src span a x r) (hnd : ¬ IsDoc x)
    {k : StrKind} (hk : StrStart k repr) (hcr : '\r' ∉ repr) (hu : Unsuffixed repr) :
    ValueOk k repr := by
  obtain ⟨m, hm⟩ := goodString_value ((C14_token h hr hok ht hat hnd).2 k hk) hcr hu
  exact value_of hm

/-- **C26**, converse for cooked literals: what can be unescaped, and contains no carriage return, is
accepted by the lexer. -/
theorem C26_converse {k : StrKind} {t : List Char} {m : List UInt8} (hm : Means k t m) (hcr : '\r' ∉ t)
    {sm : SourceMap} {texts : List (List Char)} (h : History sm texts)
    (hr : Room texts (kindPrefix k ++ '"' :: t ++ ['"'])) :
    ∃ span, (Literal.fromStr sm (kindPrefix k ++ '"' :: t ++ ['"'])).2 =
      .ok (kindPrefix k ++ '"' :: t ++ ['"'], span) := by
  have := C14_accepts h (.str (.cooked (hm.cooked hcr))) (.inl rfl) (by simpa using hr)
  simpa using this

/-! ### C18–C22: the constructors -/

/-- A quoted literal lexes as exactly one literal token, and `Literal::from_str` accepts it. -/
def LexesAlone (x : List Char) : Prop :=
  ∀ {sm : SourceMap} {texts : List (List Char)}, History sm texts → Room texts x →
    (∃ span, (Literal.fromStr sm x).2 = .ok (x, span)) ∧
    (∃ span, (TokenStream.fromStr sm x).2 = .ok [.literal x span])

theorem quoted_alone {x : List Char} (hx : QuotedText x) : LexesAlone x := by
  intro sm texts h hr
  obtain ⟨span, h1⟩ := C14_accepts h hx (.inl rfl) (by simpa using hr)
  rw [List.append_nil] at h1
  have hhead : ∃ c u, x = c :: u ∧ c ≠ '(' ∧ c ≠ '-' := by
    cases hx with
    | @str k x hs =>
      cases hs with
      | cooked => cases k <;> exact ⟨_, _, rfl, by decide, by decide⟩
      | raw => cases k <;> exact ⟨_, _, rfl, by decide, by decide⟩
    | byte => exact ⟨_, _, rfl, by decide, by decide⟩
    | char => exact ⟨_, _, rfl, by decide, by decide⟩
  obtain ⟨c, u, hc, hp, hm⟩ := hhead
  refine ⟨⟨span, h1⟩, ?_⟩
  have hne : x ≠ "(/*ERROR*/)".toList := by
    rw [hc]; intro e
    have := congrArg List.head? e
    simp at this
    exact hp this
  rcases (C25_accepts_iff h hr hne).mp ⟨_, h1⟩ with h2 | ⟨d, v, sp, e, -⟩
  · exact h2
  · rw [hc] at e; simp at e; exact absurd e.1 hm

/-- **C18.** `Literal::string` writes a literal that lexes as itself, and whose value is the string. -/
theorem C18_string (s : List Char) : LexesAlone (litString s) ∧ strValue (litString s) = .ok s :=
  ⟨quoted_alone (.str (litString_value s).1), (C28_str _ _).mpr (litString_value s).2⟩

/-- **C19.** `Literal::byte_string`. -/
theorem C19_byte_string (bs : List UInt8) :
    LexesAlone (litByteString bs) ∧ byteStrValue (litByteString bs) = .ok bs :=
  ⟨quoted_alone (.str (litByteString_value bs).1), (C28_byte_str _ _).mpr (litByteString_value bs).2⟩

/-- **C20.** `Literal::c_string`: for every sequence of non-NUL bytes, valid UTF-8 or not. -/
theorem C20_c_string (bs : List UInt8) (hz : (0 : UInt8) ∉ bs) :
    ∃ x, litCString bs = .ok x ∧ LexesAlone x ∧ cstrValue x = .ok (bs ++ [0]) := by
  obtain ⟨x, h1, h2, h3⟩ := litCString_value bs hz
  exact ⟨x, h1, quoted_alone (.str h2), (C28_cstr _ _).mpr ⟨bs, h3, rfl⟩⟩

/-- **C21.** `Literal::character`: the text between the quotes unescapes to the character. -/
theorem C21_character (c : Char) : LexesAlone (litCharacter c) ∧
    ∃ e, litCharacter c = '\'' :: e ++ ['\''] ∧ unescapeChar e = .ok c := by
  obtain ⟨e, h1, h2, h3⟩ := litCharacter_value c
  exact ⟨by rw [h1]; exact quoted_alone (.char h2), e, h1, (unescapeChar_iff e c).mpr h3⟩

/-- **C22.** `Literal::byte_character`. -/
theorem C22_byte_character (b : UInt8) : LexesAlone (litByteCharacter b) ∧
    ∃ e, litByteCharacter b = 'b' :: '\'' :: e ++ ['\''] ∧ unescapeByte e = .ok b := by
  obtain ⟨e, h1, h2, h3⟩ := litByteCharacter_value b
  exact ⟨by rw [h1]; exact quoted_alone (.byte h2), e, h1, (unescapeByte_iff e b).mpr h3⟩

end

/-! ### C62: character and byte literals -/

/-- **C62**, `unescape_char`: it succeeds on exactly the texts that stand for one character. -/
theorem C62_char (e : List Char) (c : Char) :
    unescapeChar e = .ok c ↔ UnitMeans .str e (String.utf8EncodeChar c) :=
  unescapeChar_iff e c

/-- **C62**, `unescape_byte`. -/
theorem C62_byte (e : List Char) (b : UInt8) : unescapeByte e = .ok b ↔ UnitMeans .byte e [b] :=
  unescapeByte_iff e b

/-- **C62**: what the lexer accepts between the quotes of a character literal unescapes, unless it is a
quote, line feed, carriage return or tab written as itself. -/
theorem C62_char_accepted {e : List Char} (h : CharElem e)
    (hx : e ∉ [['\''], ['\n'], ['\r'], ['\t']]) : ∃ c, unescapeChar e = .ok c := by
  cases h with
  | @char c h1 =>
    refine ⟨c, (C62_char _ _).mpr (.char ?_ trivial)⟩
    simp at hx ⊢
    exact ⟨hx.1, h1, hx.2.1, hx.2.2.1, hx.2.2.2⟩
  | @simple c hc =>
    simp only [List.mem_cons, List.not_mem_nil, or_false] at hc
    rcases hc with rfl | rfl | rfl | rfl | rfl | rfl | rfl <;> exact ⟨_, rfl⟩
  | @hex a b ha hb =>
    obtain ⟨g1, g2⟩ := lowHex ha
    have := hexDigitVal_lt hb
    have hlt : hexNumber [a, b] < 128 := by rw [hexNumber_two]; omega
    refine ⟨Char.ofNat (hexNumber [a, b]), (C62_char _ _).mpr ?_⟩
    rw [encode_ofNat hlt]
    exact .esc (.hex g1 hb (fun _ => hlt) (by simp))
  | uni hu => exact ⟨_, (C62_char _ _).mpr (.esc (.uni (by decide) hu (by simp)))⟩

/-- **C62**: the same for byte literals. -/
theorem C62_byte_accepted {e : List Char} (h : ByteElem e)
    (hx : e ∉ [['\''], ['\n'], ['\r'], ['\t']]) : ∃ b, unescapeByte e = .ok b := by
  cases h with
  | @char c h1 h2 =>
    refine ⟨B c, (C62_byte _ _).mpr ?_⟩
    rw [← encode_ascii h2]
    refine .char ?_ h2
    simp at hx ⊢
    exact ⟨hx.1, h1, hx.2.1, hx.2.2.1, hx.2.2.2⟩
  | @simple c hc =>
    simp only [List.mem_cons, List.not_mem_nil, or_false] at hc
    rcases hc with rfl | rfl | rfl | rfl | rfl | rfl | rfl <;> exact ⟨_, rfl⟩
  | @hex a b ha hb => exact ⟨_, (C62_byte _ _).mpr (.esc (.hex ha hb (by simp) (by simp)))⟩

/-! ### C59: the reported ranges -/

/-- `Cover k bytes n t cs`: the text `t`, standing at byte offset `n`, splits into line continuations (a
backslash, a line feed, and all whitespace that follows) and nonempty pieces, and the calls `cs` are
those of the pieces, in order, each with the byte range of its piece. A call without error has the
meaning of its piece; a call with an error stands where no piece with a meaning begins. -/
inductive Cover {U : Type} (k : StrKind) (bytes : U → List UInt8) :
    Nat → List Char → List (Call U) → Prop
  | nil {n} : Cover k bytes n [] []
  | ok {n p t u cs} : Piece k p (bytes u) → Cover k bytes (n + strLen p) t cs →
      Cover k bytes n (p ++ t) (⟨n, n + strLen p, .ok u⟩ :: cs)
  | error {n p t e cs} : p ≠ [] → ¬ ['\\', '\n'] <+: p ++ t →
      (∀ q r m, p ++ t = q ++ r → ¬ Piece k q m) → Cover k bytes (n + strLen p) t cs →
      Cover k bytes n (p ++ t) (⟨n, n + strLen p, .error e⟩ :: cs)
  | cont {n w t cs} : (∀ c ∈ w, ContSpace c) → (∀ c t', t = c :: t' → ¬ ContSpace c) →
      Cover k bytes (n + 2 + strLen w) t cs → Cover k bytes n ('\\' :: '\n' :: w ++ t) cs

/-- The call reports a warning. -/
def isWarning {U : Type} (c : Call U) : Bool :=
  match c.res with
  | .error e => !e.isFatal
  | .ok _ => false

/-- The bytes from `a` to `b` of the text are the characters `y`. -/
def RangeIs (src : List Char) (a b : Nat) (y : List Char) : Prop :=
  ∃ x z, src = x ++ y ++ z ∧ a = strLen x ∧ b = strLen (x ++ y)

section
variable {U : Type} {k : StrKind} {I : Unescape U} {bytes : U → List UInt8}

theorem unit1_ok_exact (L : LawfulUnescape k I bytes) {c : Char} {p t : List Char} {u : U}
    (h : unit1 I c (p ++ t) = (.ok u, t)) : Piece k (c :: p) (bytes u) := by
  obtain ⟨p', e, hp⟩ := unit1_sound L h
  rw [List.append_cancel_right e]
  exact hp

theorem runs_cover (L : LawfulUnescape k I bytes) {n : Nat} {s : List Char} {cs : List (Call U)}
    (h : Runs I n s cs) : Cover k bytes n s (cs.filter (fun c => !isWarning c)) := by
  induction h with
  | nil => exact .nil
  | @cont n w t cs h1 h2 _ ih =>
    have hw : (skipAsciiWhitespace (U := U) (w ++ t) n).1.filter (fun c => !isWarning c) = [] := by
      rw [List.filter_eq_nil_iff]
      intro c hc
      obtain ⟨e, he, hf⟩ := skip_warnings c hc
      simp [isWarning, he, hf]
    rw [List.filter_append, hw, List.nil_append]
    exact .cont (fun c hc => isSkipped_iff.mp (h1 c hc))
      (fun c t' ht hcs => by have := h2 c t' ht; rw [isSkipped_iff.mpr hcs] at this; simp at this) ih
  | @unit n c p t res cs h1 h2 _ ih =>
    have : isWarning (⟨n, n + strLen (c :: p), res⟩ : Call U) = false := by
      unfold isWarning
      cases res with
      | ok => rfl
      | error e => simp [unit1_fatal L h2]
    rw [List.filter_cons]
    simp only [this, Bool.not_false, if_true]
    cases res with
    | ok u => exact .ok (unit1_ok_exact L h2) ih
    | error e =>
      refine .error (by simp) ?_ ?_ ih
      · rintro ⟨r, hr⟩
        simp only [List.cons_append, List.nil_append, List.cons.injEq] at hr
        exact h1 ⟨hr.1.symm, startsWithChar_nl.mpr ⟨r, hr.2.symm⟩⟩
      · intro q r m hq hp
        cases q with
        | nil => exact piece_ne_nil hp rfl
        | cons d q =>
          simp only [List.cons_append, List.cons.injEq] at hq
          obtain ⟨rfl, hq⟩ := hq
          obtain ⟨u, hu, -⟩ := unit1_complete L hp r
          rw [← hq, h2] at hu
          simp at hu

theorem runs_ranges (L : LawfulUnescape k I bytes) {n : Nat} {s : List Char} {cs : List (Call U)}
    (h : Runs I n s cs) :
    ∀ c ∈ cs, ∃ x y z, s = x ++ y ++ z ∧ c.start = n + strLen x ∧ c.stop = n + strLen (x ++ y) ∧
      (isWarning c = true → ['\\', '\n'] <+: y) := by
  induction h with
  | nil => intro c hc; simp at hc
  | @cont n w t cs h1 h2 _ ih =>
    intro c hc
    have hsz : '\\'.utf8Size = 1 ∧ '\n'.utf8Size = 1 := ⟨rfl, rfl⟩
    rcases List.mem_append.mp hc with hc | hc
    · have hsp : (w ++ t).takeWhile isSkipped = w ∧ (w ++ t).dropWhile isSkipped = t := by
        have e := takeWhile_dropWhile isSkipped (w ++ t)
        exact (split_unique (p := isSkipped) e.symm
          (fun c hc => List.all_eq_true.mp (List.all_takeWhile (p := isSkipped)) c hc)
          (fun c r hr => dropWhile_head hr) h1 h2)
      unfold skipAsciiWhitespace at hc
      simp only [hsp] at hc
      rcases List.mem_append.mp hc with hc | hc
      · split at hc
        · simp at hc; subst hc
          refine ⟨[], '\\' :: '\n' :: w, t, by simp, by simp, ?_, fun _ => ⟨w, rfl⟩⟩
          simp only [List.nil_append, strLen_cons]; omega
        · simp at hc
      · cases t with
        | nil => simp at hc
        | cons d t' =>
          simp only at hc
          split at hc
          · simp at hc; subst hc
            refine ⟨[], '\\' :: '\n' :: w ++ [d], t', by simp, by simp, ?_, fun _ => ⟨w ++ [d], rfl⟩⟩
            simp only [List.nil_append, strLen_cons, strLen_append, strLen_nil, List.cons_append]; omega
          · simp at hc
    · obtain ⟨x, y, z, rfl, g1, g2, g3⟩ := ih c hc
      refine ⟨'\\' :: '\n' :: w ++ x, y, z, by simp, ?_, ?_, g3⟩
      · simp only [strLen_cons, strLen_append, List.cons_append] at g1 g2 ⊢; omega
      · simp only [strLen_cons, strLen_append, List.cons_append] at g1 g2 ⊢; omega
  | @unit n c p t res cs _ h2 _ ih =>
    intro d hd
    rcases List.mem_cons.mp hd with rfl | hd
    · refine ⟨[], c :: p, t, by simp, by simp, by simp, fun hw => ?_⟩
      exfalso
      cases res with
      | ok => simp [isWarning] at hw
      | error e => simp [isWarning, unit1_fatal L h2] at hw
    · obtain ⟨x, y, z, rfl, g1, g2, g3⟩ := ih d hd
      refine ⟨c :: p ++ x, y, z, by simp, ?_, ?_, g3⟩
      · simp only [strLen_cons, strLen_append, List.cons_append] at g1 g2 ⊢; omega
      · simp only [strLen_cons, strLen_append, List.cons_append] at g1 g2 ⊢; omega

theorem unescape_calls {ε : Type} (L : LawfulUnescape k I bytes) (s : List Char) :
    ∃ cs, (unescape I s : Res ε _) = .ok cs ∧
      Cover k bytes 0 s (cs.filter (fun c => !isWarning c)) ∧
      ∀ c ∈ cs, isWarning c = true → ∃ y, RangeIs s c.start c.stop y ∧ ['\\', '\n'] <+: y := by
  obtain ⟨cs, h1, h2⟩ := unescape_runs (ε := ε) I s
  refine ⟨cs, h1, runs_cover L h2, fun c hc hw => ?_⟩
  obtain ⟨x, y, z, e, g1, g2, g3⟩ := runs_ranges L h2 c hc
  exact ⟨y, ⟨x, z, e, by simpa using g1, by simpa using g2⟩, g3 hw⟩

end

/-- **C59**: on every text, `unescape_str` reports the pieces of the text in order, with adjacent byte
ranges that cover all of it except line continuations, each with its meaning or with an error where none
begins; warnings are about line continuations. -/
theorem C59_str {ε : Type} (s : List Char) :
    ∃ cs, (unescape unescapeStrImpl s : Res ε _) = .ok cs ∧
      Cover .str String.utf8EncodeChar 0 s (cs.filter (fun c => !isWarning c)) ∧
      ∀ c ∈ cs, isWarning c = true → ∃ y, RangeIs s c.start c.stop y ∧ ['\\', '\n'] <+: y :=
  unescape_calls lawful_str s

/-- **C59**: the same for byte strings. -/
theorem C59_byte_str {ε : Type} (s : List Char) :
    ∃ cs, (unescape unescapeByteImpl s : Res ε _) = .ok cs ∧
      Cover .byte (fun b => [b]) 0 s (cs.filter (fun c => !isWarning c)) ∧
      ∀ c ∈ cs, isWarning c = true → ∃ y, RangeIs s c.start c.stop y ∧ ['\\', '\n'] <+: y :=
  unescape_calls lawful_byte s

/-- **C59**: the same for C strings. -/
theorem C59_cstr {ε : Type} (s : List Char) :
    ∃ cs, (unescape unescapeCImpl s : Res ε _) = .ok cs ∧
      Cover .c MixedUnit.bytes 0 s (cs.filter (fun c => !isWarning c)) ∧
      ∀ c ∈ cs, isWarning c = true → ∃ y, RangeIs s c.start c.stop y ∧ ['\\', '\n'] <+: y :=
  unescape_calls lawful_c s

/-! #### Raw bodies -/

theorem checkRawLoop_spec {ε U : Type} (raw : Char → UnitRes U) (len : Nat) :
    ∀ s : List Char, strLen s ≤ len → ∃ cs, (checkRawLoop raw len s : Res ε _) = .ok cs ∧
      cs.length = s.length ∧
      ∀ (i : Nat) (hi : i < s.length) (hc : i < cs.length),
        cs[i].start = len - strLen s + strLen (s.take i) ∧
        cs[i].stop = len - strLen s + strLen (s.take (i + 1)) ∧
        cs[i].res = if s[i] = '\r' then .error .bareCarriageReturnInRawString else raw s[i] := by
  intro s
  induction s with
  | nil => intro _; exact ⟨[], rfl, rfl, fun i hi => by simp at hi⟩
  | cons c s ih =>
    intro hl
    rw [strLen_cons] at hl
    obtain ⟨cs, h1, h2, h3⟩ := ih (by omega)
    refine ⟨⟨len - strLen s - c.utf8Size, len - strLen s,
      if c = '\r' then .error .bareCarriageReturnInRawString else raw c⟩ :: cs, ?_, ?_, ?_⟩
    · simp only [checkRawLoop, subUsize_ok (show strLen s ≤ len by omega), Res.ok_bind,
        subUsize_ok (show c.utf8Size ≤ len - strLen s by omega), h1]
    · simp [h2]
    · intro i hi hc
      cases i with
      | zero => simp [strLen_cons]; omega
      | succ i =>
        simp only [List.length_cons] at hi hc
        obtain ⟨g1, g2, g3⟩ := h3 i (by omega) (by omega)
        simp only [List.getElem_cons_succ, List.take_succ_cons, strLen_cons]
        refine ⟨by omega, by omega, g3⟩

/-- **C59**: on every text, `check_raw` reports each character once, in order, with its byte range; a
carriage return is reported as an error, any other character as what the kind of literal makes of it. -/
theorem C59_raw {ε U : Type} (raw : Char → UnitRes U) (s : List Char) :
    ∃ cs, (checkRaw raw s : Res ε _) = .ok cs ∧ cs.length = s.length ∧
      ∀ (i : Nat) (hi : i < s.length) (hc : i < cs.length),
        cs[i].start = strLen (s.take i) ∧ cs[i].stop = strLen (s.take (i + 1)) ∧
        cs[i].res = if s[i] = '\r' then .error .bareCarriageReturnInRawString else raw s[i] := by
  obtain ⟨cs, h1, h2, h3⟩ := checkRawLoop_spec (ε := ε) raw (strLen s) s (Nat.le_refl _)
  refine ⟨cs, h1, h2, fun i hi hc => ?_⟩
  obtain ⟨g1, g2, g3⟩ := h3 i hi hc
  exact ⟨by omega, by omega, g3⟩

/-! #### `check_for_errors` -/

/-- A character that a raw literal of the kind may contain. -/
def RawOk : StrKind → Char → Prop
  | .str, c => c ≠ '\r'
  | .byte, c => c ≠ '\r' ∧ c.toNat < 128
  | .c, c => c ≠ '\r' ∧ c ≠ '\x00'

/-- What each mode accepts. -/
def Accepts (s : List Char) : Mode → Prop
  | .char => ∃ m, UnitMeans .str s m
  | .byte => ∃ m, UnitMeans .byte s m
  | .str => ∃ m, Means .str s m
  | .byteStr => ∃ m, Means .byte s m
  | .cStr => ∃ m, Means .c s m
  | .rawStr => ∀ c ∈ s, RawOk .str c
  | .rawByteStr => ∀ c ∈ s, RawOk .byte c
  | .rawCStr => ∀ c ∈ s, RawOk .c c

theorem mem_errorCalls {U : Type} {cs : List (Call U)} {x : Nat × Nat × EscapeError} :
    x ∈ errorCalls cs ↔ ∃ c ∈ cs, c.start = x.1 ∧ c.stop = x.2.1 ∧ c.res = .error x.2.2 := by
  unfold errorCalls
  rw [List.mem_filterMap]
  constructor
  · rintro ⟨c, hc, h⟩
    split at h
    · simp at h; subst h; exact ⟨c, hc, rfl, rfl, by assumption⟩
    · simp at h
  · rintro ⟨c, hc, h1, h2, h3⟩
    refine ⟨c, hc, ?_⟩
    rw [h3, h1, h2]

theorem check_cooked {U : Type} {k : StrKind} {I : Unescape U} {bytes : U → List UInt8} {ε : Type}
    (L : LawfulUnescape k I bytes) (s : List Char) :
    ∃ es, (do .ok (errorCalls (← unescape I s)) : Res ε _) = .ok es ∧
      (∀ e ∈ es, ∃ y, RangeIs s e.1 e.2.1 y) ∧
      ((∀ e ∈ es, e.2.2.isFatal = false) ↔ ∃ m, Means k s m) := by
  obtain ⟨cs, h1, h2⟩ := unescape_runs (ε := ε) I s
  refine ⟨errorCalls cs, by rw [h1]; rfl, ?_, ?_, ?_⟩
  · intro e he
    obtain ⟨c, hc, g1, g2, -⟩ := mem_errorCalls.mp he
    obtain ⟨x, y, z, e', k1, k2, -⟩ := runs_ranges L h2 c hc
    exact ⟨y, x, z, e', by rw [← g1]; simpa using k1, by rw [← g2]; simpa using k2⟩
  · intro h
    exact ⟨_, h2.sound L (fun c hc e he => h (c.start, c.stop, e) (mem_errorCalls.mpr ⟨c, hc, rfl, rfl, he⟩))⟩
  · rintro ⟨m, hm⟩ e he
    obtain ⟨c, hc, -, -, g3⟩ := mem_errorCalls.mp he
    exact (h2.complete L hm).1 c hc _ g3

theorem check_raw {U : Type} {k : StrKind} {raw : Char → UnitRes U} {ε : Type}
    (hraw : ∀ c, c ≠ '\r' → ((∃ u, raw c = .ok u) ↔ RawOk k c))
    (hf : ∀ c e, raw c = .error e → e.isFatal = true) (hcr : ¬ RawOk k '\r') (s : List Char) :
    ∃ es, (do .ok (errorCalls (← checkRaw raw s)) : Res ε _) = .ok es ∧
      (∀ e ∈ es, ∃ y, RangeIs s e.1 e.2.1 y) ∧
      ((∀ e ∈ es, e.2.2.isFatal = false) ↔ ∀ c ∈ s, RawOk k c) := by
  obtain ⟨cs, h1, h2, h3⟩ := C59_raw (ε := ε) raw s
  have hfat : ∀ (i : Nat) (hi : i < s.length) (e : EscapeError),
      (if s[i] = '\r' then .error .bareCarriageReturnInRawString else raw s[i]) = .error e →
      e.isFatal = true := by
    intro i hi e he
    split at he
    · simp at he; subst he; rfl
    · exact hf _ _ he
  refine ⟨errorCalls cs, by rw [h1]; rfl, ?_, ?_, ?_⟩
  · intro e he
    obtain ⟨c, hc, g1, g2, -⟩ := mem_errorCalls.mp he
    obtain ⟨i, hi, rfl⟩ := List.getElem_of_mem hc
    obtain ⟨k1, k2, -⟩ := h3 i (by omega) hi
    refine ⟨[s[i]], s.take i, s.drop (i + 1), ?_, by rw [← g1, k1], ?_⟩
    · simp
    · rw [← g2, k2, List.take_succ_eq_append_getElem (by omega)]
  · intro h c hc
    obtain ⟨i, hi, rfl⟩ := List.getElem_of_mem hc
    obtain ⟨-, -, k3⟩ := h3 i hi (by omega)
    cases hr : cs[i].res with
    | error e =>
      have := h (cs[i].start, cs[i].stop, e) (mem_errorCalls.mpr ⟨_, List.getElem_mem _, rfl, rfl, hr⟩)
      rw [hr] at k3
      rw [hfat i hi e k3.symm] at this
      simp at this
    | ok u =>
      rw [hr] at k3
      split at k3
      · simp at k3
      · rename_i hne
        exact (hraw _ hne).mp ⟨u, k3.symm⟩
  · intro h e he
    exfalso
    obtain ⟨c, hc, -, -, g3⟩ := mem_errorCalls.mp he
    obtain ⟨i, hi, rfl⟩ := List.getElem_of_mem hc
    obtain ⟨-, -, k3⟩ := h3 i (by omega) hi
    have hok := h s[i] (List.getElem_mem _)
    rw [g3] at k3
    split at k3
    · rename_i hr; rw [hr] at hok; exact hcr hok
    · rename_i hne
      obtain ⟨u, hu⟩ := (hraw _ hne).mpr hok
      rw [hu] at k3
      simp at k3

theorem check_single {U : Type} {k : StrKind} {I : Unescape U} {bytes : U → List UInt8} {ε : Type}
    (L : LawfulUnescape k I bytes) (s : List Char) :
    ∃ es, (checkSingle I s : Res ε _) = .ok es ∧
      (∀ e ∈ es, ∃ y, RangeIs s e.1 e.2.1 y) ∧
      ((∀ e ∈ es, e.2.2.isFatal = false) ↔ ∃ m, UnitMeans k s m) := by
  generalize hx : unescapeSingle I s = x
  obtain ⟨res, rest⟩ := x
  cases res with
  | ok u =>
    refine ⟨[], by simp [checkSingle, hx], by simp, ?_⟩
    have := unescapeSingle_sound L (e := s) (u := u) (by rw [hx])
    exact ⟨fun _ => ⟨_, this⟩, fun _ => by simp⟩
  | error e =>
    obtain ⟨y, hy⟩ : rest <:+ s := by have := unescapeSingle_suffix I s; rwa [hx] at this
    have hle : strLen rest ≤ strLen s := by rw [← hy, strLen_append]; omega
    refine ⟨[(0, strLen s - strLen rest, e)], ?_, ?_, ?_⟩
    · simp only [checkSingle, hx, subUsize_ok hle, Res.ok_bind]
    · intro x hx
      simp at hx; subst hx
      refine ⟨y, [], rest, by simp [hy], rfl, ?_⟩
      simp only [List.nil_append]
      rw [← hy, strLen_append]; omega
    · have hfat := unescapeSingle_fatal L hx
      constructor
      · intro h
        have := h _ (List.mem_singleton_self _)
        simp [hfat] at this
      · rintro ⟨m, hm⟩
        obtain ⟨u, hu, -⟩ := unescapeSingle_complete L hm
        rw [hx] at hu
        simp at hu

/-- **C59**, `check_for_errors`: in every mode and on every text it returns, each error range lies in the
text on character boundaries, and an error other than a warning is reported exactly if the text has no
meaning in the mode. -/
theorem C59_check {ε : Type} (s : List Char) (mode : Mode) :
    ∃ es, (checkForErrors s mode : Res ε _) = .ok es ∧
      (∀ e ∈ es, ∃ y, RangeIs s e.1 e.2.1 y) ∧
      ((∀ e ∈ es, e.2.2.isFatal = false) ↔ Accepts s mode) := by
  cases mode with
  | char => exact check_single lawful_str s
  | byte => exact check_single lawful_byte s
  | str => exact check_cooked lawful_str s
  | byteStr => exact check_cooked lawful_byte s
  | cStr => exact check_cooked lawful_c s
  | rawStr =>
    refine check_raw (k := .str) (fun c hc => ?_) (fun c e h => ?_) ?_ s
    · simp [char2rawStr, RawOk, hc]
    · simp [char2rawStr] at h
    · simp [RawOk]
  | rawByteStr =>
    refine check_raw (k := .byte) (fun c hc => ?_) (fun c e h => ?_) ?_ s
    · simp only [char2rawByte, char2byte, RawOk]
      split <;> simp [hc] <;> omega
    · simp only [char2rawByte, char2byte] at h
      split at h
      · simp at h
      · simp at h; subst h; rfl
    · simp [RawOk]
  | rawCStr =>
    refine check_raw (k := .c) (fun c hc => ?_) (fun c e h => ?_) ?_ s
    · simp only [char2rawC, RawOk]
      split <;> simp_all
    · simp only [char2rawC] at h
      split at h
      · simp at h; subst h; rfl
      · simp at h
    · simp [RawOk]

/-! ### Concrete cases -/
section Examples
attribute [local instance] sampleTables
attribute [local instance] sampleTables_lawful

/-- an escaped quote, a hexadecimal and a Unicode escape, and a line continuation -/
def sampleCooked : List Char := "\"a\\\"\\x41\\u{00_e9}\\\n \t z\"".toList

example : strValue sampleCooked = .ok "a\"Aéz".toList := by decide +kernel
example : HasValue .str sampleCooked (bytesOf "a\"Aéz".toList) := (C28_str _ _).mp (by decide +kernel)
example : byteStrValue sampleCooked = .err .invalidLiteralKind := by decide +kernel
example : byteStrValue "b\"\\xff\"".toList = .ok [255] := by decide +kernel
example : cstrValue "cr#\"a\"b\"#".toList = .ok [97, 34, 98, 0] := by decide +kernel
example : cstrValue "c\"a\\0\"".toList = .err (.failedToUnescape .nulInCStr) := by decide +kernel
example : strValue "\"\\xff\"".toList = .err (.failedToUnescape .outOfRangeHexEscape) := by decide +kernel

example : OfKind .byte "b\"\\q\"".toList := .inl ⟨"\\q".toList, by decide +kernel⟩
example : OfKind .str "r##\"x\"##".toList := .inr ⟨2, ['x'], by decide +kernel⟩

/-- The hypotheses of C26: an accepted literal. -/
example : (Literal.fromStr SourceMap.init sampleCooked).2 = .ok (sampleCooked, ⟨1, 25⟩) := by
  decide +kernel
example : '\r' ∉ sampleCooked := by decide
example : Unsuffixed sampleCooked := .inl (by decide +kernel)

/-- C26 needs the absence of carriage returns: the lexer accepts a line break written CR LF inside the
quotes, and `str_value` refuses it. -/
example : (Literal.fromStr SourceMap.init "\"a\r\nb\"".toList).2 = .ok ("\"a\r\nb\"".toList, ⟨1, 7⟩) ∧
    strValue "\"a\r\nb\"".toList = .err (.failedToUnescape .bareCarriageReturn) := by decide +kernel

/-- C26 needs the absence of a suffix. -/
example : (Literal.fromStr SourceMap.init "\"a\"x".toList).2 = .ok ("\"a\"x".toList, ⟨1, 5⟩) ∧
    strValue "\"a\"x".toList = .err .invalidLiteralKind := by decide +kernel

example : litString "a\"\n'\x00é".toList = "\"a\\\"\\n'\\0é\"".toList := by decide +kernel
example : strValue (litString "a\"\n'\x00€".toList) = .ok "a\"\n'\x00€".toList := (C18_string _).2
example : litByteString [0, 49, 255, 34] = "b\"\\x001\\xFF\\\"\"".toList := by decide +kernel
example : litCString [0xff, 0xc3, 0xa9, 10] = .ok "c\"\\xFFé\\n\"".toList := by decide +kernel
example : ∀ b ∈ ([0xff, 0xc3, 0xa9, 10] : List UInt8), b ≠ 0 := by decide
example : litCharacter '\'' = "'\\''".toList ∧ litCharacter '"' = "'\"'".toList := by decide +kernel
example : litByteCharacter 39 = "b'\\''".toList ∧ litByteCharacter 200 = "b'\\xC8'".toList := by
  decide +kernel

example : unescapeChar "\\u{1F6_00}".toList = .ok '😀' := by decide +kernel
example : unescapeByte "\\xfe".toList = .ok 254 := by decide +kernel
example : CharElem ['é'] := .char (by decide)
example : ['é'] ∉ [['\''], ['\n'], ['\r'], ['\t']] := by decide

/-- C62 needs its exception: the lexer accepts a quote between quotes, `unescape_char` does not. -/
example : (Literal.fromStr SourceMap.init ['\'', '\'', '\'']).2 = .ok (['\'', '\'', '\''], ⟨1, 4⟩) ∧
    unescapeChar ['\''] = .error .escapeOnlyChar := by decide +kernel

/-- The calls for a text with an error and a line continuation over several lines. -/
example : (do .ok ((← unescape unescapeByteImpl "é\\q\\\n \n\\u{e9}x".toList).map
      (fun c => (c.start, c.stop, c.res))) : Res Unit _) = .ok
    [(0, 2, .error .nonAsciiCharInByte), (2, 4, .error .invalidEscape),
     (4, 8, .error .multipleSkippedLinesWarning), (8, 14, .error .unicodeEscapeInByte),
     (14, 15, .ok 120)] := by decide +kernel

example : (checkForErrors "a\ré".toList .rawByteStr : Res Unit _) = .ok
    [(1, 2, .bareCarriageReturnInRawString), (2, 4, .nonAsciiCharInByte)] := by decide +kernel
example : (checkForErrors "ab".toList .char : Res Unit _) = .ok [(0, 2, .moreThanOneChar)] := by
  decide +kernel
example : Accepts "\\x7f".toList .char := ⟨_, (C62_char _ '\x7f').mp (by decide +kernel)⟩

end Examples
end PM2.Props
