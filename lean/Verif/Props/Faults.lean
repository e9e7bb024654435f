import Verif.Proof.Fault
import Verif.Props.Values
import Verif.Props.Grammar
/-! # C72–C74: what is reported about literals without a meaning -/

set_option linter.unusedSectionVars false

namespace PM2.Props
open Spec

/-! ### C72: the reports -/

/-- **C72**, `unescape_str`: on every text its calls are the reports of the specification, and no
others: every range, meaning, kind of error, extent of an error, and warning. -/
theorem C72_str {ε : Type} (s : List Char) :
    ∃ cs, (unescapeStr s : Res ε _) = .ok cs ∧
      ∀ rs, Reports .str 0 s rs ↔ rs = cs.map (Call.report String.utf8EncodeChar) :=
  unescape_reports lawful_str faultLaws_str s

/-- **C72**, `unescape_byte_str`. -/
theorem C72_byte_str {ε : Type} (s : List Char) :
    ∃ cs, (unescapeByteStr s : Res ε _) = .ok cs ∧
      ∀ rs, Reports .byte 0 s rs ↔ rs = cs.map (Call.report (fun b => [b])) :=
  unescape_reports lawful_byte faultLaws_byte s

/-- **C72**, `unescape_c_str`. -/
theorem C72_cstr {ε : Type} (s : List Char) :
    ∃ cs, (unescapeCStr s : Res ε _) = .ok cs ∧
      ∀ rs, Reports .c 0 s rs ↔ rs = cs.map (Call.report MixedUnit.bytes) :=
  unescape_reports lawful_c faultLaws_c s

/-- **C72**, `check_raw_str`. -/
theorem C72_raw_str {ε : Type} (s : List Char) :
    ∃ cs, (checkRawStr s : Res ε _) = .ok cs ∧
      ∀ rs, RawReports .str 0 s rs ↔ rs = cs.map (Call.report String.utf8EncodeChar) :=
  checkRaw_reports rawLaw_str s

/-- **C72**, `check_raw_byte_str`. -/
theorem C72_raw_byte_str {ε : Type} (s : List Char) :
    ∃ cs, (checkRawByteStr s : Res ε _) = .ok cs ∧
      ∀ rs, RawReports .byte 0 s rs ↔ rs = cs.map (Call.report (fun b => [b])) :=
  checkRaw_reports rawLaw_byte s

/-- **C72**, `check_raw_c_str`. -/
theorem C72_raw_cstr {ε : Type} (s : List Char) :
    ∃ cs, (checkRawCStr s : Res ε _) = .ok cs ∧
      ∀ rs, RawReports .c 0 s rs ↔ rs = cs.map (Call.report String.utf8EncodeChar) :=
  checkRaw_reports rawLaw_c s

/-- **C72**, `unescape_char`: the error of every text that is not one character. -/
theorem C72_char (s : List Char) (e : EscapeError) :
    unescapeChar s = .error e ↔ ∃ p r, s = p ++ r ∧ UnitFault .str p r e :=
  unitFault_iff lawful_str faultLaws_str s e

/-- **C72**, `unescape_byte`. -/
theorem C72_byte (s : List Char) (e : EscapeError) :
    unescapeByte s = .error e ↔ ∃ p r, s = p ++ r ∧ UnitFault .byte p r e :=
  unitFault_iff lawful_byte faultLaws_byte s e

theorem check_iff {ε U : Type} {bytes : U → List UInt8} {cs : List (Call U)}
    {m : Res ε (List (Call U))} {R : List Report → Prop} (h : m = .ok cs)
    (hr : ∀ rs, R rs ↔ rs = cs.map (Call.report bytes)) (es : List (Nat × Nat × EscapeError)) :
    (do .ok (errorCalls (← m)) : Res ε _) = .ok es ↔ ∃ rs, R rs ∧ es = errorsOf rs := by
  rw [h]
  show Res.ok (errorCalls cs) = .ok es ↔ _
  rw [Res.ok.injEq, errorCalls_report (bytes := bytes)]
  constructor
  · rintro rfl; exact ⟨_, (hr _).mpr rfl, rfl⟩
  · rintro ⟨rs, h1, rfl⟩; rw [(hr rs).mp h1]

/-- **C72**, `check_for_errors`: in every mode and on every text, the errors and warnings with their
ranges are those of the specification. -/
theorem C72_check {ε : Type} (s : List Char) (es : List (Nat × Nat × EscapeError)) (mode : Mode) :
    (checkForErrors s mode : Res ε _) = .ok es ↔ ModeErrors s es mode := by
  cases mode with
  | char => exact checkSingle_iff lawful_str faultLaws_str s es
  | byte => exact checkSingle_iff lawful_byte faultLaws_byte s es
  | str => obtain ⟨cs, h1, h2⟩ := C72_str (ε := ε) s; exact check_iff h1 h2 es
  | byteStr => obtain ⟨cs, h1, h2⟩ := C72_byte_str (ε := ε) s; exact check_iff h1 h2 es
  | cStr => obtain ⟨cs, h1, h2⟩ := C72_cstr (ε := ε) s; exact check_iff h1 h2 es
  | rawStr => obtain ⟨cs, h1, h2⟩ := C72_raw_str (ε := ε) s; exact check_iff h1 h2 es
  | rawByteStr => obtain ⟨cs, h1, h2⟩ := C72_raw_byte_str (ε := ε) s; exact check_iff h1 h2 es
  | rawCStr => obtain ⟨cs, h1, h2⟩ := C72_raw_cstr (ε := ε) s; exact check_iff h1 h2 es

/-! ### C73: the errors of the accessors -/

/-- `LastError k t e`: among the reports about `t`, the last that is an error and not a warning is `e`. -/
def LastError (k : StrKind) (t : List Char) (e : EscapeError) : Prop :=
  ∃ rs a b pre post, Reports k 0 t rs ∧ errorsOf rs = pre ++ (a, b, e) :: post ∧ e.isFatal = true ∧
    ∀ x ∈ post, x.2.2.isFatal = false

theorem last_filter {es : List (Nat × Nat × EscapeError)} {e : EscapeError} :
    (es.filter (fun x => x.2.2.isFatal)).getLast?.map (·.2.2) = some e ↔
      ∃ a b pre post, es = pre ++ (a, b, e) :: post ∧ e.isFatal = true ∧ ∀ x ∈ post, x.2.2.isFatal = false := by
  constructor
  · intro h
    rw [Option.map_eq_some_iff] at h
    obtain ⟨⟨a, b, e'⟩, h, rfl⟩ := h
    obtain ⟨l, hl⟩ := List.getLast?_eq_some_iff.mp h
    obtain ⟨l1, l2, rfl, h1, h2⟩ := List.filter_eq_append_iff.mp hl
    obtain ⟨m1, m2, rfl, g1, g2, g3⟩ := List.filter_eq_cons_iff.mp h2
    refine ⟨a, b, l1 ++ m1, m2, by simp, g2, fun x hx => ?_⟩
    have := List.filter_eq_nil_iff.mp g3 x hx
    simpa using this
  · rintro ⟨a, b, pre, post, rfl, h1, h2⟩
    have : post.filter (fun x => x.2.2.isFatal) = [] := by
      rw [List.filter_eq_nil_iff]; intro x hx; simp [h2 x hx]
    rw [List.filter_append, List.filter_cons_of_pos (by simpa using h1), this]
    simp

theorem value_err {U V : Type} {k : StrKind} {I : Unescape U} {bytes : U → List UInt8}
    (L : LawfulUnescape k I bytes) (F : FaultLaws k I) (cooked : List U → V) (raw : List Char → V)
    (x : List Char) :
    (∀ e, valueOf I (kindPrefix k ++ ['"']) (kindPrefix k ++ ['r']) cooked raw x =
        .err (.failedToUnescape e) ↔ ∃ t, x = kindPrefix k ++ '"' :: t ++ ['"'] ∧ LastError k t e) ∧
    (valueOf I (kindPrefix k ++ ['"']) (kindPrefix k ++ ['r']) cooked raw x = .err .invalidLiteralKind ↔
      (∀ t, x ≠ kindPrefix k ++ '"' :: t ++ ['"']) ∧
      ∀ n v, x ≠ kindPrefix k ++ 'r' :: List.replicate n '#' ++ '"' :: v ++ '"' :: List.replicate n '#') := by
  obtain ⟨h1, h2⟩ := valueOf_err L F cooked raw x
  refine ⟨fun e => ?_, h2⟩
  rw [h1 e]
  constructor
  · rintro ⟨t, rs, ht, hr, he⟩
    obtain ⟨a, b, pre, post, g⟩ := last_filter.mp he
    exact ⟨t, ht, rs, a, b, pre, post, hr, g⟩
  · rintro ⟨t, ht, rs, a, b, pre, post, hr, g⟩
    exact ⟨t, rs, ht, hr, last_filter.mpr ⟨a, b, pre, post, g⟩⟩

/-- **C73**, `str_value`: it fails with an unescaping error exactly on texts in double quotes, with the
last error of the text between them, and with `InvalidLiteralKind` exactly on texts that are neither a
cooked nor a raw string literal. -/
theorem C73_str (x : List Char) :
    (∀ e, strValue x = .err (.failedToUnescape e) ↔
      ∃ t, x = kindPrefix .str ++ '"' :: t ++ ['"'] ∧ LastError .str t e) ∧
    (strValue x = .err .invalidLiteralKind ↔ (∀ t, x ≠ kindPrefix .str ++ '"' :: t ++ ['"']) ∧
      ∀ n v, x ≠ kindPrefix .str ++ 'r' :: List.replicate n '#' ++ '"' :: v ++ '"' :: List.replicate n '#') :=
  value_err lawful_str faultLaws_str id id x

/-- **C73**, `byte_str_value`. -/
theorem C73_byte_str (x : List Char) :
    (∀ e, byteStrValue x = .err (.failedToUnescape e) ↔
      ∃ t, x = kindPrefix .byte ++ '"' :: t ++ ['"'] ∧ LastError .byte t e) ∧
    (byteStrValue x = .err .invalidLiteralKind ↔ (∀ t, x ≠ kindPrefix .byte ++ '"' :: t ++ ['"']) ∧
      ∀ n v, x ≠ kindPrefix .byte ++ 'r' :: List.replicate n '#' ++ '"' :: v ++ '"' :: List.replicate n '#') :=
  value_err lawful_byte faultLaws_byte id bytesOf x

/-- **C73**, `cstr_value`. -/
theorem C73_cstr (x : List Char) :
    (∀ e, cstrValue x = .err (.failedToUnescape e) ↔
      ∃ t, x = kindPrefix .c ++ '"' :: t ++ ['"'] ∧ LastError .c t e) ∧
    (cstrValue x = .err .invalidLiteralKind ↔ (∀ t, x ≠ kindPrefix .c ++ '"' :: t ++ ['"']) ∧
      ∀ n v, x ≠ kindPrefix .c ++ 'r' :: List.replicate n '#' ++ '"' :: v ++ '"' :: List.replicate n '#') :=
  value_err lawful_c faultLaws_c _ _ x

/-! ### C74: `check_for_errors` and the lexer -/

/-- The modes of raw literals. -/
def rawModes : List Mode := [.rawStr, .rawByteStr, .rawCStr]

/-- The literal with contents `t`, as the methods of `Mode` spell it; a raw literal without hashes. -/
def modeText (mode : Mode) (t : List Char) : List Char :=
  let q := if mode.inDoubleQuotes then '"' else '\''
  mode.prefixNoraw ++ (if mode ∈ rawModes then ['r'] else []) ++ q :: t ++ [q]

/-- What the grammar of literals has between the quotes in each mode. -/
def ModeBody (t : List Char) : Mode → Prop
  | .char => CharElem t
  | .byte => ByteElem t
  | .str => CookedBody .str t
  | .byteStr => CookedBody .byte t
  | .cStr => CookedBody .c t
  | .rawStr => RawBody .str 0 t
  | .rawByteStr => RawBody .byte 0 t
  | .rawCStr => RawBody .c 0 t

theorem modeText_quoted {mode : Mode} {t : List Char} : QuotedText (modeText mode t) ↔ ModeBody t mode := by
  constructor
  · intro h
    generalize hx : modeText mode t = x at h
    cases h with
    | @str k x hs =>
      cases hs with
      | cooked hb =>
        cases mode <;> cases k <;>
          simp [modeText, Mode.inDoubleQuotes, Mode.prefixNoraw, rawModes, kindPrefix] at hx <;>
          (subst hx; exact hb)
      | @raw n b hn hb =>
        cases mode <;> cases k <;>
          simp [modeText, Mode.inDoubleQuotes, Mode.prefixNoraw, rawModes, kindPrefix] at hx <;>
          cases n <;> simp [List.replicate_succ] at hx <;> (subst hx; exact hb)
    | byte hb =>
      cases mode <;>
          simp [modeText, Mode.inDoubleQuotes, Mode.prefixNoraw, rawModes] at hx <;>
          (subst hx; exact hb)
    | char hb =>
      cases mode <;>
          simp [modeText, Mode.inDoubleQuotes, Mode.prefixNoraw, rawModes] at hx <;>
          (subst hx; exact hb)
  · intro h
    cases mode with
    | char => exact .char h
    | byte => exact .byte h
    | str => exact .str (.cooked (k := .str) h)
    | byteStr => exact .str (.cooked (k := .byte) h)
    | cStr => exact .str (.cooked (k := .c) h)
    | rawStr => exact .str (.raw (k := .str) (n := 0) (by decide) h)
    | rawByteStr => exact .str (.raw (k := .byte) (n := 0) (by decide) h)
    | rawCStr => exact .str (.raw (k := .c) (n := 0) (by decide) h)

theorem rawBody_iff {k : StrKind} {t : List Char} (hcr : '\r' ∉ t) :
    RawBody k 0 t ↔ (∀ c ∈ t, RawOk k c) ∧ '"' ∉ t := by
  have hk : ∀ c, c ≠ '\r' → (RawOk k c ↔ CharOk k c) := by
    intro c hc; cases k <;> simp [RawOk, CharOk, hc]
  constructor
  · intro h
    refine ⟨fun c hc => (hk c (fun e => hcr (e ▸ hc))).mpr (h.chars c hc), fun hq => ?_⟩
    obtain ⟨a, b, rfl⟩ := List.append_of_mem hq
    exact h.noTerm a b rfl (List.nil_prefix)
  · rintro ⟨h1, h2⟩
    refine ⟨fun a b e _ => h2 (by rw [e]; simp), fun a b e => absurd (by rw [e]; simp) hcr,
      fun c hc => (hk c (fun e => hcr (e ▸ hc))).mp (h1 c hc)⟩

/-- Between the quotes, the grammar and the unescaper agree up to characters that must be escaped. -/
theorem modeBody_iff {mode : Mode} {t : List Char} (hcr : '\r' ∉ t) :
    ModeBody t mode ↔ (Accepts t mode ∧ (mode ∈ rawModes → '"' ∉ t)) ∨
      (mode.inDoubleQuotes = false ∧ t ∈ [['\''], ['\n'], ['\t']]) := by
  have cooked : ∀ k, CookedBody k t ↔ ∃ m, Means k t m := fun k =>
    ⟨fun h => h.means hcr, fun ⟨m, h⟩ => h.cooked hcr⟩
  cases mode with
  | str => simpa [ModeBody, Accepts, rawModes, Mode.inDoubleQuotes] using cooked .str
  | byteStr => simpa [ModeBody, Accepts, rawModes, Mode.inDoubleQuotes] using cooked .byte
  | cStr => simpa [ModeBody, Accepts, rawModes, Mode.inDoubleQuotes] using cooked .c
  | rawStr => simpa [ModeBody, Accepts, rawModes, Mode.inDoubleQuotes] using rawBody_iff (k := .str) hcr
  | rawByteStr => simpa [ModeBody, Accepts, rawModes, Mode.inDoubleQuotes] using rawBody_iff (k := .byte) hcr
  | rawCStr => simpa [ModeBody, Accepts, rawModes, Mode.inDoubleQuotes] using rawBody_iff (k := .c) hcr
  | char =>
    have hcr' : t ≠ ['\r'] := by rintro rfl; simp at hcr
    simp only [ModeBody, Accepts, rawModes, Mode.inDoubleQuotes]
    constructor
    · intro h
      by_cases hx : t ∈ [['\''], ['\n'], ['\t']]
      · exact .inr ⟨trivial, hx⟩
      · obtain ⟨c, hc⟩ := C62_char_accepted h (by simp at hx ⊢; simp [hx, hcr'])
        exact .inl ⟨⟨_, (C62_char _ _).mp hc⟩, by simp⟩
    · rintro (⟨⟨m, hm⟩, -⟩ | ⟨-, h⟩)
      · cases hm with
        | char h1 => exact .char (by simp at h1; exact h1.2.1)
        | esc hp => exact charElem_of_piece hp
      · simp only [List.mem_cons, List.not_mem_nil, or_false] at h
        rcases h with rfl | rfl | rfl <;> exact .char (by decide)
  | byte =>
    have hcr' : t ≠ ['\r'] := by rintro rfl; simp at hcr
    simp only [ModeBody, Accepts, rawModes, Mode.inDoubleQuotes]
    constructor
    · intro h
      by_cases hx : t ∈ [['\''], ['\n'], ['\t']]
      · exact .inr ⟨trivial, hx⟩
      · obtain ⟨c, hc⟩ := C62_byte_accepted h (by simp at hx ⊢; simp [hx, hcr'])
        exact .inl ⟨⟨_, (C62_byte _ _).mp hc⟩, by simp⟩
    · rintro (⟨⟨m, hm⟩, -⟩ | ⟨-, h⟩)
      · cases hm with
        | char h1 h2 => exact .char (by simp at h1; exact h1.2.1) h2
        | esc hp => exact byteElem_of_piece hp
      · simp only [List.mem_cons, List.not_mem_nil, or_false] at h
        rcases h with rfl | rfl | rfl <;> exact .char (by decide) (by decide)

section
variable [UnicodeTables] [LawfulUnicode]

theorem modeText_literal {mode : Mode} {t : List Char} :
    WholeLiteral (modeText mode t) ↔ QuotedText (modeText mode t) := by
  have hlast : ∀ q suf, modeText mode t = q ++ suf → QuotedSuffix suf [] → suf = [] := by
    intro q suf e hs
    rcases hs with ⟨h, -⟩ | ⟨⟨c, u, rfl, h1, h2⟩, -⟩
    · exact h
    · exfalso
      have hall : ∀ d ∈ c :: u, isIdentContinue d = true := by
        intro d hd
        rcases List.mem_cons.mp hd with rfl | hd
        · exact identStart_continue h1
        · exact h2 d hd
      have hl : (modeText mode t).getLast? = (c :: u).getLast? := by
        rw [e, List.getLast?_append]; simp [List.getLast?_cons]
      have hq : (modeText mode t).getLast? = some '"' ∨ (modeText mode t).getLast? = some '\'' := by
        unfold modeText
        cases mode.inDoubleQuotes
        · right; rw [List.getLast?_append]; rfl
        · left; rw [List.getLast?_append]; rfl
      rw [hl] at hq
      rcases hq with hq | hq
      · have := (identContinue_facts (hall _ (List.mem_of_getLast? hq))).2 (by decide)
        revert this; decide
      · have := (identContinue_facts (hall _ (List.mem_of_getLast? hq))).2 (by decide)
        revert this; decide
  have hhead : ∃ c u, modeText mode t = c :: u ∧ ¬ DecDigit c ∧ c ≠ '-' := by
    cases mode <;> exact ⟨_, _, rfl, by unfold DecDigit; decide, by decide⟩
  obtain ⟨c, u, hc, hc1, hc2⟩ := hhead
  constructor
  · rintro ((⟨q, suf, e, hq, hs⟩ | h) | ⟨y, hy, -⟩)
    · have := hlast q suf e hs
      subst this
      rw [List.append_nil] at e
      rw [e]; exact hq
    · obtain ⟨d, v, hd, hd'⟩ := number_start h
      rw [hc] at hd
      simp only [List.cons.injEq] at hd
      exact absurd (hd.1 ▸ hd') hc1
    · rw [hc] at hy
      simp only [List.cons.injEq] at hy
      exact absurd hy.1 hc2
  · intro h
    exact .inl (.inl ⟨_, [], by simp, h, .inl ⟨rfl, by simp⟩⟩)

/-- **C74**: for contents without a carriage return, `Literal::from_str` accepts the literal exactly if
`check_for_errors` reports no error in its mode, except that the lexer ends a raw literal at a quote, and
allows a quote, line feed or tab as itself between single quotes. -/
theorem C74_check {ε : Type} {sm : SourceMap} {texts : List (List Char)} (h : History sm texts)
    (mode : Mode) {t : List Char} (hr : Room texts (modeText mode t)) (hcr : '\r' ∉ t) :
    ∃ es, (checkForErrors t mode : Res ε _) = .ok es ∧
      ((∃ l, (Literal.fromStr sm (modeText mode t)).2 = .ok l) ↔
        ((∀ e ∈ es, e.2.2.isFatal = false) ∧ (mode ∈ rawModes → '"' ∉ t)) ∨
        (mode.inDoubleQuotes = false ∧ t ∈ [['\''], ['\n'], ['\t']])) := by
  obtain ⟨es, h1, -, h3⟩ := C59_check (ε := ε) t mode
  refine ⟨es, h1, ?_⟩
  rw [C63_literals h hr, modeText_literal, modeText_quoted, modeBody_iff hcr, h3]

end

/-! ### Concrete cases -/
section Examples

/-- A fault in the middle: the lone surrogate is reported with its whole escape, the rest goes on. -/
example : Reports .str 0 "a\\u{d8_00}b".toList
    [(0, 1, .ok [97]), (1, 10, .error .loneSurrogateUnicodeEscape), (10, 11, .ok [98])] := by
  obtain ⟨cs, h1, h2⟩ := C72_str (ε := Unit) "a\\u{d8_00}b".toList
  refine (h2 _).mpr ?_
  have : (unescapeStr "a\\u{d8_00}b".toList : Res Unit _) = .ok
    [⟨0, 1, .ok 'a'⟩, ⟨1, 10, .error .loneSurrogateUnicodeEscape⟩, ⟨10, 11, .ok 'b'⟩] := by rfl
  rw [this] at h1
  simp only [Res.ok.injEq] at h1
  subst h1; rfl

example : EscFault .str "u{d8_00}".toList ['b'] .loneSurrogateUnicodeEscape :=
  .surrogate (ds := "d8_00".toList) (by decide) ⟨⟨'d', _, rfl, by unfold HexDigit; decide⟩,
    by unfold HexDigit; decide⟩ (by decide) (by decide) (by decide)

/-- Two warnings about one continuation: a second line is skipped, and a form feed is not. -/
example : contWarnings 3 "\n ".toList "\x0cx".toList =
    [(3, 7, .error .multipleSkippedLinesWarning), (3, 8, .error .unskippedWhitespaceWarning)] := by rfl

example : LastError .byte "\\x4\\u{41}é ".toList .nonAsciiCharInByte := by
  obtain ⟨cs, h1, h2⟩ := C72_byte_str (ε := Unit) "\\x4\\u{41}é ".toList
  have : (unescapeByteStr "\\x4\\u{41}é ".toList : Res Unit _) = .ok
    [⟨0, 4, .error .invalidCharInHexEscape⟩, ⟨4, 5, .ok 117⟩, ⟨5, 6, .ok 123⟩, ⟨6, 7, .ok 52⟩,
      ⟨7, 8, .ok 49⟩, ⟨8, 9, .ok 125⟩, ⟨9, 11, .error .nonAsciiCharInByte⟩, ⟨11, 12, .ok 32⟩] := by rfl
  rw [this] at h1
  simp only [Res.ok.injEq] at h1
  subst h1
  exact ⟨_, 9, 11, [(0, 4, .invalidCharInHexEscape)], [], (h2 _).mpr rfl, rfl, rfl, by simp⟩

example : UnitFault .byte "\\x41b".toList ['c'] .moreThanOneChar :=
  .more (x := "\\x41".toList) (.esc (.hex (by unfold HexDigit; decide) (by unfold HexDigit; decide)
    (by simp) (by simp)))

attribute [local instance] sampleTables sampleTables_lawful

example : modeText .rawByteStr ['a'] = "br\"a\"".toList := by decide
example : Room [] (modeText .cStr "\\xff".toList) := by decide

end Examples

end PM2.Props
