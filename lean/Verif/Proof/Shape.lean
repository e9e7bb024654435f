import Verif.Proof.Grammar
import Verif.Proof.Leaves
/-! # Shapes of identifiers and literals -/

set_option linter.unusedSectionVars false

namespace PM2
open Spec

section
variable [UnicodeTables]

theorem identNotRaw_spec {s sym r : List Char} (h : P.identNotRaw s = some (sym, r)) :
    s = sym ++ r ∧ (∃ c t, sym = c :: t ∧ isIdentStart c = true ∧
      ∀ d ∈ t, isIdentContinue d = true) ∧ ∀ c r', r = c :: r' → isIdentContinue c = false := by
  cases s with
  | nil => simp [P.identNotRaw] at h
  | cons c s =>
    simp only [P.identNotRaw] at h
    split at h
    · rename_i hc
      simp at h
      obtain ⟨rfl, rfl⟩ := h
      refine ⟨by simp, ⟨c, _, rfl, hc, ?_⟩, ?_⟩
      · intro d hd; exact List.all_eq_true.mp (List.all_takeWhile) d hd
      · intro c' r' e
        have := List.head?_dropWhile_not isIdentContinue s
        rw [e] at this
        simpa using this
    · simp at h

theorem identAny_spec {s sym r : List Char} {raw : Bool} (h : P.identAny s = some (sym, raw, r)) :
    s = (if raw then ['r', '#'] else []) ++ sym ++ r ∧
    (∃ c t, sym = c :: t ∧ isIdentStart c = true ∧ ∀ d ∈ t, isIdentContinue d = true) ∧
    (∀ c r', r = c :: r' → isIdentContinue c = false) ∧ (raw = true → sym ∉ neverRaw) ∧
    (raw = false → ¬ ['r', '#'] <+: s) := by
  unfold P.identAny at h
  split at h
  · rename_i hp
    obtain ⟨v, rfl⟩ := startsWith_iff.mp hp
    cases hn : P.identNotRaw ((['r', '#'] ++ v).drop 2) with
    | none => rw [hn] at h; simp at h
    | some y =>
      obtain ⟨sym', r'⟩ := y
      rw [hn] at h
      simp only at h
      split at h
      · simp at h
      · rename_i hraw
        simp at h
        obtain ⟨rfl, rfl, rfl⟩ := h
        obtain ⟨e, h1, h2⟩ := identNotRaw_spec hn
        refine ⟨?_, h1, h2, fun _ hm => hraw ?_, by simp⟩
        · simp at e; simp [e]
        · simp [neverRaw] at hm
          unfold isNonRawable
          rcases hm with rfl | rfl | rfl | rfl | rfl <;> decide
  · rename_i hp
    cases hn : P.identNotRaw s with
    | none => rw [hn] at h; simp at h
    | some y =>
      obtain ⟨sym', r'⟩ := y
      rw [hn] at h
      simp at h
      obtain ⟨rfl, rfl, rfl⟩ := h
      obtain ⟨e, h1, h2⟩ := identNotRaw_spec hn
      exact ⟨by simpa using e, h1, h2, by simp, fun _ hpre => hp (startsWith_iff_prefix.mpr hpre)⟩

theorem literalSuffix_spec (s : List Char) : ∃ suf, s = suf ++ P.literalSuffix s ∧ Suffix suf ∧
    (suf ≠ [] → ∀ c r', P.literalSuffix s = c :: r' → isIdentContinue c = false) ∧
    (suf = [] → ∀ c r', P.literalSuffix s = c :: r' → isIdentStart c = false) := by
  unfold P.literalSuffix
  cases hn : P.identNotRaw s with
  | none =>
    refine ⟨[], rfl, .inl rfl, by simp, ?_⟩
    simp only
    rintro - c r' rfl
    cases hc : isIdentStart c with
    | false => rfl
    | true => simp [P.identNotRaw, hc] at hn
  | some y =>
    obtain ⟨sym, r⟩ := y
    obtain ⟨e, h1, h2⟩ := identNotRaw_spec hn
    refine ⟨sym, e, .inr h1, fun _ => h2, ?_⟩
    rintro rfl
    obtain ⟨c, t, e1, -⟩ := h1
    simp at e1

theorem literal_shape {s r : List Char} (h : P.literal s = some r) :
    (∃ x suf, s = x ++ suf ++ r ∧ QuotedText x ∧ Suffix suf) ∨
    ∃ d u, s = d :: u ∧ '0' ≤ d ∧ d ≤ '9' := by
  have hdig : ∀ {c : Char}, isDecDigit c = true → '0' ≤ c ∧ c ≤ '9' := by
    intro c hc; unfold isDecDigit at hc; simpa using hc
  rcases P.literal_cases h with ⟨k, h⟩ | h | h | h | h
  · left
    obtain ⟨m, h1, rfl⟩ := Option.map_eq_some_iff.mp h
    obtain ⟨x, rfl, hx⟩ := P.strBody_iff.mp h1
    obtain ⟨suf, e, hs, -⟩ := literalSuffix_spec m
    exact ⟨x, suf, by rw [List.append_assoc, ← e], .str hx, hs⟩
  · left
    obtain ⟨m, h1, rfl⟩ := Option.map_eq_some_iff.mp h
    obtain ⟨x, rfl, hx⟩ := P.byteBody_iff.mp h1
    obtain ⟨suf, e, hs, -⟩ := literalSuffix_spec m
    exact ⟨_, suf, by rw [List.append_assoc, ← e]; simp, .byte hx, hs⟩
  · left
    obtain ⟨m, h1, rfl⟩ := Option.map_eq_some_iff.mp h
    obtain ⟨x, rfl, hx⟩ := P.charBody_iff.mp h1
    obtain ⟨suf, e, hs, -⟩ := literalSuffix_spec m
    exact ⟨_, suf, by rw [List.append_assoc, ← e]; simp, .char hx, hs⟩
  · right
    obtain ⟨m, h1, -⟩ := Option.bind_eq_some_iff.mp h
    unfold P.floatDigits at h1
    cases s with
    | nil => simp at h1
    | cons d u =>
      simp only at h1
      split at h1
      · rename_i hd; exact ⟨d, u, rfl, hdig hd⟩
      · simp at h1
  · right
    obtain ⟨m, h1, -⟩ := Option.bind_eq_some_iff.mp h
    obtain ⟨c, u, e, hd⟩ := P.digits_head h1
    exact ⟨c, u, e, hdig hd⟩

theorem StrText.start {k : StrKind} {x : List Char} (h : StrText k x) (suf : List Char) :
    StrStart k (x ++ suf) := by
  cases h with
  | @cooked b hb => exact .inl ⟨b ++ ['"'] ++ suf, by simp⟩
  | @raw n b hn hb =>
    cases n with
    | zero => exact .inr (.inl ⟨_, by simp; rfl⟩)
    | succ n => exact .inr (.inr ⟨_, by simp [List.replicate_succ]; rfl⟩)

theorem StrStart.unique {k k' : StrKind} {s : List Char} (h : StrStart k s) (h' : StrStart k' s) :
    k = k' := by
  rcases h with ⟨u, rfl⟩ | ⟨u, rfl⟩ | ⟨u, rfl⟩ <;> rcases h' with ⟨v, hv⟩ | ⟨v, hv⟩ | ⟨v, hv⟩ <;>
    cases k <;> cases k' <;> simp [kindPrefix] at hv ⊢

theorem StrStart.not_digit {k : StrKind} {d : Char} {u : List Char} (h : StrStart k (d :: u)) :
    ¬ ('0' ≤ d ∧ d ≤ '9') ∧ d ≠ '\'' ∧ d ≠ '-' ∧ d ≠ '(' := by
  have : d = '"' ∨ d = 'r' ∨ d = 'b' ∨ d = 'c' := by
    rcases h with ⟨v, hv⟩ | ⟨v, hv⟩ | ⟨v, hv⟩ <;> cases k <;> simp [kindPrefix] at hv <;> simp [← hv.1]
  rcases this with rfl | rfl | rfl | rfl <;> decide

theorem StrStart.not_byte {k : StrKind} {u : List Char} (h : StrStart k ('b' :: '\'' :: u)) :
    False := by
  rcases h with ⟨v, hv⟩ | ⟨v, hv⟩ | ⟨v, hv⟩ <;> cases k <;> simp [kindPrefix] at hv

theorem noBareCr_cons {c : Char} {t : List Char} : NoBareCr (c :: t) ↔
    (c = '\r' → ∃ t', t = '\n' :: t') ∧ NoBareCr t := by
  constructor
  · intro h
    refine ⟨?_, fun a b e => h (c :: a) b (by simp [e])⟩
    rintro rfl; exact h [] t rfl
  · rintro ⟨h1, h2⟩ a b e
    cases a with
    | nil => simp at e; obtain ⟨rfl, rfl⟩ := e; exact h1 rfl
    | cons x a => simp at e; exact h2 a b e.2

theorem noBareCr_append {a b : List Char} (ha : NoBareCr a) (hb : NoBareCr b) :
    NoBareCr (a ++ b) := by
  induction a with
  | nil => exact hb
  | cons c a ih =>
    obtain ⟨h1, h2⟩ := noBareCr_cons.mp ha
    refine noBareCr_cons.mpr ⟨fun hc => ?_, ih h2⟩
    obtain ⟨t', rfl⟩ := h1 hc
    exact ⟨_, rfl⟩

theorem noBareCr_of_not_mem {a : List Char} (h : '\r' ∉ a) : NoBareCr a := by
  intro u v e; rw [e] at h; simp at h

omit [UnicodeTables] in
theorem hexDigit_nat {c : Char} (h : HexDigit c) : 48 ≤ c.toNat ∧ c.toNat ≤ 102 := by
  rcases h with ⟨h1, h2⟩ | ⟨h1, h2⟩ | ⟨h1, h2⟩ <;> simp only [charLe] at h1 h2 <;>
    simp at h1 h2 <;> omega

omit [UnicodeTables] in
theorem cr_nat {c : Char} : c = '\r' ↔ c.toNat = 13 := by
  constructor
  · rintro rfl; rfl
  · intro h; exact Char.toNat_inj.mp h

omit [UnicodeTables] in
theorem charOk_of {k : StrKind} {c : Char} (h1 : 1 ≤ c.toNat) (h2 : c.toNat < 128) : CharOk k c := by
  cases k with
  | str => trivial
  | byte => exact h2
  | c => intro e; rw [e] at h1; exact absurd h1 (by decide)

theorem Esc.chars {k : StrKind} {e : List Char} (h : Esc k e) :
    NoBareCr e ∧ ∀ c ∈ e, 1 ≤ c.toNat ∧ c.toNat < 128 := by
  have hex : ∀ {a b}, (48 ≤ a.toNat ∧ a.toNat ≤ 102) → HexDigit b →
      NoBareCr ['x', a, b] ∧ ∀ c ∈ ['x', a, b], 1 ≤ c.toNat ∧ c.toNat < 128 := by
    intro a b ha hb
    have hb := hexDigit_nat hb
    constructor
    · apply noBareCr_of_not_mem
      intro hm
      simp only [List.mem_cons, List.not_mem_nil, or_false] at hm
      rcases hm with h | h | h
      · exact absurd h (by decide)
      · rw [← h] at ha; exact absurd ha (by decide)
      · rw [← h] at hb; exact absurd hb (by decide)
    · intro c hc
      simp only [List.mem_cons, List.not_mem_nil, or_false] at hc
      rcases hc with rfl | rfl | rfl
      · decide
      · omega
      · omega
  cases h with
  | @simple c hc =>
    have : ∀ c ∈ ['n', 'r', 't', '\\', '\'', '"'], c ≠ '\r' ∧ 1 ≤ c.toNat ∧ c.toNat < 128 := by decide
    obtain ⟨h1, h2⟩ := this c hc
    exact ⟨noBareCr_of_not_mem (by simpa using h1.symm), by simpa using h2⟩
  | zero h => exact ⟨noBareCr_of_not_mem (by decide), by decide⟩
  | @hexStr a b h1 h2 h3 =>
    refine hex ?_ h3
    obtain ⟨h4, h5⟩ := h2
    simp only [charLe] at h4 h5
    have : '0'.toNat = 48 := rfl
    have : '7'.toNat = 55 := rfl
    omega
  | hexByte h1 h2 h3 => exact hex (hexDigit_nat h2) h3
  | hexC h1 h2 h3 h4 => exact hex (hexDigit_nat h2) h3
  | @uni ds v h1 h2 h3 =>
    have hc : ∀ c ∈ 'u' :: '{' :: ds ++ ['}'], 14 ≤ c.toNat ∧ c.toNat < 128 := by
      intro c hc
      simp only [List.mem_append, List.mem_cons, List.not_mem_nil, or_false] at hc
      rcases hc with (rfl | rfl | hc) | rfl
      · decide
      · decide
      · rcases h2.chars c hc with h | rfl
        · have := hexDigit_nat h; omega
        · decide
      · decide
    refine ⟨noBareCr_of_not_mem fun hm => ?_, fun c hm => ?_⟩
    · have := (hc _ hm).1; exact absurd this (by decide)
    · have := hc _ hm; omega
  | newline => exact ⟨noBareCr_of_not_mem (by decide), by decide⟩
  | crlf =>
    refine ⟨noBareCr_cons.mpr ⟨fun _ => ⟨_, rfl⟩, noBareCr_of_not_mem (by decide)⟩, by decide⟩

theorem CookedBody.chars {k : StrKind} {b : List Char} (h : CookedBody k b) :
    NoBareCr b ∧ ∀ c ∈ b, CharOk k c := by
  induction h with
  | nil => exact ⟨noBareCr_of_not_mem (by simp), by simp⟩
  | char h1 h2 h3 h4 _ ih =>
    refine ⟨noBareCr_cons.mpr ⟨fun e => absurd e h3, ih.1⟩, ?_⟩
    intro c hc
    rcases List.mem_cons.mp hc with rfl | hc
    · exact h4
    · exact ih.2 c hc
  | crlf _ ih =>
    refine ⟨noBareCr_cons.mpr ⟨fun e => ⟨_, rfl⟩, noBareCr_cons.mpr ⟨by simp, ih.1⟩⟩, ?_⟩
    intro c hc
    rcases List.mem_cons.mp hc with rfl | hc
    · exact charOk_of (by decide) (by decide)
    rcases List.mem_cons.mp hc with rfl | hc
    · exact charOk_of (by decide) (by decide)
    · exact ih.2 c hc
  | esc he _ ih =>
    have h1 := Esc.chars he
    refine ⟨?_, ?_⟩
    · rw [List.cons_append]
      exact noBareCr_cons.mpr ⟨by simp, noBareCr_append h1.1 ih.1⟩
    · intro c hc
      rw [List.cons_append] at hc
      rcases List.mem_cons.mp hc with rfl | hc
      · exact charOk_of (by decide) (by decide)
      · rcases List.mem_append.mp hc with hc | hc
        · exact charOk_of (h1.2 c hc).1 (h1.2 c hc).2
        · exact ih.2 c hc

theorem StrText.chars {k : StrKind} {x : List Char} (h : StrText k x) :
    NoBareCr x ∧ ∀ c ∈ x, CharOk k c := by
  have hp : NoBareCr (kindPrefix k) ∧ ∀ c ∈ kindPrefix k, CharOk k c := by
    cases k with
    | str => exact ⟨noBareCr_of_not_mem (by decide), by simp [kindPrefix]⟩
    | byte => exact ⟨noBareCr_of_not_mem (by decide), by
        intro c hc; simp [kindPrefix] at hc; subst hc; exact charOk_of (by decide) (by decide)⟩
    | c => exact ⟨noBareCr_of_not_mem (by decide), by
        intro c hc; simp [kindPrefix] at hc; subst hc; exact charOk_of (by decide) (by decide)⟩
  cases h with
  | @cooked b hb =>
    have hb := CookedBody.chars hb
    refine ⟨?_, ?_⟩
    · rw [List.append_assoc]
      refine noBareCr_append hp.1 ?_
      rw [List.cons_append]
      exact noBareCr_cons.mpr ⟨by simp, noBareCr_append hb.1 (noBareCr_of_not_mem (by decide))⟩
    · intro c hc
      simp only [List.mem_append, List.mem_cons, List.not_mem_nil, or_false] at hc
      rcases hc with (hc | rfl | hc) | rfl
      · exact hp.2 c hc
      · exact charOk_of (by decide) (by decide)
      · exact hb.2 c hc
      · exact charOk_of (by decide) (by decide)
  | @raw n b hn hb =>
    have hh : NoBareCr (List.replicate n '#') := noBareCr_of_not_mem (by simp)
    refine ⟨?_, ?_⟩
    · simp only [List.append_assoc, List.cons_append]
      refine noBareCr_append hp.1 (noBareCr_cons.mpr ⟨by simp, noBareCr_append hh
        (noBareCr_cons.mpr ⟨by simp, noBareCr_append hb.noCr (noBareCr_cons.mpr ⟨by simp, hh⟩)⟩)⟩)
    · intro c hc
      simp only [List.mem_append, List.mem_cons, List.mem_replicate] at hc
      rcases hc with (((hc | rfl | ⟨-, rfl⟩) | rfl | hc)) | rfl | ⟨-, rfl⟩
      · exact hp.2 c hc
      · exact charOk_of (by decide) (by decide)
      · exact charOk_of (by decide) (by decide)
      · exact charOk_of (by decide) (by decide)
      · exact hb.chars c hc
      · exact charOk_of (by decide) (by decide)
      · exact charOk_of (by decide) (by decide)

end

section
variable [UnicodeTables] [LawfulUnicode]

theorem Suffix.noCr {suf : List Char} (h : Suffix suf) : '\r' ∉ suf := by
  have hcr : xidContinue '\r' = false := by
    rw [LawfulUnicode.continue_ascii _ (by decide)]; decide
  rcases h with rfl | ⟨c, t, rfl, h1, h2⟩
  · simp
  · intro hm
    rcases List.mem_cons.mp hm with rfl | hm
    · unfold isIdentStart at h1
      rw [LawfulUnicode.start_ascii _ (by decide)] at h1
      exact absurd h1 (by decide)
    · have := h2 _ hm
      unfold isIdentContinue at this
      rw [hcr] at this; simp at this

theorem startsWith_false {s p : List Char} : startsWith s p = false ↔ ¬ p <+: s := by
  rw [← startsWith_iff_prefix]; simp

theorem strBody_none {k k' : StrKind} {s : List Char} (h : StrStart k s) (hne : k' ≠ k) :
    P.strBody k' s = none := by
  cases hb : P.strBody k' s with
  | none => rfl
  | some r =>
    obtain ⟨x, rfl, hx⟩ := P.strBody_iff.mp hb
    exact absurd (StrStart.unique (StrText.start hx r) h) hne

/-- Quoted literals are recognised whatever follows them. -/
theorem literal_quoted {x : List Char} (h : QuotedText x) (m : List Char) :
    P.literal (x ++ m) = some (P.literalSuffix m) := by
  have hno : ∀ {s : List Char}, (∀ k, ¬ StrStart k s) → ∀ k, P.strLit k s = none := by
    intro s hs k
    unfold P.strLit
    cases hb : P.strBody k s with
    | none => rfl
    | some r =>
      obtain ⟨x, rfl, hx⟩ := P.strBody_iff.mp hb
      exact absurd (StrText.start hx r) (hs k)
  cases h with
  | @str k x hx =>
    have hs := StrText.start hx m
    have h1 : P.strLit k (x ++ m) = some (P.literalSuffix m) := by
      unfold P.strLit; rw [P.strBody_iff.mpr ⟨x, rfl, hx⟩]; rfl
    have h2 : ∀ k', k' ≠ k → P.strLit k' (x ++ m) = none := by
      intro k' hk; unfold P.strLit; rw [strBody_none hs hk]; rfl
    unfold P.literal
    cases k with
    | str => rw [h1]; rfl
    | byte => rw [h2 .str (by decide), h1]; rfl
    | c => rw [h2 .str (by decide), h2 .byte (by decide), h1]; rfl
  | @byte e he =>
    have h0 := hno (s := 'b' :: '\'' :: e ++ ['\''] ++ m) (fun k hk => StrStart.not_byte hk)
    unfold P.literal
    rw [h0, h0, h0]
    unfold P.byteLit
    rw [P.byteBody_iff.mpr ⟨e, by simp; rfl, he⟩]
    rfl
  | @char e he =>
    have h0 := hno (s := '\'' :: e ++ ['\''] ++ m) (fun k hk => (StrStart.not_digit hk).2.1 rfl)
    have h1 : P.byteLit ('\'' :: e ++ ['\''] ++ m) = none := by
      unfold P.byteLit P.byteBody
      rw [if_neg]
      · rfl
      · simp
    unfold P.literal
    rw [h0, h0, h0, h1]
    unfold P.charLit
    rw [P.charBody_iff.mpr ⟨e, by simp; rfl, he⟩]
    rfl

theorem literalSuffix_nil {suf : List Char} (h : Suffix suf) : P.literalSuffix suf = [] := by
  rcases h with rfl | ⟨c, t, rfl, h1, h2⟩
  · rfl
  · unfold P.literalSuffix P.identNotRaw
    simp only [h1, if_true]
    have : ∀ t : List Char, (∀ d ∈ t, isIdentContinue d = true) → t.dropWhile isIdentContinue = [] := by
      intro t
      induction t with
      | nil => intro _; rfl
      | cons d t ih => intro h; rw [List.dropWhile_cons_of_pos (h d (by simp))]; exact ih (fun e he => h e (by simp [he]))
    exact this t h2

theorem identStart_leaf {c : Char} (h : isIdentStart c = true) :
    isWhitespace c = false ∧ c ≠ '/' ∧ P.closeD c = none ∧ (∀ s, P.openD s c = none) ∧
      c ∉ recognizedPunct := by
  have hne : ∀ d : Char, d.toNat < 128 → d ≠ '_' → d.isAlpha = false → c ≠ d := by
    rintro d h1 h2 h3 rfl
    simp only [isIdentStart, Bool.or_eq_true, beq_iff_eq, h2, false_or] at h
    rw [LawfulUnicode.start_ascii _ h1, h3] at h
    simp at h
  refine ⟨?_, hne '/' (by decide) (by decide) (by decide), ?_, ?_, ?_⟩
  · simp only [isIdentStart, Bool.or_eq_true, beq_iff_eq] at h
    rcases h with rfl | h
    · decide
    · exact LawfulUnicode.continue_not_ws _ (LawfulUnicode.start_continue _ h)
  · cases hd : P.closeD c with
    | none => rfl
    | some d =>
      rcases P.closeD_cases hd with ⟨e, -⟩ | ⟨e, -⟩ | ⟨e, -⟩
      · exact absurd e (hne _ (by decide) (by decide) (by decide))
      · exact absurd e (hne _ (by decide) (by decide) (by decide))
      · exact absurd e (hne _ (by decide) (by decide) (by decide))
  · intro s
    cases hd : P.openD s c with
    | none => rfl
    | some d =>
      rcases P.openD_cases hd with ⟨e, -⟩ | ⟨e, -⟩ | ⟨e, -⟩
      · exact absurd e (hne _ (by decide) (by decide) (by decide))
      · exact absurd e (hne _ (by decide) (by decide) (by decide))
      · exact absurd e (hne _ (by decide) (by decide) (by decide))
  · intro hm
    have : ∀ d ∈ recognizedPunct, d.toNat < 128 ∧ d ≠ '_' ∧ d.isAlpha = false := by decide
    obtain ⟨h1, h2, h3⟩ := this c hm
    exact hne c h1 h2 h3 rfl

end
end PM2
