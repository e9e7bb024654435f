import Verif.Proof.Number
import Verif.Proof.Grammar
import Verif.Spec.Grammar
/-! # The number lexer implements the grammar of numbers -/

set_option linter.unusedSectionVars false

namespace PM2
open Spec

theorem decDigit_iff {c : Char} : isDecDigit c = true ↔ DecDigit c := by
  simp [isDecDigit, DecDigit]

theorem digit_us {c : Char} : (isDecDigit c || c == '_') = true ↔ DecDigit c ∨ c = '_' := by
  simp [decDigit_iff]

theorem digit_us_false {c : Char} : (isDecDigit c || c == '_') = false ↔ ¬ DecDigit c ∧ c ≠ '_' := by
  rw [← Bool.not_eq_true, digit_us, not_or]

theorem NoDigit.nil : NoDigit [] := by intro c h; simp at h

theorem noDigit_cons {c : Char} {r : List Char} : NoDigit (c :: r) ↔ ¬ DecDigit c ∧ c ≠ '_' := by
  simp [NoDigit]

theorem digitsUs_nil : DigitsUs [] := by intro c h; simp at h

theorem digitsUs_cons {c : Char} {u : List Char} :
    DigitsUs (c :: u) ↔ (DecDigit c ∨ c = '_') ∧ DigitsUs u := by simp [DigitsUs]

theorem digits_split (s : List Char) : ∃ v r, s = v ++ r ∧ DigitsUs v ∧ NoDigit r := by
  induction s with
  | nil => exact ⟨[], [], rfl, digitsUs_nil, NoDigit.nil⟩
  | cons c s ih =>
    by_cases h : DecDigit c ∨ c = '_'
    · obtain ⟨v, r, rfl, h1, h2⟩ := ih
      exact ⟨c :: v, r, rfl, digitsUs_cons.mpr ⟨h, h1⟩, h2⟩
    · rw [not_or] at h
      exact ⟨[], c :: s, rfl, digitsUs_nil, noDigit_cons.mpr h⟩

theorem not_decDigit_us : ¬ DecDigit '_' := by unfold DecDigit; decide
theorem not_decDigit_dot : ¬ DecDigit '.' := by unfold DecDigit; decide
theorem not_decDigit_plus : ¬ DecDigit '+' := by unfold DecDigit; decide
theorem not_decDigit_minus : ¬ DecDigit '-' := by unfold DecDigit; decide

instance (c : Char) : Decidable (DecDigit c) := inferInstanceAs (Decidable (_ ∧ _))

section
variable [UnicodeTables]

theorem P.mantissa_step {c : Char} {s : List Char} {b : Bool} : P.mantissa (c :: s) b =
    if isDecDigit c || c == '_' then P.mantissa s b
    else if c = '.' then
      if b then some (c :: s, b)
      else
        match s with
        | next :: _ => if next = '.' || isIdentStart next then none else P.mantissa s true
        | [] => P.mantissa s true
    else some (c :: s, b) := by
  rw [P.mantissa.eq_def]
  cases s <;> rfl

theorem P.mantissa_digit {c : Char} {s : List Char} {b : Bool} (h : DecDigit c ∨ c = '_') :
    P.mantissa (c :: s) b = P.mantissa s b := by
  rw [P.mantissa_step, if_pos (digit_us.mpr h)]

theorem P.mantissa_app {v s : List Char} {b : Bool} (h : DigitsUs v) :
    P.mantissa (v ++ s) b = P.mantissa s b := by
  induction v with
  | nil => rfl
  | cons c v ih =>
    rw [digitsUs_cons] at h
    rw [List.cons_append, P.mantissa_digit h.1, ih h.2]

theorem P.mantissa_stop {r : List Char} (h : NoDigit r) : P.mantissa r true = some (r, true) := by
  cases r with
  | nil => rfl
  | cons c r =>
    rw [P.mantissa_step, if_neg (by rw [digit_us_false.mpr (noDigit_cons.mp h)]; simp)]
    by_cases hc : c = '.'
    · rw [if_pos hc]; simp
    · rw [if_neg hc]

theorem P.mantissa_stop' {r : List Char} (h : NoDigit r) (hd : r.head? ≠ some '.') :
    P.mantissa r false = some (r, false) := by
  cases r with
  | nil => rfl
  | cons c r =>
    rw [P.mantissa_step, if_neg (by rw [digit_us_false.mpr (noDigit_cons.mp h)]; simp)]
    rw [if_neg (by simpa using hd)]

theorem P.mantissa_dot {r : List Char} :
    P.mantissa ('.' :: r) false =
      if ∀ c, r.head? = some c → c ≠ '.' ∧ isIdentStart c = false then P.mantissa r true else none := by
  rw [P.mantissa_step, if_neg (by rw [digit_us_false.mpr ⟨not_decDigit_dot, by decide⟩]; simp), if_pos rfl,
    if_neg (by simp)]
  cases r with
  | nil => rw [if_pos (by intro c h; simp at h)]
  | cons d r =>
    by_cases h : d = '.'
    · rw [if_neg (fun hh => (hh d rfl).1 h)]
      simp [h]
    · cases h' : isIdentStart d with
      | true =>
        rw [if_neg (fun hh => by have := (hh d rfl).2; rw [h'] at this; simp at this)]
        simp [h']
      | false =>
        rw [if_pos (by intro c hc; simp at hc; subst hc; exact ⟨h, h'⟩)]
        simp [h, h']

/-- The mantissa of a number. -/
theorem P.mantissa_true {s r : List Char} {b : Bool} : P.mantissa s true = some (r, b) ↔
    b = true ∧ ∃ v, s = v ++ r ∧ DigitsUs v ∧ NoDigit r := by
  constructor
  · intro h
    obtain ⟨v, r', rfl, h1, h2⟩ := digits_split s
    rw [P.mantissa_app h1, P.mantissa_stop h2] at h
    simp at h
    obtain ⟨rfl, rfl⟩ := h
    exact ⟨rfl, v, rfl, h1, h2⟩
  · rintro ⟨rfl, v, rfl, h1, h2⟩
    rw [P.mantissa_app h1, P.mantissa_stop h2]

theorem P.mantissa_iff {s r : List Char} {b : Bool} {d : Char} (hd : DecDigit d) :
    P.mantissa s false = some (r, b) ↔ ∃ m, d :: s = m ++ r ∧
      (b = false ∧ WholePart m r ∨ b = true ∧ DottedPart m r) := by
  constructor
  · intro h
    obtain ⟨u, r', rfl, h1, h2⟩ := digits_split s
    rw [P.mantissa_app h1] at h
    by_cases hh : r'.head? = some '.'
    · cases r' with
      | nil => simp at hh
      | cons c r' =>
        simp at hh; subst hh
        rw [P.mantissa_dot] at h
        split at h
        · rename_i hc
          rw [P.mantissa_true] at h
          obtain ⟨rfl, v, rfl, h3, h4⟩ := h
          exact ⟨d :: u ++ '.' :: v, by simp, .inr ⟨rfl, ⟨d, u, v, rfl, hd, h1, h3, hc⟩, h4⟩⟩
        · simp at h
    · rw [P.mantissa_stop' h2 hh] at h
      simp at h
      obtain ⟨rfl, rfl⟩ := h
      exact ⟨d :: u, by simp, .inl ⟨rfl, ⟨d, u, rfl, hd, h1⟩, h2, hh⟩⟩
  · rintro ⟨m, e, ⟨rfl, ⟨d', u, rfl, hd', h1⟩, h2, h3⟩ | ⟨rfl, ⟨d', u, v, rfl, hd', h1, h3, hc⟩, h2⟩⟩
    · simp at e
      obtain ⟨rfl, rfl⟩ := e
      rw [P.mantissa_app h1, P.mantissa_stop' h2 h3]
    · simp at e
      obtain ⟨rfl, rfl⟩ := e
      rw [P.mantissa_app h1, P.mantissa_dot, if_pos hc, P.mantissa_app h3, P.mantissa_stop h2]

/-! ### Exponents -/

theorem P.exponent_digit {c : Char} {s : List Char} {g b : Bool} (h : DecDigit c) :
    P.exponent (c :: s) g b = P.exponent s g true := by
  rw [P.exponent, if_neg, if_pos (decDigit_iff.mpr h)]
  rintro (rfl | rfl)
  · exact not_decDigit_plus h
  · exact not_decDigit_minus h

theorem P.exponent_us {s : List Char} {g b : Bool} : P.exponent ('_' :: s) g b = P.exponent s g b := by
  rw [P.exponent, if_neg (by decide), if_neg (by decide), if_pos rfl]

theorem P.exponent_val {s : List Char} {g : Bool} {v r : List Char} (e : s = v ++ r)
    (h : DigitsUs v) (hr : NoDigit r) : P.exponent s g true = some r := by
  subst e
  induction v with
  | nil =>
    cases r with
    | nil => rfl
    | cons c r =>
      rw [noDigit_cons] at hr
      show P.exponent (c :: r) g true = _
      rw [P.exponent, if_neg (mt decDigit_iff.mp hr.1), if_neg hr.2]
      simp
  | cons c v ih =>
    rw [digitsUs_cons] at h
    rw [List.cons_append]
    rcases h.1 with h1 | rfl
    · rw [P.exponent_digit h1, ih h.2]
    · rw [P.exponent_us, ih h.2]

theorem P.exponent_uss {us s : List Char} {g b : Bool} (h : ∀ c ∈ us, c = '_') :
    P.exponent (us ++ s) g b = P.exponent s g b := by
  induction us with
  | nil => rfl
  | cons c us ih =>
    obtain rfl := h c (by simp)
    rw [List.cons_append, P.exponent_us, ih (fun c hc => h c (by simp [hc]))]

theorem us_split (s : List Char) : ∃ us r, s = us ++ r ∧ (∀ c ∈ us, c = '_') ∧ r.head? ≠ some '_' := by
  induction s with
  | nil => exact ⟨[], [], rfl, by simp, by simp⟩
  | cons c s ih =>
    by_cases h : c = '_'
    · obtain ⟨us, r, rfl, h1, h2⟩ := ih
      exact ⟨c :: us, r, rfl, by simp [h]; exact h1, h2⟩
    · exact ⟨[], c :: s, rfl, by simp, by simpa using h⟩

/-- exponents after the sign -/
theorem P.exponent_signed {s r : List Char} : P.exponent s true false = some r ↔
    ∃ us d v, s = us ++ d :: v ++ r ∧ (∀ c ∈ us, c = '_') ∧ DecDigit d ∧ DigitsUs v ∧ NoDigit r := by
  constructor
  · intro h
    obtain ⟨us, s, rfl, h1, h2⟩ := us_split s
    rw [P.exponent_uss h1] at h
    cases s with
    | nil => simp [P.exponent] at h
    | cons c s =>
      by_cases hd : DecDigit c
      · rw [P.exponent_digit hd] at h
        obtain ⟨v, r', rfl, h3, h4⟩ := digits_split s
        rw [P.exponent_val rfl h3 h4] at h
        simp at h; subst h
        exact ⟨us, c, v, by simp, h1, hd, h3, h4⟩
      · rw [P.exponent] at h
        simp [mt decDigit_iff.mp hd] at h
        exact absurd (by simp [h.2.1]) h2
  · rintro ⟨us, d, v, rfl, h1, h2, h3, h4⟩
    rw [List.append_assoc, P.exponent_uss h1, List.cons_append, P.exponent_digit h2,
      P.exponent_val rfl h3 h4]

theorem P.exponent_iff {s r : List Char} : P.exponent s false false = some r ↔
    ∃ u, s = u ++ r ∧ ExpText u ∧ NoDigit r := by
  constructor
  · intro h
    obtain ⟨us, s, rfl, h1, h2⟩ := us_split s
    rw [P.exponent_uss h1] at h
    cases s with
    | nil => simp [P.exponent] at h
    | cons c s =>
      by_cases hd : DecDigit c
      · rw [P.exponent_digit hd] at h
        obtain ⟨v, r', rfl, h3, h4⟩ := digits_split s
        rw [P.exponent_val rfl h3 h4] at h
        simp at h; subst h
        exact ⟨us ++ c :: v, by simp, ⟨us, [], [], c, v, by simp, h1, by simp, by simp, hd, h3⟩, h4⟩
      · by_cases hs : c = '+' ∨ c = '-'
        · rw [P.exponent, if_pos hs] at h
          simp only [Bool.false_eq_true, if_false] at h
          obtain ⟨us', d, v, rfl, g1, g2, g3, g4⟩ := P.exponent_signed.mp h
          refine ⟨us ++ [c] ++ us' ++ d :: v, by simp, ⟨us, [c], us', d, v, rfl, h1, ?_, g1, g2, g3⟩, g4⟩
          rcases hs with rfl | rfl <;> simp
        · rw [P.exponent] at h
          simp [mt decDigit_iff.mp hd, not_or.mp hs] at h
          exact absurd (by simp [h.1]) h2
  · rintro ⟨u, rfl, ⟨us, sign, us', d, v, rfl, h1, hs, g1, g2, g3⟩, g4⟩
    simp only [List.mem_cons, List.not_mem_nil, or_false] at hs
    simp only [List.append_assoc]
    rw [P.exponent_uss h1]
    rcases hs with rfl | rfl | rfl
    · rw [List.nil_append, P.exponent_uss g1, List.cons_append, P.exponent_digit g2,
        P.exponent_val rfl g3 g4]
    · rw [List.cons_append, List.nil_append, P.exponent, if_pos (.inl rfl)]
      exact P.exponent_signed.mpr ⟨us', d, v, by simp, g1, g2, g3, g4⟩
    · rw [List.cons_append, List.nil_append, P.exponent, if_pos (.inr rfl)]
      exact P.exponent_signed.mpr ⟨us', d, v, by simp, g1, g2, g3, g4⟩

theorem P.exponent_none {s : List Char} : P.exponent s false false = none ↔
    ¬ ∃ u r, s = u ++ r ∧ ExpText u := by
  constructor
  · rintro h ⟨u, r, rfl, us, sign, us', d, v, rfl, h1, hs, g1, g2, g3⟩
    obtain ⟨v', r', rfl, h3, h4⟩ := digits_split r
    have := (P.exponent_iff (s := us ++ sign ++ us' ++ d :: v ++ (v' ++ r')) (r := r')).mpr
      ⟨us ++ sign ++ us' ++ d :: (v ++ v'), by simp, ⟨us, sign, us', d, v ++ v', rfl, h1, hs, g1, g2, by
        intro c hc
        rcases List.mem_append.mp hc with hc | hc
        · exact g3 c hc
        · exact h3 c hc⟩, h4⟩
    rw [h] at this; simp at this
  · intro h
    cases he : P.exponent s false false with
    | none => rfl
    | some r =>
      obtain ⟨u, e, hu, -⟩ := P.exponent_iff.mp he
      exact absurd ⟨u, r, e, hu⟩ h

/-! ### Floats -/

theorem P.floatDigits_iff {s r : List Char} : P.floatDigits s = some r ↔
    ∃ x, s = x ++ r ∧ FloatBody x r := by
  constructor
  · intro h
    unfold P.floatDigits at h
    cases s with
    | nil => simp at h
    | cons d s =>
      simp only at h
      split at h
      · rename_i hd
        rw [decDigit_iff] at hd
        cases hm : P.mantissa s false with
        | none => rw [hm] at h; simp at h
        | some x =>
          obtain ⟨r1, b⟩ := x
          rw [hm] at h
          simp only at h
          obtain ⟨m, e, hb⟩ := (P.mantissa_iff hd).mp hm
          have hdot : (¬ ∃ e u r', r1 = e :: u ++ r' ∧ e ∈ ['e', 'E'] ∧ ExpText u) →
              (if b = true then some r1 else none) = some r → ∃ x, d :: s = x ++ r ∧ FloatBody x r := by
            intro hn hh
            cases b with
            | false => simp at hh
            | true =>
              simp at hh; subst hh
              rcases hb with ⟨h, -⟩ | ⟨-, hb⟩
              · simp at h
              · exact ⟨m, e, .dot hb hn⟩
          cases r1 with
          | nil =>
            refine hdot ?_ h
            rintro ⟨e, u, r', h, -⟩
            simp at h
          | cons c r1 =>
            simp only at h
            split at h
            · rename_i hc
              cases hx : P.exponent r1 false false with
              | some r2 =>
                rw [hx] at h
                simp at h; subst h
                obtain ⟨u, rfl, hu, hr⟩ := P.exponent_iff.mp hx
                refine ⟨m ++ c :: u, by rw [e]; simp, .exp ?_ (by simpa using hc) hu hr⟩
                rcases hb with ⟨-, hb⟩ | ⟨-, hb⟩
                · exact .inl hb
                · exact .inr hb
              | none =>
                rw [hx] at h
                refine hdot ?_ h
                rintro ⟨e, u, r', h, -, hu⟩
                simp at h
                exact P.exponent_none.mp hx ⟨u, r', h.2, hu⟩
            · rename_i hc
              refine hdot ?_ h
              rintro ⟨e, u, r', h, he, hu⟩
              simp at h he
              rw [h.1] at hc
              exact hc he
      · simp at h
  · rintro ⟨x, rfl, hx⟩
    have hgo : ∀ {m r1 : List Char} {b : Bool}, (b = false ∧ WholePart m r1 ∨ b = true ∧ DottedPart m r1) →
        ∃ d s, m ++ r1 = d :: s ∧ isDecDigit d = true ∧ P.mantissa s false = some (r1, b) := by
      intro m r1 b hb
      have : ∃ d s, m ++ r1 = d :: s ∧ DecDigit d := by
        rcases hb with ⟨-, ⟨d, u, rfl, hd, -⟩, -⟩ | ⟨-, ⟨d, u, v, rfl, hd, -⟩, -⟩
        · exact ⟨d, _, rfl, hd⟩
        · exact ⟨d, _, rfl, hd⟩
      obtain ⟨d, s, e, hd⟩ := this
      exact ⟨d, s, e, decDigit_iff.mpr hd, (P.mantissa_iff hd).mpr ⟨m, e.symm, hb⟩⟩
    cases hx with
    | @exp m e u _ hm he hu hr =>
      have : ∃ b, b = false ∧ WholePart m (e :: u ++ r) ∨ b = true ∧ DottedPart m (e :: u ++ r) := by
        rcases hm with hm | hm
        · exact ⟨false, .inl ⟨rfl, hm⟩⟩
        · exact ⟨true, .inr ⟨rfl, hm⟩⟩
      obtain ⟨b, hb⟩ := this
      obtain ⟨d, s, e1, hd, h1⟩ := hgo hb
      rw [List.append_assoc, e1]
      unfold P.floatDigits
      simp only [hd, if_true, h1, List.cons_append]
      rw [if_pos (by simpa using he), P.exponent_iff.mpr ⟨u, rfl, hu, hr⟩]
    | dot hm hn =>
      obtain ⟨d, s, e1, hd, h1⟩ := hgo (.inr ⟨rfl, hm⟩)
      rw [e1]
      unfold P.floatDigits
      simp only [hd, if_true, h1]
      cases r with
      | nil => simp
      | cons c r =>
        simp only
        split
        · rename_i hc
          have : P.exponent r false false = none := by
            rw [P.exponent_none]
            rintro ⟨u, r', rfl, hu⟩
            exact hn ⟨c, u, r', rfl, by simpa using hc, hu⟩
          rw [this]
        · rfl

/-! ### Words and suffixes -/

theorem P.identNotRaw_iff {s sym r : List Char} : P.identNotRaw s = some (sym, r) ↔
    s = sym ++ r ∧ ValidIdent sym ∧ EndsWord r := by
  constructor
  · intro h
    have e := P.identNotRaw_spec h
    unfold P.identNotRaw at h
    cases s with
    | nil => simp at h
    | cons c s =>
      simp only at h
      split at h
      · rename_i hc
        simp at h
        obtain ⟨rfl, rfl⟩ := h
        refine ⟨e, ⟨c, _, rfl, hc, ?_⟩, ?_⟩
        · intro d hd
          have := List.all_takeWhile (p := isIdentContinue) (l := s)
          exact List.all_eq_true.mp this d hd
        · intro d hd
          have := List.head?_dropWhile_not isIdentContinue s
          rw [hd] at this
          simpa using this
      · simp at h
  · rintro ⟨rfl, ⟨c, t, rfl, hc, ht⟩, hr⟩
    rw [List.cons_append, P.identNotRaw, if_pos hc]
    have h1 : (t ++ r).takeWhile isIdentContinue = t := by
      rw [List.takeWhile_append_of_pos ht]
      cases r with
      | nil => simp
      | cons d r => simp [hr d rfl]
    have h2 : (t ++ r).dropWhile isIdentContinue = r := by
      rw [List.dropWhile_append_of_pos ht]
      cases r with
      | nil => simp
      | cons d r => simp [hr d rfl]
    rw [h1, h2]

theorem P.wordBreak_iff {s r : List Char} : P.wordBreak s = some r ↔ s = r ∧ EndsWord r := by
  cases s with
  | nil =>
    simp only [P.wordBreak, Option.some.injEq]
    constructor
    · rintro rfl; exact ⟨rfl, by intro c h; simp at h⟩
    · exact fun h => h.1
  | cons c s =>
    simp only [P.wordBreak]
    constructor
    · intro h
      split at h
      · simp at h
      · rename_i hc
        simp at h; subst h
        refine ⟨rfl, ?_⟩
        intro d hd; simp at hd; subst hd
        simpa using hc
    · rintro ⟨rfl, h⟩
      rw [if_neg (by rw [h c rfl]; simp)]

end

section
variable [UnicodeTables] [LawfulUnicode]

theorem P.numTail_iff {s r : List Char} : P.numTail s = some r ↔
    ∃ suf, s = suf ++ r ∧ Suffix suf ∧ EndsWord r := by
  have hi : P.identNotRaw s = none ↔ ∀ c, s.head? = some c → isIdentStart c = false := by
    cases s with
    | nil => simp [P.identNotRaw]
    | cons c s => simp [P.identNotRaw]
  have hn : P.numTail s = match P.identNotRaw s with
      | some (_, r) => P.wordBreak r
      | none => P.wordBreak s := by
    unfold P.numTail
    cases s with
    | nil => rfl
    | cons c s =>
      cases h : isIdentStart c with
      | true => simp [P.identNotRaw, h]
      | false => simp [P.identNotRaw, h]
  rw [hn]
  constructor
  · intro h
    cases hs : P.identNotRaw s with
    | some x =>
      obtain ⟨sym, r'⟩ := x
      rw [hs] at h
      obtain ⟨rfl, h2⟩ := P.wordBreak_iff.mp h
      obtain ⟨e, hv, he⟩ := P.identNotRaw_iff.mp hs
      exact ⟨sym, e, .inr hv, h2⟩
    | none =>
      rw [hs] at h
      obtain ⟨rfl, h2⟩ := P.wordBreak_iff.mp h
      exact ⟨[], rfl, .inl rfl, h2⟩
  · rintro ⟨suf, rfl, rfl | hv, hr⟩
    · have : P.identNotRaw ([] ++ r) = none := by
        rw [hi]
        intro c hc
        have := hr c hc
        cases h : isIdentStart c with
        | false => rfl
        | true => rw [identStart_continue h] at this; simp at this
      rw [this]
      exact P.wordBreak_iff.mpr ⟨rfl, hr⟩
    · rw [P.identNotRaw_iff.mpr ⟨rfl, hv, hr⟩]
      exact P.wordBreak_iff.mpr ⟨rfl, hr⟩

theorem P.float_iff {s r : List Char} : P.float s = some r ↔ ∃ x, s = x ++ r ∧ FloatLit x r := by
  unfold P.float
  rw [Option.bind_eq_some_iff]
  constructor
  · rintro ⟨r1, h1, h2⟩
    obtain ⟨b, rfl, hb⟩ := P.floatDigits_iff.mp h1
    obtain ⟨suf, rfl, hs, he⟩ := P.numTail_iff.mp h2
    exact ⟨b ++ suf, by simp, b, suf, rfl, hb, hs, he⟩
  · rintro ⟨x, rfl, b, suf, rfl, hb, hs, he⟩
    exact ⟨suf ++ r, P.floatDigits_iff.mpr ⟨b, by simp, hb⟩, P.numTail_iff.mpr ⟨suf, rfl, hs, he⟩⟩

/-! ### Integers -/

/-- digits below the base -/
theorem digitsLoop_step {b : Nat} {c : Char} {s : List Char} {empty : Bool} (hb : b ∈ [2, 8, 10, 16])
    (h : BaseDigit b c) : P.digitsLoop b (c :: s) empty = P.digitsLoop b s false := by
  obtain ⟨h1, h2⟩ := h
  unfold hexDigitVal at h2
  rcases h1 with ⟨g1, g2⟩ | ⟨g1, g2⟩ | ⟨g1, g2⟩
  · rw [if_pos g2] at h2
    rw [P.digitsLoop, if_pos ⟨g1, g2⟩, if_neg (by omega)]
  · have e1 : ¬ c ≤ '9' := by
      rw [charLe] at *
      have : 'a'.toNat = 97 := rfl
      have : '9'.toNat = 57 := rfl
      omega
    have e2 : ¬ c ≤ 'F' := by
      rw [charLe] at *
      have : 'a'.toNat = 97 := rfl
      have : 'F'.toNat = 70 := rfl
      omega
    rw [if_neg e1, if_neg e2] at h2
    have : 97 ≤ c.toNat := charLe.mp g1
    rw [P.digitsLoop, if_neg (fun h => e1 h.2), if_pos ⟨g1, g2⟩, if_neg (by omega)]
  · have e1 : ¬ c ≤ '9' := by
      rw [charLe] at *
      have : 'A'.toNat = 65 := rfl
      have : '9'.toNat = 57 := rfl
      omega
    have e2 : ¬ 'a' ≤ c := by
      rw [charLe] at *
      have : 'a'.toNat = 97 := rfl
      have : 'F'.toNat = 70 := rfl
      omega
    rw [if_neg e1, if_pos g2] at h2
    have : 65 ≤ c.toNat := charLe.mp g1
    rw [P.digitsLoop, if_neg (fun h => e1 h.2), if_neg (fun h => e2 h.1), if_pos ⟨g1, g2⟩,
      if_neg (by omega)]

theorem digitsLoop_us {b : Nat} {s : List Char} {empty : Bool} :
    P.digitsLoop b ('_' :: s) empty = if empty && b == 10 then none else P.digitsLoop b s empty := by
  rw [P.digitsLoop, if_neg (by decide), if_neg (by decide), if_neg (by decide), if_pos rfl]

/-- what ends the digits -/
def DigitsEnd (b : Nat) (r : List Char) : Prop :=
  NoDigit r ∧ ∀ c, r.head? = some c → ¬ BaseDigit b c

theorem digitsLoop_end {b : Nat} {c : Char} {s : List Char} {empty : Bool} (hb : b ∈ [2, 8, 10, 16])
    (h1 : ¬ BaseDigit b c) (h2 : c ≠ '_') : P.digitsLoop b (c :: s) empty =
      if DecDigit c then none else some (c :: s, empty) := by
  by_cases hd : '0' ≤ c ∧ c ≤ '9'
  · have hd' : DecDigit c := hd
    rw [P.digitsLoop, if_pos hd, if_pos hd', if_pos]
    have : ¬ hexDigitVal c < b := fun h => h1 ⟨.inl hd, h⟩
    unfold hexDigitVal at this
    rw [if_pos hd.2] at this
    omega
  · have hd' : ¬ DecDigit c := hd
    rw [P.digitsLoop, if_neg hd, if_neg hd', if_neg h2]
    by_cases ha : 'a' ≤ c ∧ c ≤ 'f'
    · rw [if_pos ha, if_pos]
      have : ¬ hexDigitVal c < b := fun h => h1 ⟨.inr (.inl ha), h⟩
      unfold hexDigitVal at this
      have g1 := charLe.mp ha.1
      have e97 : 'a'.toNat = 97 := rfl
      have e1 : ¬ c ≤ '9' := by
        rw [charLe]
        have : '9'.toNat = 57 := rfl
        omega
      have e2 : ¬ c ≤ 'F' := by
        rw [charLe]
        have : 'F'.toNat = 70 := rfl
        omega
      rw [if_neg e1, if_neg e2] at this
      omega
    · rw [if_neg ha]
      by_cases hA : 'A' ≤ c ∧ c ≤ 'F'
      · rw [if_pos hA, if_pos]
        have : ¬ hexDigitVal c < b := fun h => h1 ⟨.inr (.inr hA), h⟩
        unfold hexDigitVal at this
        have g1 := charLe.mp hA.1
        have e65 : 'A'.toNat = 65 := rfl
        have e1 : ¬ c ≤ '9' := by
          rw [charLe]
          have : '9'.toNat = 57 := rfl
          omega
        rw [if_neg e1, if_pos hA.2] at this
        omega
      · rw [if_neg hA]

theorem digitsLoop_stop {b : Nat} {r : List Char} {empty : Bool} (hb : b ∈ [2, 8, 10, 16])
    (h : DigitsEnd b r) : P.digitsLoop b r empty = some (r, empty) := by
  cases r with
  | nil => rfl
  | cons c r =>
    have := noDigit_cons.mp h.1
    rw [digitsLoop_end hb (h.2 c rfl) this.2, if_neg this.1]

/-- digits and underscores after the first digit -/
theorem digitsLoop_iff {b : Nat} (hb : b ∈ [2, 8, 10, 16]) {s r : List Char} {e1 : Bool} :
    P.digitsLoop b s e1 = some (r, false) ↔
      ∃ u, s = u ++ r ∧ (∀ c ∈ u, BaseDigit b c ∨ c = '_') ∧ DigitsEnd b r ∧
        (e1 = true → (∃ c ∈ u, c ≠ '_') ∧ (b = 10 → u.head? ≠ some '_')) := by
  have hus : ¬ BaseDigit b '_' := fun h => not_hex_us h.1
  induction s generalizing e1 with
  | nil =>
    simp only [P.digitsLoop, Option.some.injEq, Prod.mk.injEq]
    constructor
    · rintro ⟨rfl, rfl⟩
      exact ⟨[], rfl, by simp, ⟨NoDigit.nil, by simp⟩, by simp⟩
    · rintro ⟨u, e, -, -, h⟩
      have : u = [] ∧ r = [] := by simpa using e.symm
      obtain ⟨rfl, rfl⟩ := this
      cases e1 <;> simp_all
  | cons c s ih =>
    by_cases hc : BaseDigit b c
    · rw [digitsLoop_step hb hc]
      refine Iff.trans ih ?_
      have hne : c ≠ '_' := by rintro rfl; exact hus hc
      constructor
      · rintro ⟨u, rfl, h1, h2, -⟩
        exact ⟨c :: u, rfl, by simp [hc]; exact h1, h2, fun _ => ⟨⟨c, by simp, hne⟩, by simpa using
          fun _ => hne⟩⟩
      · rintro ⟨u, e, h1, h2, h3⟩
        cases u with
        | nil =>
          simp at e; subst e
          exact absurd hc (h2.2 c rfl)
        | cons d u =>
          simp at e
          obtain ⟨rfl, rfl⟩ := e
          exact ⟨u, rfl, fun x hx => h1 x (by simp [hx]), h2, by simp⟩
    · by_cases hc' : c = '_'
      · subst hc'
        rw [digitsLoop_us]
        have back : ∀ u, '_' :: s = u ++ r → DigitsEnd b r → ∃ u', u = '_' :: u' ∧ s = u' ++ r := by
          intro u e h2
          cases u with
          | nil =>
            simp at e; subst e
            exact absurd rfl (noDigit_cons.mp h2.1).2
          | cons d u =>
            simp at e
            obtain ⟨rfl, rfl⟩ := e
            exact ⟨u, rfl, rfl⟩
        by_cases hbad : (e1 && b == 10) = true
        · rw [if_pos hbad]
          simp at hbad
          obtain ⟨rfl, rfl⟩ := hbad
          simp only [reduceCtorEq, false_iff]
          rintro ⟨u, e, h1, h2, h3⟩
          obtain ⟨u', rfl, rfl⟩ := back u e h2
          simp at h3
        · rw [if_neg hbad]
          refine Iff.trans ih ?_
          constructor
          · rintro ⟨u, rfl, h1, h2, h3⟩
            refine ⟨'_' :: u, rfl, by simp; exact h1, h2, ?_⟩
            rintro rfl
            simp at hbad
            obtain ⟨⟨x, hx, hx'⟩, -⟩ := h3 rfl
            exact ⟨⟨x, by simp [hx], hx'⟩, fun h => absurd h hbad⟩
          · rintro ⟨u, e, h1, h2, h3⟩
            obtain ⟨u', rfl, rfl⟩ := back u e h2
            refine ⟨u', rfl, fun x hx => h1 x (by simp [hx]), h2, ?_⟩
            rintro rfl
            simp at hbad
            obtain ⟨⟨x, hx, hx'⟩, -⟩ := h3 rfl
            simp at hx
            rcases hx with rfl | hx
            · exact absurd rfl hx'
            · exact ⟨⟨x, hx, hx'⟩, fun h => absurd h hbad⟩
      · rw [digitsLoop_end hb hc hc']
        constructor
        · intro h
          split at h
          · simp at h
          · rename_i hd
            simp at h
            obtain ⟨rfl, rfl⟩ := h
            exact ⟨[], rfl, by simp, ⟨noDigit_cons.mpr ⟨hd, hc'⟩, by simpa using hc⟩, by simp⟩
        · rintro ⟨u, e, h1, h2, h3⟩
          cases u with
          | nil =>
            simp at e; subst e
            rw [if_neg (noDigit_cons.mp h2.1).1]
            cases e1 with
            | false => rfl
            | true => simp at h3
          | cons d u =>
            simp at e
            obtain ⟨rfl, rfl⟩ := e
            rcases h1 c (by simp) with h | h
            · exact absurd h hc
            · exact absurd h hc'

theorem baseDigit_ten {c : Char} : BaseDigit 10 c ↔ DecDigit c := by
  unfold BaseDigit HexDigit hexDigitVal DecDigit
  constructor
  · rintro ⟨h1, h2⟩
    rcases h1 with h1 | ⟨g1, g2⟩ | ⟨g1, g2⟩
    · exact h1
    · exfalso
      rw [charLe] at g1 g2
      have e97 : 'a'.toNat = 97 := rfl
      have e1 : ¬ c ≤ '9' := by
        rw [charLe]
        have : '9'.toNat = 57 := rfl
        omega
      have e2 : ¬ c ≤ 'F' := by
        rw [charLe]
        have : 'F'.toNat = 70 := rfl
        omega
      rw [if_neg e1, if_neg e2] at h2
      omega
    · exfalso
      have e65 : 'A'.toNat = 65 := rfl
      have := charLe.mp g1
      have e1 : ¬ c ≤ '9' := by
        rw [charLe]
        have : '9'.toNat = 57 := rfl
        omega
      rw [if_neg e1, if_pos g2] at h2
      omega
  · intro h
    refine ⟨.inl h, ?_⟩
    rw [if_pos h.2]
    have := charLe.mp h.2
    have : '9'.toNat = 57 := rfl
    omega

theorem digitsEnd_ten {r : List Char} : DigitsEnd 10 r ↔ NoDigit r :=
  ⟨fun h => h.1, fun h => ⟨h, fun c hc => by rw [baseDigit_ten]; exact (h c hc).1⟩⟩

theorem P.digits_iff {s r : List Char} : P.digits s = some r ↔ ∃ x, s = x ++ r ∧ IntBody x r := by
  have hd : P.digits s = some r ↔
      P.digitsLoop (P.digitsBase s).2 (P.digitsBase s).1 true = some (r, false) := by
    unfold P.digits
    split
    · rename_i r' h; rw [h]; simp
    · rename_i h
      constructor
      · intro h; simp at h
      · intro h'; exact absurd h' (h r)
  rw [hd]
  have based : ∀ p b s, (p, b) ∈ baseOf → b ∈ [2, 8, 10, 16] → b ≠ 10 →
      (P.digitsLoop b s true = some (r, false) ↔ ∃ x, '0' :: p :: s = x ++ r ∧ IntBody x r) := by
    intro p b s hp hb hne
    rw [digitsLoop_iff hb]
    constructor
    · rintro ⟨u, rfl, h1, h2, h3⟩
      exact ⟨'0' :: p :: u, rfl, .based hp h1 (h3 rfl).1 h2.1 h2.2⟩
    · rintro ⟨x, e, hx⟩
      cases hx with
      | @dec d u r h1 h2 h3 h4 =>
        exfalso
        apply h4 p b hp
        rw [← e]
        exact ⟨s, rfl⟩
      | @based p' b' u r hp' h1 h2 h3 h4 =>
        simp at e
        obtain ⟨rfl, rfl⟩ := e
        have : b' = b := by
          simp [baseOf] at hp hp'
          rcases hp with ⟨rfl, rfl⟩ | ⟨rfl, rfl⟩ | ⟨rfl, rfl⟩ <;> simpa using hp'
        subst this
        exact ⟨u, rfl, h1, ⟨h3, h4⟩, fun _ => ⟨h2, fun h => absurd h hne⟩⟩
  unfold P.digitsBase
  split
  · rename_i h
    obtain ⟨s', rfl⟩ := startsWith_iff.mp h
    exact based 'x' 16 _ (by simp [baseOf]) (by simp) (by decide)
  · rename_i hx
    split
    · rename_i h
      obtain ⟨s', rfl⟩ := startsWith_iff.mp h
      exact based 'o' 8 _ (by simp [baseOf]) (by simp) (by decide)
    · rename_i ho
      split
      · rename_i h
        obtain ⟨s', rfl⟩ := startsWith_iff.mp h
        exact based 'b' 2 _ (by simp [baseOf]) (by simp) (by decide)
      · rename_i hbb
        simp only [startsWith_iff_prefix] at hx ho hbb
        rw [digitsLoop_iff (by simp)]
        have hno : ∀ p b, (p, b) ∈ baseOf → ¬ ['0', p] <+: s := by
          intro p b hp
          simp [baseOf] at hp
          rcases hp with ⟨rfl, rfl⟩ | ⟨rfl, rfl⟩ | ⟨rfl, rfl⟩ <;> assumption
        constructor
        · rintro ⟨u, e, h1, h2, h3⟩
          obtain ⟨⟨x, hx, -⟩, h5⟩ := h3 rfl
          cases u with
          | nil => simp at hx
          | cons d u =>
            have hd : DecDigit d := by
              rcases h1 d (by simp) with h | h
              · exact baseDigit_ten.mp h
              · exact absurd (by simp [h]) (h5 rfl)
            refine ⟨d :: u, e, .dec hd ?_ h2.1 ?_⟩
            · intro c hc
              rcases h1 c (by simp [hc]) with h | h
              · exact .inl (baseDigit_ten.mp h)
              · exact .inr h
            · rw [← e]; exact hno
        · rintro ⟨x, rfl, hint⟩
          cases hint with
          | @dec d u r h1 h2 h3 h4 =>
            have hne : d ≠ '_' := by rintro rfl; exact not_decDigit_us h1
            refine ⟨d :: u, rfl, ?_, digitsEnd_ten.mpr h3, fun _ => ⟨⟨d, by simp, hne⟩, fun _ => by
              simpa using hne⟩⟩
            intro c hc
            simp at hc
            rcases hc with rfl | hc
            · exact .inl (baseDigit_ten.mpr h1)
            · rcases h2 c hc with h | h
              · exact .inl (baseDigit_ten.mpr h)
              · exact .inr h
          | @based p' b' u r hp' h1 h2 h3 h4 => exact absurd ⟨u ++ r, rfl⟩ (hno _ _ hp')

theorem P.int_iff {s r : List Char} : P.int s = some r ↔ ∃ x, s = x ++ r ∧ IntLit x r := by
  unfold P.int
  rw [Option.bind_eq_some_iff]
  constructor
  · rintro ⟨r1, h1, h2⟩
    obtain ⟨b, rfl, hb⟩ := P.digits_iff.mp h1
    obtain ⟨suf, rfl, hs, he⟩ := P.numTail_iff.mp h2
    exact ⟨b ++ suf, by simp, b, suf, rfl, hb, hs, he⟩
  · rintro ⟨x, rfl, b, suf, rfl, hb, hs, he⟩
    exact ⟨suf ++ r, P.digits_iff.mpr ⟨b, by simp, hb⟩, P.numTail_iff.mpr ⟨suf, rfl, hs, he⟩⟩

/-- numbers -/
theorem P.number_iff {s r : List Char} : (P.float s <|> P.int s) = some r ↔
    ∃ x, s = x ++ r ∧ NumberLit x r := by
  have hno : P.float s = none ↔ ¬ ∃ x' r', s = x' ++ r' ∧ FloatLit x' r' := by
    constructor
    · rintro h ⟨x, r', e, hx⟩
      have := P.float_iff.mpr ⟨x, e, hx⟩
      rw [h] at this; simp at this
    · intro h
      cases hf : P.float s with
      | none => rfl
      | some r' =>
        obtain ⟨x, e, hx⟩ := P.float_iff.mp hf
        exact absurd ⟨x, r', e, hx⟩ h
  constructor
  · intro h
    cases hf : P.float s with
    | some r' =>
      rw [hf] at h
      simp at h; subst h
      obtain ⟨x, e, hx⟩ := P.float_iff.mp hf
      exact ⟨x, e, .inl hx⟩
    | none =>
      rw [hf] at h
      obtain ⟨x, e, hx⟩ := P.int_iff.mp (by simpa using h)
      exact ⟨x, e, .inr ⟨by rw [← e]; exact hno.mp hf, hx⟩⟩
  · rintro ⟨x, e, hx | ⟨hn, hx⟩⟩
    · rw [P.float_iff.mpr ⟨x, e, hx⟩]; rfl
    · rw [hno.mpr (by rw [e]; exact hn)]
      simpa using P.int_iff.mpr ⟨x, e, hx⟩

end

end PM2
