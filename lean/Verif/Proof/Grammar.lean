import Verif.Proof.Leaves
/-! # The lexer accepts exactly the grammar of quoted literals -/

set_option linter.unusedSectionVars false

namespace PM2
open Spec

theorem isHexChar_iff {c : Char} : isHexChar c = true ↔ HexDigit c := by
  unfold isHexChar HexDigit
  simp only [Bool.or_eq_true, Bool.and_eq_true, decide_eq_true_eq, or_assoc]

theorem charLe {a b : Char} : a ≤ b ↔ a.toNat ≤ b.toNat := by
  exact Char.le_def.trans UInt32.le_iff_toNat_le

theorem hexVal_iff {c : Char} {n : Nat} : hexVal c = some n ↔ HexDigit c ∧ n = hexDigitVal c := by
  unfold hexVal HexDigit hexDigitVal
  simp only [charLe]
  have e1 : ('0' : Char).toNat = 48 := rfl
  have e2 : ('9' : Char).toNat = 57 := rfl
  have e3 : ('a' : Char).toNat = 97 := rfl
  have e4 : ('f' : Char).toNat = 102 := rfl
  have e5 : ('A' : Char).toNat = 65 := rfl
  have e6 : ('F' : Char).toNat = 70 := rfl
  simp only [e1, e2, e3, e4, e5, e6]
  generalize c.toNat = m
  constructor
  · intro h
    split at h
    · simp at h; refine ⟨by omega, ?_⟩; rw [if_pos (by omega)]; omega
    · split at h
      · simp at h; refine ⟨by omega, ?_⟩; rw [if_neg (by omega), if_neg (by omega)]; omega
      · split at h
        · simp at h; refine ⟨by omega, ?_⟩; rw [if_neg (by omega), if_pos (by omega)]; omega
        · simp at h
  · rintro ⟨h, rfl⟩
    by_cases h1 : m ≤ 57
    · rw [if_pos (by omega), if_pos h1]
    · rw [if_neg (by omega), if_neg h1]
      by_cases h2 : m ≤ 70
      · rw [if_neg (by omega), if_pos (by omega), if_pos h2]; congr 1; omega
      · rw [if_pos (by omega), if_neg h2]; congr 1; omega

theorem hexVal_none {c : Char} : hexVal c = none ↔ ¬ HexDigit c := by
  constructor
  · intro h hd
    have := hexVal_iff.mpr ⟨hd, rfl⟩
    rw [h] at this; simp at this
  · intro h
    cases hv : hexVal c with
    | none => rfl
    | some n => exact absurd (hexVal_iff.mp hv).1 h

theorem not_hex_us : ¬ HexDigit '_' := by unfold HexDigit; decide
theorem not_hex_brace : ¬ HexDigit '}' := by unfold HexDigit; decide

/-- continue reading a hexadecimal number -/
def hexFrom (v : Nat) (ds : List Char) : Nat := ds.foldl (fun n c => n * 16 + hexDigitVal c) v

theorem P.uLoop_iff {s r : List Char} {v l : Nat} {c : Char} (hl : l ≤ 6) :
    P.uLoop s v l = some (c, r) ↔ ∃ ds, s = ds ++ '}' :: r ∧ (∀ x ∈ ds, HexDigit x ∨ x = '_') ∧
      (l = 0 → ∃ d u, ds = d :: u ∧ HexDigit d) ∧ l + (ds.filter (· ≠ '_')).length ≤ 6 ∧
      charFromU32 (hexFrom v (ds.filter (· ≠ '_'))) = some c := by
  induction s generalizing v l with
  | nil =>
    simp only [P.uLoop, reduceCtorEq, false_iff]
    rintro ⟨ds, h, -⟩
    simp at h
  | cons ch s ih =>
    simp only [P.uLoop]
    cases hv : hexVal ch with
    | some d =>
      obtain ⟨hd, rfl⟩ := hexVal_iff.mp hv
      have hne : ch ≠ '_' := by rintro rfl; exact not_hex_us hd
      have hne2 : ch ≠ '}' := by rintro rfl; exact not_hex_brace hd
      simp only
      by_cases h6 : l = 6
      · rw [if_pos h6]
        simp only [reduceCtorEq, false_iff]
        rintro ⟨ds, e, -, -, h, -⟩
        cases ds with
        | nil => simp at e; exact hne2 e.1
        | cons x ds =>
          simp at e
          obtain ⟨rfl, rfl⟩ := e
          simp [List.filter_cons, hne] at h
          omega
      · rw [if_neg h6, ih (by omega)]
        constructor
        · rintro ⟨ds, rfl, h1, -, h3, h4⟩
          refine ⟨ch :: ds, rfl, ?_, fun _ => ⟨ch, ds, rfl, hd⟩, ?_, ?_⟩
          · intro x hx
            rcases List.mem_cons.mp hx with rfl | hx
            · exact .inl hd
            · exact h1 x hx
          · simp only [List.filter_cons, hne, ne_eq, not_false_eq_true, decide_true, if_true,
              List.length_cons]
            simp only [ne_eq] at h3
            omega
          · simpa [List.filter_cons, hne, hexFrom] using h4
        · rintro ⟨ds, e, h1, -, h3, h4⟩
          cases ds with
          | nil => simp at e; exact absurd e.1 hne2
          | cons x ds =>
            simp at e
            obtain ⟨rfl, rfl⟩ := e
            refine ⟨ds, rfl, fun x hx => h1 x (by simp [hx]), by omega, ?_, ?_⟩
            · simp only [List.filter_cons, hne, ne_eq, not_false_eq_true, decide_true, if_true,
                List.length_cons] at h3
              simp only [ne_eq]
              omega
            · simpa [List.filter_cons, hne, hexFrom] using h4
    | none =>
      have hnd := hexVal_none.mp hv
      simp only
      by_cases h1 : ch = '_' ∧ l > 0
      · rw [if_pos h1, ih hl]
        obtain ⟨rfl, hl0⟩ := h1
        constructor
        · rintro ⟨ds, rfl, g1, -, g3, g4⟩
          refine ⟨'_' :: ds, rfl, ?_, by omega, ?_, ?_⟩
          · intro x hx
            rcases List.mem_cons.mp hx with rfl | hx
            · exact .inr rfl
            · exact g1 x hx
          · simpa [List.filter_cons] using g3
          · simpa [List.filter_cons] using g4
        · rintro ⟨ds, e, g1, -, g3, g4⟩
          cases ds with
          | nil => simp at e
          | cons x ds =>
            simp at e
            obtain ⟨rfl, rfl⟩ := e
            refine ⟨ds, rfl, fun x hx => g1 x (by simp [hx]), by omega, ?_, ?_⟩
            · simpa [List.filter_cons] using g3
            · simpa [List.filter_cons] using g4
      · rw [if_neg h1]
        by_cases h2 : ch = '}' ∧ l > 0
        · rw [if_pos h2]
          obtain ⟨rfl, hl0⟩ := h2
          constructor
          · intro h
            refine ⟨[], ?_, by simp, by omega, by simpa using hl, ?_⟩
            · split at h <;> simp at h
              simp [h.2]
            · simp only [List.filter_nil, hexFrom, List.foldl_nil]
              split at h
              · rename_i hc
                simp at h; rw [hc, h.1]
              · simp at h
          · rintro ⟨ds, e, g1, -, g3, g4⟩
            cases ds with
            | nil =>
              simp at e
              subst e
              simp only [List.filter_nil, hexFrom, List.foldl_nil] at g4
              rw [g4]
            | cons x ds =>
              simp at e
              obtain ⟨rfl, rfl⟩ := e
              rcases g1 '}' (by simp) with g | g
              · exact absurd g not_hex_brace
              · exact absurd g (by decide)
        · rw [if_neg h2]
          simp only [reduceCtorEq, false_iff]
          rintro ⟨ds, e, g1, g2, -⟩
          cases ds with
          | nil =>
            simp at e
            by_cases hl0 : l = 0
            · obtain ⟨d, u, h, -⟩ := g2 hl0; simp at h
            · exact h2 ⟨e.1, by omega⟩
          | cons x ds =>
            simp at e
            obtain ⟨rfl, rfl⟩ := e
            rcases g1 ch (by simp) with g | g
            · exact hnd g
            · by_cases hl0 : l = 0
              · obtain ⟨d, u, h, hd⟩ := g2 hl0
                simp at h; rw [← h.1] at hd; exact hnd hd
              · exact h1 ⟨g, by omega⟩

theorem charFromU32_iff {n : Nat} {c : Char} : charFromU32 n = some c ↔ c.toNat = n := by
  unfold charFromU32
  split
  · rename_i h
    simp only [Option.some.injEq]
    constructor
    · rintro rfl
      unfold Char.ofNat
      rw [dif_pos h]
      rfl
    · rintro rfl
      exact Char.ofNat_toNat c
  · rename_i h
    simp only [reduceCtorEq, false_iff]
    rintro rfl
    exact h c.valid

theorem P.uEsc_iff {s r : List Char} {c : Char} :
    P.uEsc s = some (c, r) ↔ ∃ ds, s = '{' :: ds ++ '}' :: r ∧ UniText ds c := by
  cases s with
  | nil => simp [P.uEsc]
  | cons ch s =>
    simp only [P.uEsc]
    by_cases h : ch = '{'
    · subst h
      rw [if_pos rfl, P.uLoop_iff (by omega)]
      constructor
      · rintro ⟨ds, rfl, h1, h2, h3, h4⟩
        exact ⟨ds, rfl, ⟨h2 rfl, h1, by omega, charFromU32_iff.mp h4⟩⟩
      · rintro ⟨ds, e, h⟩
        simp at e
        exact ⟨ds, e, h.chars, fun _ => h.first, by have := h.count; omega,
          charFromU32_iff.mpr h.value⟩
    · rw [if_neg h]
      simp only [reduceCtorEq, false_iff]
      rintro ⟨ds, e, -⟩
      simp at e
      exact h e.1

/-! ### Cooked strings -/

theorem P.badChar_false {k : P.Kind} {c : Char} : P.badChar k c = false ↔ CharOk k c := by
  cases k <;> simp [P.badChar, CharOk]

theorem P.cooked_plain {k : P.Kind} {c : Char} {s : List Char} (h1 : c ≠ '"') (h2 : c ≠ '\\')
    (h3 : c ≠ '\r') (h4 : CharOk k c) : P.cooked k (c :: s) = P.cooked k s := by
  rw [P.cooked_cons, if_neg h1]
  simp only [P.cookedUnit, h3, h2, P.badChar_false.mpr h4, if_false, Bool.false_eq_true]

theorem P.cooked_cr {k : P.Kind} {s : List Char} :
    P.cooked k ('\r' :: s) = match s with
      | c2 :: s => if c2 = '\n' then P.cooked k s else none
      | [] => none := by
  rw [P.cooked_cons, if_neg (by decide)]
  simp only [P.cookedUnit, if_true]
  cases s with
  | nil => rfl
  | cons c2 s => simp only; split <;> simp_all

theorem P.cooked_trailing (k : P.Kind) (s : List Char) :
    P.cooked k s = (P.trailing s).bind (P.cooked k) := by
  induction hn : s.length using Nat.strongRecOn generalizing s with
  | _ n ih =>
    cases s with
    | nil => simp [P.trailing, P.cooked_nil]
    | cons c s =>
      rw [P.trailing.eq_def]
      simp only
      by_cases h1 : c = ' ' ∨ c = '\t' ∨ c = '\n'
      · rw [if_pos h1]
        rw [P.cooked_plain, ih s.length (by simp at hn; omega) s rfl]
        · rcases h1 with rfl | rfl | rfl <;> decide
        · rcases h1 with rfl | rfl | rfl <;> decide
        · rcases h1 with rfl | rfl | rfl <;> decide
        · rcases h1 with rfl | rfl | rfl <;> cases k <;> simp [CharOk] <;> decide
      · rw [if_neg h1]
        by_cases h2 : c = '\r'
        · subst h2
          rw [if_pos rfl, P.cooked_cr]
          cases s with
          | nil => rfl
          | cons c2 s =>
            simp only
            split
            · exact ih s.length (by simp at hn; omega) s rfl
            · rfl
        · rw [if_neg h2]; rfl

theorem P.xEsc_iff {k : P.Kind} {s r : List Char} :
    P.xEsc k s = some r ↔ ∃ a b, s = a :: b :: r ∧ Esc k ['x', a, b] := by
  cases s with
  | nil => simp [P.xEsc]
  | cons a s =>
    cases s with
    | nil => simp [P.xEsc]
    | cons b s =>
      have inv : Esc k ['x', a, b] ↔ (k = .str ∧ ('0' ≤ a ∧ a ≤ '7') ∧ HexDigit b) ∨
          (k = .byte ∧ HexDigit a ∧ HexDigit b) ∨
          (k = .c ∧ HexDigit a ∧ HexDigit b ∧ ¬ (a = '0' ∧ b = '0')) := by
        constructor
        · intro h
          generalize hl : ['x', a, b] = l at h
          cases h with
          | simple => simp at hl
          | zero => simp at hl
          | hexStr h1 h2 h3 => simp at hl; obtain ⟨rfl, rfl⟩ := hl; exact .inl ⟨h1, h2, h3⟩
          | hexByte h1 h2 h3 => simp at hl; obtain ⟨rfl, rfl⟩ := hl; exact .inr (.inl ⟨h1, h2, h3⟩)
          | hexC h1 h2 h3 h4 =>
            simp at hl; obtain ⟨rfl, rfl⟩ := hl; exact .inr (.inr ⟨h1, h2, h3, h4⟩)
          | uni => simp at hl
          | newline => simp at hl
          | crlf => simp at hl
        · rintro (⟨h1, h2, h3⟩ | ⟨h1, h2, h3⟩ | ⟨h1, h2, h3, h4⟩)
          · exact .hexStr h1 h2 h3
          · exact .hexByte h1 h2 h3
          · exact .hexC h1 h2 h3 h4
      have hsplit : (∃ a' b', a :: b :: s = a' :: b' :: r ∧ Esc k ['x', a', b']) ↔
          s = r ∧ Esc k ['x', a, b] := by
        constructor
        · rintro ⟨a', b', e, h⟩
          simp at e
          obtain ⟨rfl, rfl, rfl⟩ := e
          exact ⟨rfl, h⟩
        · rintro ⟨rfl, h⟩; exact ⟨a, b, rfl, h⟩
      rw [hsplit, inv]
      rw [← isHexChar_iff, ← isHexChar_iff]
      cases k <;> simp only [P.xEsc]
      · split
        · rename_i h; simp [h]
        · rename_i h; simp only [reduceCtorEq, false_iff]; rintro ⟨_, ⟨_, h1⟩ | ⟨h1, _⟩ | ⟨h1, _⟩⟩
          · exact h h1
          · exact absurd h1 (by decide)
          · exact absurd h1 (by decide)
      · split
        · rename_i h; simp [h]
        · rename_i h; simp only [reduceCtorEq, false_iff]; rintro ⟨_, ⟨h1, _⟩ | ⟨_, h1⟩ | ⟨h1, _⟩⟩
          · exact absurd h1 (by decide)
          · exact h h1
          · exact absurd h1 (by decide)
      · split
        · rename_i h; simp only [h, Option.some.injEq]; simp
        · rename_i h; simp only [reduceCtorEq, false_iff]; rintro ⟨_, ⟨h1, _⟩ | ⟨h1, _⟩ | ⟨_, h1⟩⟩
          · exact absurd h1 (by decide)
          · exact absurd h1 (by decide)
          · exact h h1

theorem P.esc_sound {k : P.Kind} {s r : List Char} (h : P.esc k s = some r) :
    ∃ e t, s = e ++ t ∧ Esc k e ∧ (t = r ∨ P.trailing t = some r) := by
  cases s with
  | nil => simp [P.esc] at h
  | cons c s =>
    simp only [P.esc] at h
    split at h
    · rename_i hc
      subst hc
      obtain ⟨a, b, rfl, he⟩ := P.xEsc_iff.mp h
      exact ⟨_, r, rfl, he, .inl rfl⟩
    · split at h
      · rename_i hc
        simp at h
        exact ⟨[c], s, rfl, .simple (by simpa using hc), .inl h⟩
      · split at h
        · rename_i hc
          subst hc
          split at h
          · simp at h
          · rename_i hk
            simp at h
            exact ⟨['0'], s, rfl, .zero hk, .inl h⟩
        · split at h
          · rename_i hc
            subst hc
            split at h
            · simp at h
            · rename_i hk
              split at h
              · rename_i v r' hu
                obtain ⟨ds, rfl, hd⟩ := P.uEsc_iff.mp hu
                split at h
                · simp at h
                · rename_i hz
                  simp at h
                  subst h
                  refine ⟨'u' :: '{' :: ds ++ ['}'], r', by simp, .uni hk hd ?_, .inl rfl⟩
                  intro hkc hv
                  exact hz ⟨hkc, hv⟩
              · simp at h
          · split at h
            · rename_i hc
              subst hc
              exact ⟨['\n'], s, rfl, .newline, .inr h⟩
            · split at h
              · rename_i hc
                subst hc
                split at h
                · split at h
                  · rename_i c2 s' hc2
                    subst hc2
                    exact ⟨['\r', '\n'], s', rfl, .crlf, .inr h⟩
                  · simp at h
                · simp at h
              · simp at h

theorem P.cooked_esc {k : P.Kind} {e s : List Char} (he : Esc k e) :
    P.cooked k ('\\' :: e ++ s) = P.cooked k s := by
  have key : P.esc k (e ++ s) = some s ∨ P.esc k (e ++ s) = P.trailing s := by
    cases he with
    | @simple c hc =>
      left
      simp only [List.cons_append, List.nil_append, P.esc]
      have hx : c ≠ 'x' := by rintro rfl; exact absurd hc (by decide)
      rw [if_neg hx, if_pos (by simpa using hc)]
    | zero hk =>
      left
      simp [P.esc, hk]
    | @hexStr a b h1 h2 h3 =>
      left
      exact P.xEsc_iff.mpr ⟨a, b, rfl, .hexStr h1 h2 h3⟩
    | @hexByte a b h1 h2 h3 =>
      left
      exact P.xEsc_iff.mpr ⟨a, b, rfl, .hexByte h1 h2 h3⟩
    | @hexC a b h1 h2 h3 h4 =>
      left
      exact P.xEsc_iff.mpr ⟨a, b, rfl, .hexC h1 h2 h3 h4⟩
    | @uni ds v hk hu hz =>
      left
      have : P.uEsc ('{' :: ds ++ ['}'] ++ s) = some (v, s) := P.uEsc_iff.mpr ⟨ds, by simp, hu⟩
      have e : 'u' :: '{' :: ds ++ ['}'] ++ s = 'u' :: ('{' :: ds ++ ['}'] ++ s) := by simp
      rw [e]
      generalize '{' :: ds ++ ['}'] ++ s = w at this
      simp only [P.esc]
      rw [if_neg (by decide), if_neg (by decide), if_neg (by decide), if_pos trivial, if_neg hk, this]
      simp only
      rw [if_neg]
      rintro ⟨h1, h2⟩
      exact hz h1 h2
    | newline =>
      right
      simp [P.esc]
    | crlf =>
      right
      simp [P.esc]
  have hc : '\\' :: e ++ s = '\\' :: (e ++ s) := rfl
  rw [hc, P.cooked_cons, if_neg (by decide)]
  simp only [P.cookedUnit, if_true]
  rw [if_neg (by decide)]
  rcases key with h | h
  · rw [h]
  · rw [h]
    conv => rhs; rw [P.cooked_trailing]
    cases P.trailing s <;> rfl

theorem P.cooked_iff {k : P.Kind} {s r : List Char} :
    P.cooked k s = some r ↔ ∃ b, s = b ++ '"' :: r ∧ CookedBody k b := by
  constructor
  · intro h
    induction hn : s.length using Nat.strongRecOn generalizing s with
    | _ n ih =>
      cases s with
      | nil => rw [P.cooked_nil] at h; simp at h
      | cons c s =>
        by_cases h1 : c = '"'
        · subst h1
          rw [P.cooked_cons, if_pos rfl] at h
          simp at h
          exact ⟨[], by simp [h], .nil⟩
        by_cases h2 : c = '\r'
        · subst h2
          rw [P.cooked_cr] at h
          cases s with
          | nil => simp at h
          | cons c2 s =>
            simp only at h
            split at h
            · rename_i hc
              subst hc
              obtain ⟨b, rfl, hb⟩ := ih s.length (by simp at hn; omega) h rfl
              exact ⟨'\r' :: '\n' :: b, rfl, .crlf hb⟩
            · simp at h
        by_cases h3 : c = '\\'
        · subst h3
          have h0 := h
          rw [P.cooked_cons, if_neg (by decide)] at h
          simp only [P.cookedUnit, if_true] at h
          rw [if_neg (by decide)] at h
          cases he : P.esc k s with
          | none => rw [he] at h; simp at h
          | some r1 =>
            obtain ⟨e, t, rfl, hE, -⟩ := P.esc_sound he
            have := P.cooked_esc (s := t) hE
            rw [List.cons_append] at this
            rw [this] at h0
            obtain ⟨b, rfl, hb⟩ := ih t.length (by simp at hn; omega) h0 rfl
            exact ⟨'\\' :: e ++ b, by simp, .esc hE hb⟩
        · by_cases h4 : P.badChar k c = true
          · rw [P.cooked_cons, if_neg h1] at h
            simp [P.cookedUnit, h2, h3, h4] at h
          · have h4' : CharOk k c := P.badChar_false.mp (by simpa using h4)
            rw [P.cooked_plain h1 h3 h2 h4'] at h
            obtain ⟨b, rfl, hb⟩ := ih s.length (by simp at hn; omega) h rfl
            exact ⟨c :: b, rfl, .char h1 h3 h2 h4' hb⟩
  · rintro ⟨b, rfl, hb⟩
    induction hb with
    | nil => rw [List.nil_append, P.cooked_cons, if_pos rfl]
    | char h1 h2 h3 h4 _ ih => rw [List.cons_append, P.cooked_plain h1 h2 h3 h4]; exact ih
    | crlf _ ih => simp only [List.cons_append, P.cooked_cr, if_true]; exact ih
    | @esc e t he _ ih =>
      have := P.cooked_esc (s := t ++ '"' :: r) he
      simp only [List.cons_append, List.append_assoc] at this ⊢
      rw [this]; exact ih

/-! ### Raw strings -/

theorem P.delim_iff {s r : List Char} {i n : Nat} :
    P.delim s i = some (n, r) ↔ ∃ m, n = i + m ∧ n ≤ 255 ∧ s = List.replicate m '#' ++ '"' :: r := by
  induction s generalizing i with
  | nil => simp [P.delim]
  | cons c s ih =>
    simp only [P.delim]
    by_cases h1 : c = '"'
    · subst h1
      rw [if_pos rfl]
      constructor
      · intro h
        split at h
        · simp at h
        · simp at h
          obtain ⟨rfl, rfl⟩ := h
          exact ⟨0, by omega, by omega, rfl⟩
      · rintro ⟨m, rfl, h, e⟩
        cases m with
        | zero => simp at e; rw [if_neg (by omega), e]; rfl
        | succ m => simp [List.replicate_succ] at e
    · rw [if_neg h1]
      by_cases h2 : c = '#'
      · subst h2
        rw [if_pos rfl, ih]
        constructor
        · rintro ⟨m, rfl, h, rfl⟩
          exact ⟨m + 1, by omega, h, by simp [List.replicate_succ]⟩
        · rintro ⟨m, rfl, h, e⟩
          cases m with
          | zero => simp at e
          | succ m =>
            simp [List.replicate_succ] at e
            exact ⟨m, by omega, h, e⟩
      · rw [if_neg h2]
        simp only [reduceCtorEq, false_iff]
        rintro ⟨m, -, -, e⟩
        cases m with
        | zero => simp at e; exact h1 e.1
        | succ m => simp [List.replicate_succ] at e; exact h2 e.1

theorem hashes_prefix {n : Nat} {a r : List Char} :
    List.replicate n '#' <+: a ++ '"' :: r ↔ List.replicate n '#' <+: a := by
  constructor
  · intro h
    induction a generalizing n with
    | nil =>
      cases n with
      | zero => exact List.nil_prefix
      | succ n => simp [List.replicate_succ] at h
    | cons x a ih =>
      cases n with
      | zero => exact List.nil_prefix
      | succ n =>
        simp only [List.replicate_succ, List.cons_append, List.cons_prefix_cons] at h ⊢
        exact ⟨h.1, ih h.2⟩
  · intro h; exact h.trans (List.prefix_append _ _)

theorem Spec.RawBody.tail {k : StrKind} {n : Nat} {c : Char} {t : List Char} (h : RawBody k n (c :: t)) :
    RawBody k n t :=
  ⟨fun a b e => h.noTerm (c :: a) b (by simp [e]), fun a b e => h.noCr (c :: a) b (by simp [e]),
    fun x hx => h.chars x (by simp [hx])⟩

theorem Spec.RawBody.cons {k : StrKind} {n : Nat} {c : Char} {t : List Char} (h : RawBody k n t)
    (h1 : c = '"' → ¬ List.replicate n '#' <+: t) (h2 : c = '\r' → ∃ t', t = '\n' :: t')
    (h3 : CharOk k c) : RawBody k n (c :: t) := by
  refine ⟨?_, ?_, ?_⟩
  · intro a b e
    cases a with
    | nil => simp at e; obtain ⟨rfl, rfl⟩ := e; exact h1 rfl
    | cons x a => simp at e; exact h.noTerm a b e.2
  · intro a b e
    cases a with
    | nil => simp at e; obtain ⟨rfl, rfl⟩ := e; exact h2 rfl
    | cons x a => simp at e; exact h.noCr a b e.2
  · intro x hx
    rcases List.mem_cons.mp hx with rfl | hx
    · exact h3
    · exact h.chars x hx

theorem P.raw_iff {k : P.Kind} {n : Nat} {s r : List Char} :
    P.raw k n s = some r ↔ ∃ b, s = b ++ '"' :: List.replicate n '#' ++ r ∧ RawBody k n b := by
  have okq : CharOk k '"' := by cases k <;> simp [CharOk] <;> decide
  have okr : CharOk k '\r' := by cases k <;> simp [CharOk] <;> decide
  have okn : CharOk k '\n' := by cases k <;> simp [CharOk] <;> decide
  constructor
  · intro h
    induction hn : s.length using Nat.strongRecOn generalizing s with
    | _ m ih =>
      cases s with
      | nil => rw [P.raw_nil] at h; simp at h
      | cons c s =>
        rw [P.raw_cons] at h
        split at h
        · rename_i hc
          subst hc
          split at h
          · rename_i hp
            simp at h
            subst h
            refine ⟨[], ?_, ⟨by simp, by intro a b e; simp at e, by simp⟩⟩
            have := startsWith_drop hp
            simp at this ⊢
            exact this
          · rename_i hp
            rw [startsWith_iff_prefix] at hp
            obtain ⟨b, rfl, hb⟩ := ih s.length (by simp at hn; omega) h rfl
            refine ⟨'"' :: b, rfl, hb.cons (fun _ => ?_) (by simp) okq⟩
            intro hpre
            apply hp
            rw [List.append_assoc, List.cons_append]
            exact hashes_prefix.mpr hpre
        · rename_i hc
          split at h
          · rename_i hr
            subst hr
            cases s with
            | nil => simp [P.crRaw] at h
            | cons c2 s =>
              simp only [P.crRaw] at h
              split at h
              · rename_i hc2
                subst hc2
                obtain ⟨b, rfl, hb⟩ := ih s.length (by simp at hn; omega) h rfl
                refine ⟨'\r' :: '\n' :: b, rfl, ?_⟩
                exact (hb.cons (by simp) (by simp) okn).cons (by simp) (fun _ => ⟨b, rfl⟩) okr
              · simp at h
          · rename_i hr
            split at h
            · simp at h
            · rename_i hb'
              obtain ⟨b, rfl, hb⟩ := ih s.length (by simp at hn; omega) h rfl
              exact ⟨c :: b, rfl, hb.cons (fun e => absurd e hc) (fun e => absurd e hr)
                (P.badChar_false.mp (by simpa using hb'))⟩
  · rintro ⟨b, rfl, hb⟩
    induction hn : b.length using Nat.strongRecOn generalizing b with
    | _ m ih =>
      cases b with
      | nil =>
        simp only [List.nil_append, List.cons_append]
        rw [P.raw_cons, if_pos rfl, if_pos]
        · simp
        · rw [startsWith_iff_prefix]; exact List.prefix_append _ _
      | cons c b =>
        have ihb := ih b.length (by simp at hn; omega) b hb.tail rfl
        simp only [List.cons_append]
        rw [P.raw_cons]
        by_cases h1 : c = '"'
        · subst h1
          rw [if_pos rfl, if_neg, ihb]
          rw [startsWith_iff_prefix, List.append_assoc, List.cons_append, hashes_prefix]
          exact hb.noTerm [] b rfl
        · rw [if_neg h1]
          by_cases h2 : c = '\r'
          · subst h2
            rw [if_pos rfl]
            obtain ⟨b', rfl⟩ := hb.noCr [] b rfl
            simp only [List.cons_append, P.crRaw, if_true]
            exact ih b'.length (by simp at hn; omega) b' hb.tail.tail rfl
          · rw [if_neg h2, P.badChar_false.mpr (hb.chars c (by simp))]
            simpa using ihb

/-! ### String literals without suffix -/

section
variable [UnicodeTables]

theorem P.kpre_eq (k : P.Kind) : P.kpre k = kindPrefix k := by cases k <;> rfl

theorem P.strBody_iff {k : P.Kind} {s r : List Char} :
    P.strBody k s = some r ↔ ∃ x, s = x ++ r ∧ StrText k x := by
  unfold P.strBody
  rw [P.kpre_eq]
  constructor
  · intro h
    split at h
    · rename_i hp
      obtain ⟨u, rfl⟩ := startsWith_iff.mp hp
      have e : (kindPrefix k ++ ['"'] ++ u).drop ((kindPrefix k).length + 1) = u := by
        rw [show (kindPrefix k).length + 1 = (kindPrefix k ++ ['"']).length by simp, List.drop_left]
      rw [e] at h
      obtain ⟨b, rfl, hb⟩ := P.cooked_iff.mp h
      exact ⟨_, by simp, .cooked hb⟩
    · split at h
      · rename_i hp
        obtain ⟨u, rfl⟩ := startsWith_iff.mp hp
        have e : (kindPrefix k ++ ['r'] ++ u).drop ((kindPrefix k).length + 1) = u := by
          rw [show (kindPrefix k).length + 1 = (kindPrefix k ++ ['r']).length by simp, List.drop_left]
        rw [e] at h
        unfold P.rawLit at h
        split at h
        · rename_i n s' hd
          obtain ⟨m, e1, h2, rfl⟩ := P.delim_iff.mp hd
          simp at e1
          subst e1
          obtain ⟨b, rfl, hb⟩ := P.raw_iff.mp h
          exact ⟨_, by simp, .raw h2 hb⟩
        · simp at h
      · simp at h
  · rintro ⟨x, rfl, hx⟩
    cases hx with
    | @cooked b hb =>
      rw [if_pos (by rw [startsWith_iff]; exact ⟨b ++ ['"'] ++ r, by simp⟩)]
      rw [show kindPrefix k ++ '"' :: b ++ ['"'] ++ r = (kindPrefix k ++ ['"']) ++ (b ++ '"' :: r) by
        simp, show (kindPrefix k).length + 1 = (kindPrefix k ++ ['"']).length by simp, List.drop_left]
      exact P.cooked_iff.mpr ⟨b, rfl, hb⟩
    | @raw n b hn hb =>
      have e : kindPrefix k ++ 'r' :: List.replicate n '#' ++ '"' :: b ++ '"' :: List.replicate n '#'
          ++ r = (kindPrefix k ++ ['r']) ++ (List.replicate n '#' ++ '"' ::
            (b ++ '"' :: List.replicate n '#' ++ r)) := by simp
      rw [e, if_neg, if_pos (by rw [startsWith_iff]; exact ⟨_, rfl⟩),
        show (kindPrefix k).length + 1 = (kindPrefix k ++ ['r']).length by simp, List.drop_left]
      · unfold P.rawLit
        rw [P.delim_iff.mpr ⟨n, by simp, hn, rfl⟩]
        exact P.raw_iff.mpr ⟨b, rfl, hb⟩
      · rw [startsWith_iff]
        rintro ⟨u, hu⟩
        rw [List.append_assoc, List.append_assoc (kindPrefix k)] at hu
        have := List.append_cancel_left hu
        simp at this

theorem P.byteElem_iff {s r : List Char} :
    P.byteElem s = some r ↔ ∃ e, s = e ++ r ∧ ByteElem e := by
  constructor
  · intro h
    cases s with
    | nil => simp [P.byteElem] at h
    | cons c s =>
      simp only [P.byteElem] at h
      split at h
      · rename_i hc
        subst hc
        split at h
        · rename_i c2 s2
          split at h
          · rename_i hx
            subst hx
            obtain ⟨a, b, rfl, he⟩ := P.xEsc_iff.mp h
            refine ⟨['\\', 'x', a, b], rfl, ?_⟩
            generalize hl : ['x', a, b] = l at he
            cases he <;> simp at hl
            · simp_all
            · obtain ⟨rfl, rfl⟩ := hl; exact .hex ‹_› ‹_›
            · simp_all
          · split at h
            · rename_i hx
              simp at h
              subst h
              exact ⟨['\\', c2], rfl, .simple (by simpa using hx)⟩
            · simp at h
        · simp at h
      · rename_i hc
        split at h
        · rename_i hlt
          simp at h; subst h
          exact ⟨[c], rfl, .char hc hlt⟩
        · simp at h
  · rintro ⟨e, rfl, he⟩
    cases he with
    | char h1 h2 => simp [P.byteElem, h1, h2]
    | @simple c hc =>
      have hx : c ≠ 'x' := by rintro rfl; exact absurd hc (by decide)
      simp only [List.cons_append, List.nil_append, P.byteElem, if_true]
      rw [if_neg hx, if_pos (by simpa using hc)]
    | @hex a b h1 h2 =>
      exact P.xEsc_iff.mpr ⟨a, b, rfl, .hexByte rfl h1 h2⟩

theorem P.charElem_iff {s r : List Char} :
    P.charElem s = some r ↔ ∃ e, s = e ++ r ∧ CharElem e := by
  constructor
  · intro h
    cases s with
    | nil => simp [P.charElem] at h
    | cons c s =>
      simp only [P.charElem] at h
      split at h
      · rename_i hc
        subst hc
        split at h
        · rename_i c2 s2
          split at h
          · rename_i hx
            subst hx
            obtain ⟨a, b, rfl, he⟩ := P.xEsc_iff.mp h
            refine ⟨['\\', 'x', a, b], rfl, ?_⟩
            generalize hl : ['x', a, b] = l at he
            cases he <;> simp at hl
            · obtain ⟨rfl, rfl⟩ := hl; exact .hex ‹_› ‹_›
            · simp_all
            · simp_all
          · split at h
            · rename_i hx
              subst hx
              cases hu : P.uEsc s2 with
              | none => rw [hu] at h; simp at h
              | some v =>
                obtain ⟨v, r'⟩ := v
                rw [hu] at h
                simp at h
                subst h
                obtain ⟨ds, rfl, hd⟩ := P.uEsc_iff.mp hu
                exact ⟨'\\' :: 'u' :: '{' :: ds ++ ['}'], by simp, .uni hd⟩
            · split at h
              · rename_i hx
                simp at h
                subst h
                exact ⟨['\\', c2], rfl, .simple (by simpa using hx)⟩
              · simp at h
        · simp at h
      · rename_i hc
        simp at h; subst h
        exact ⟨[c], rfl, .char hc⟩
  · rintro ⟨e, rfl, he⟩
    cases he with
    | char h1 => simp [P.charElem, h1]
    | @simple c hc =>
      have hx : c ≠ 'x' := by rintro rfl; exact absurd hc (by decide)
      have hu : c ≠ 'u' := by rintro rfl; exact absurd hc (by decide)
      simp only [List.cons_append, List.nil_append, P.charElem, if_true]
      rw [if_neg hx, if_neg hu, if_pos (by simpa using hc)]
    | @hex a b h1 h2 =>
      exact P.xEsc_iff.mpr ⟨a, b, rfl, .hexStr rfl h1 h2⟩
    | @uni ds v hu =>
      have : P.uEsc ('{' :: ds ++ ['}'] ++ r) = some (v, r) := P.uEsc_iff.mpr ⟨ds, by simp, hu⟩
      have e : '\\' :: 'u' :: '{' :: ds ++ ['}'] ++ r = '\\' :: 'u' :: ('{' :: ds ++ ['}'] ++ r) := by
        simp
      rw [e]
      generalize '{' :: ds ++ ['}'] ++ r = w at this
      simp [P.charElem, this]

theorem P.quote_iff {s r : List Char} : P.quote s = some r ↔ s = '\'' :: r := by
  cases s with
  | nil => simp [P.quote]
  | cons c s =>
    simp only [P.quote]
    split <;> simp_all

theorem P.byteBody_iff {s r : List Char} :
    P.byteBody s = some r ↔ ∃ e, s = 'b' :: '\'' :: e ++ '\'' :: r ∧ ByteElem e := by
  unfold P.byteBody
  constructor
  · intro h
    split at h
    · rename_i hp
      obtain ⟨u, rfl⟩ := startsWith_iff.mp hp
      simp only [List.cons_append, List.nil_append, List.drop_succ_cons, List.drop_zero] at h
      obtain ⟨w, h1, h2⟩ := Option.bind_eq_some_iff.mp h
      obtain ⟨e, rfl, he⟩ := P.byteElem_iff.mp h1
      rw [P.quote_iff.mp h2]
      exact ⟨e, rfl, he⟩
    · simp at h
  · rintro ⟨e, rfl, he⟩
    rw [if_pos (by simp)]
    simp only [List.cons_append, List.drop_succ_cons, List.drop_zero]
    rw [P.byteElem_iff.mpr ⟨e, rfl, he⟩]
    simp [P.quote]

theorem P.charBody_iff {s r : List Char} :
    P.charBody s = some r ↔ ∃ e, s = '\'' :: e ++ '\'' :: r ∧ CharElem e := by
  unfold P.charBody
  constructor
  · intro h
    split at h
    · rename_i hp
      obtain ⟨u, rfl⟩ := startsWith_iff.mp hp
      simp only [List.cons_append, List.nil_append, List.drop_succ_cons, List.drop_zero] at h
      obtain ⟨w, h1, h2⟩ := Option.bind_eq_some_iff.mp h
      obtain ⟨e, rfl, he⟩ := P.charElem_iff.mp h1
      rw [P.quote_iff.mp h2]
      exact ⟨e, rfl, he⟩
    · simp at h
  · rintro ⟨e, rfl, he⟩
    rw [if_pos (by simp)]
    simp only [List.cons_append, List.drop_succ_cons, List.drop_zero]
    rw [P.charElem_iff.mpr ⟨e, rfl, he⟩]
    simp [P.quote]

end
end PM2
