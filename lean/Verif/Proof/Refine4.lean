import Verif.Proof.Refine3
/-! # Refinement, part 4: raw strings, byte and character literals -/

set_option linter.unusedSectionVars false

namespace PM2

variable {ο : Type} [Pos ο] [LawfulPos ο]

/-- after a carriage return in a raw string -/
def P.crRaw (k : P.Kind) (n : Nat) : List Char → Option (List Char)
  | c2 :: s => if c2 = '\n' then P.raw k n s else none
  | [] => none

theorem P.raw_nil (k : P.Kind) (n : Nat) : P.raw k n [] = none := by rw [P.raw.eq_def]
theorem P.raw_cons (k : P.Kind) (n : Nat) (c : Char) (s : List Char) :
    P.raw k n (c :: s) = if c = '"' then
        if startsWith s (List.replicate n '#') then some (s.drop n) else P.raw k n s
      else if c = '\r' then P.crRaw k n s
      else if P.badChar k c then none else P.raw k n s := by
  rw [P.raw.eq_def]
  simp only
  congr 2

theorem P.raw_stable {k : P.Kind} {n : Nat} {s r : List Char} (h : P.raw k n s = some r) :
    ∃ t, t ≠ [] ∧ s = t ++ r := by
  induction hn : s.length using Nat.strongRecOn generalizing s with
  | _ m ih =>
    cases s with
    | nil => simp [P.raw_nil] at h
    | cons c s =>
      rw [P.raw_cons] at h
      simp at hn
      split at h
      · split at h
        · rename_i hs
          simp at h; subst h
          have := startsWith_drop hs
          simp at this
          exact ⟨c :: List.replicate n '#', by simp, by simp; exact this⟩
        · obtain ⟨t, ht, rfl⟩ := ih s.length (by omega) h rfl
          exact ⟨c :: t, by simp, rfl⟩
      · split at h
        · cases s with
          | nil => simp [P.crRaw] at h
          | cons c2 s =>
            simp only [P.crRaw] at h
            split at h
            · simp at hn
              obtain ⟨t, ht, rfl⟩ := ih s.length (by omega) h rfl
              exact ⟨c :: c2 :: t, by simp, rfl⟩
            · simp at h
        · split at h
          · simp at h
          · obtain ⟨t, ht, rfl⟩ := ih s.length (by omega) h rfl
            exact ⟨c :: t, by simp, rfl⟩

theorem P.raw_suffix {k : P.Kind} {n : Nat} {s r : List Char} (h : P.raw k n s = some r) :
    r <:+ s ∧ r.length < s.length := by
  obtain ⟨t, ht, rfl⟩ := P.raw_stable h
  have := List.length_pos_iff.mpr ht
  exact ⟨List.suffix_append _ _, by simp; omega⟩

theorem P.delim_some {s r : List Char} {i n : Nat} (h : P.delim s i = some (n, r)) :
    i ≤ n ∧ n ≤ 255 ∧ s = List.replicate (n - i) '#' ++ '"' :: r := by
  induction s generalizing i with
  | nil => simp [P.delim] at h
  | cons c s ih =>
    simp only [P.delim] at h
    split at h
    · rename_i hc
      split at h
      · simp at h
      · simp at h; obtain ⟨rfl, rfl⟩ := h
        subst hc
        exact ⟨Nat.le_refl _, by omega, by simp⟩
    · split at h
      · rename_i hc
        obtain ⟨h1, h2, h3⟩ := ih h
        refine ⟨by omega, h2, ?_⟩
        have : n - i = (n - (i + 1)) + 1 := by omega
        rw [this, List.replicate_succ, h3, hc]
        rfl
      · simp at h

theorem P.delim_suffix {s r : List Char} {i n : Nat} (h : P.delim s i = some (n, r)) :
    r <:+ s ∧ r.length < s.length := by
  obtain ⟨-, -, rfl⟩ := P.delim_some h
  refine ⟨⟨List.replicate (n - i) '#' ++ ['"'], by simp⟩, by simp; omega⟩

theorem strLen_replicate (n : Nat) : strLen (List.replicate n '#') = n := by
  induction n with
  | zero => rfl
  | succ n ih =>
    rw [List.replicate_succ, strLen_cons, ih]
    have : '#'.utf8Size = 1 := rfl
    omega

theorem delimiterLoop_eq {input : Cursor ο} (hb : Bnd input) (s : List Char) : ∀ (i : Nat),
    input.rest = List.replicate i '#' ++ s →
    delimiterLoop input (bytesOf s) i =
      lift2 input (·.2) (fun x => List.replicate x.1 '#') (P.delim s i) := by
  induction s with
  | nil => intro i h; rfl
  | cons c s ih =>
    intro i h
    obtain ⟨b, l, e, hl, hB, hlt, hasc, hsz⟩ := bytes_cons c s
    rw [e]
    simp only [delimiterLoop, P.delim]
    by_cases hq : c = '"'
    · rw [if_pos ((hB '"' (by decide)).mpr hq), if_pos hq]
      split
      · rfl
      · rw [advance_eq hb (t := List.replicate i '#' ++ [c]) (r := s) (by simp [h])
          (by subst hq; simp [strLen_replicate]; rfl), Res.ok_bind,
          sliceTo_eq h (strLen_replicate i).symm]
        rfl
    · rw [if_neg (fun h => hq ((hB '"' (by decide)).mp h)), if_neg hq]
      by_cases hh : c = '#'
      · rw [if_pos ((hB '#' (by decide)).mpr hh), if_pos hh]
        obtain ⟨rfl, rfl⟩ := hasc (by subst hh; decide)
        rw [List.nil_append]
        apply ih
        rw [h, hh, List.replicate_succ']
        simp
      · rw [if_neg (fun h => hh ((hB '#' (by decide)).mp h)), if_neg hh]
        rfl

theorem delimiter_eq {c : Cursor ο} (hb : Bnd c) :
    delimiterOfRawString c =
      lift2 c (·.2) (fun x => List.replicate x.1 '#') (P.delim c.rest 0) :=
  delimiterLoop_eq hb c.rest 0 (by simp)

section
variable [UnicodeTables]

theorem rawStringLoop_skip (input : Cursor ο) (d : List Char) (l : List UInt8)
    (hl : ∀ x ∈ l, ¬ x < 128) (bs : List UInt8) (i : Nat) :
    rawStringLoop input d (l ++ bs) i = rawStringLoop input d bs (i + l.length) := by
  induction l generalizing i with
  | nil => simp
  | cons b l ih =>
    have hb := hl b (by simp)
    have ih := ih (fun x hx => hl x (by simp [hx])) (i + 1)
    rw [List.cons_append, rawStringLoop.eq_def]
    simp only
    rw [if_neg (high_ne hb (by decide)), if_neg (high_ne hb (by decide)), ih]
    congr 1
    simp; omega

theorem rawStringLoop_eq {input : Cursor ο} (hb : Bnd input) (n : Nat) : ∀ (m : Nat) (s : List Char),
    s.length ≤ m → ∀ (pre : List Char) (i : Nat), input.rest = pre ++ s → i = strLen pre →
      rawStringLoop input (List.replicate n '#') (bytesOf s) i =
        lift input ((P.raw .str n s).map P.literalSuffix) := by
  intro m
  induction m with
  | zero =>
    intro s hs pre i h hi
    have : s = [] := List.eq_nil_of_length_eq_zero (by omega)
    subst this
    rw [P.raw_nil]; rfl
  | succ m ih =>
    intro s hs pre i h hi
    cases s with
    | nil => rw [P.raw_nil]; rfl
    | cons c s =>
      simp at hs
      obtain ⟨b, l, e, hl, hB, hlt, hasc, hsz⟩ := bytes_cons c s
      rw [e, P.raw_cons, rawStringLoop.eq_def]
      simp only
      by_cases hq : c = '"'
      · rw [if_pos ((hB '"' (by decide)).mpr hq), if_pos hq]
        obtain ⟨rfl, rfl⟩ := hasc (by subst hq; decide)
        have h' : input.rest = (pre ++ [c]) ++ s := by simp [h]
        have hi' : i + 1 = strLen (pre ++ [c]) := by subst hq; simp [hi]; rfl
        rw [sliceFrom_eq h' hi', Res.ok_bind]
        by_cases hd : startsWith s (List.replicate n '#') = true
        · rw [if_pos hd, if_pos hd]
          have := startsWith_drop hd
          simp only [List.length_replicate] at this
          exact finish_eq hb (t := pre ++ [c] ++ List.replicate n '#') (r := s.drop n)
            (by rw [h', List.append_assoc _ _ (s.drop n), ← this]) (by
              rw [strLen_append, ← hi'])
        · rw [if_neg hd, if_neg hd]
          exact ih s (by omega) (pre ++ [c]) _ h' hi'
      · rw [if_neg (fun h => hq ((hB '"' (by decide)).mp h)), if_neg hq]
        by_cases hcr : c = '\r'
        · rw [if_pos ((hB '\r' (by decide)).mpr hcr), if_pos hcr]
          obtain ⟨rfl, rfl⟩ := hasc (by subst hcr; decide)
          rw [List.nil_append]
          cases s with
          | nil => rfl
          | cons c2 s =>
            obtain ⟨b2, l2, e2, hl2, hB2, hlt2, hasc2, hsz2⟩ := bytes_cons c2 s
            rw [e2]
            simp only [P.crRaw]
            by_cases hn : c2 = '\n'
            · rw [if_pos ((hB2 '\n' (by decide)).mpr hn), if_pos hn]
              obtain ⟨rfl, rfl⟩ := hasc2 (by subst hn; decide)
              simp at hs
              exact ih s (by omega) (pre ++ [c, c2]) (i + 2) (by simp [h])
                (by subst hcr hn; simp [hi]; rfl)
            · rw [if_neg (fun h => hn ((hB2 '\n' (by decide)).mp h)), if_neg hn]; rfl
        · rw [if_neg (fun h => hcr ((hB '\r' (by decide)).mp h)), if_neg hcr]
          simp only [P.badChar]
          rw [rawStringLoop_skip _ _ _ hl]
          exact ih s (by omega) (pre ++ [c]) _ (by simp [h]) (by simp [hi, hsz]; omega)

theorem rawString_eq {c : Cursor ο} (hb : Bnd c) :
    rawString c = lift c ((P.rawLit .str c.rest).map P.literalSuffix) := by
  unfold rawString P.rawLit
  rw [delimiter_eq hb]
  cases hd : P.delim c.rest 0 with
  | none => rfl
  | some x =>
    obtain ⟨n, r⟩ := x
    simp only [lift2_some, Res.ok_bind, Cursor.to_rest]
    have hs := (P.delim_suffix hd).1
    rw [rawStringLoop_eq (hb.to hs) n _ r (Nat.le_refl _) [] 0 rfl rfl]
    apply lift_to hs
    intro r' hr'
    cases hr : P.raw .str n r with
    | none => rw [hr] at hr'; simp at hr'
    | some r1 =>
      rw [hr] at hr'; simp at hr'; subst hr'
      exact (P.literalSuffix_suffix _).trans (P.raw_suffix hr).1

theorem rawByteStringLoop_eq {input : Cursor ο} (hb : Bnd input) (n : Nat) : ∀ (m : Nat) (s : List Char),
    s.length ≤ m → ∀ (pre : List Char) (i : Nat), input.rest = pre ++ s → i = strLen pre →
      rawByteStringLoop input (List.replicate n '#') (bytesOf s) i =
        lift input ((P.raw .byte n s).map P.literalSuffix) := by
  intro m
  induction m with
  | zero =>
    intro s hs pre i h hi
    have : s = [] := List.eq_nil_of_length_eq_zero (by omega)
    subst this
    rw [P.raw_nil]; rfl
  | succ m ih =>
    intro s hs pre i h hi
    cases s with
    | nil => rw [P.raw_nil]; rfl
    | cons c s =>
      simp at hs
      obtain ⟨b, l, e, hl, hB, hlt, hasc, hsz⟩ := bytes_cons c s
      rw [e, P.raw_cons, rawByteStringLoop.eq_def]
      simp only
      by_cases hq : c = '"'
      · rw [if_pos ((hB '"' (by decide)).mpr hq), if_pos hq]
        obtain ⟨rfl, rfl⟩ := hasc (by subst hq; decide)
        have h' : input.rest = (pre ++ [c]) ++ s := by simp [h]
        have hi' : i + 1 = strLen (pre ++ [c]) := by subst hq; simp [hi]; rfl
        rw [sliceFrom_eq h' hi', Res.ok_bind]
        by_cases hd : startsWith s (List.replicate n '#') = true
        · rw [if_pos hd, if_pos hd]
          have := startsWith_drop hd
          simp only [List.length_replicate] at this
          exact finish_eq hb (t := pre ++ [c] ++ List.replicate n '#') (r := s.drop n)
            (by rw [h', List.append_assoc _ _ (s.drop n), ← this]) (by
              rw [strLen_append, ← hi'])
        · rw [if_neg hd, if_neg hd]
          exact ih s (by omega) (pre ++ [c]) _ h' hi'
      · rw [if_neg (fun h => hq ((hB '"' (by decide)).mp h)), if_neg hq]
        by_cases hcr : c = '\r'
        · rw [if_pos ((hB '\r' (by decide)).mpr hcr), if_pos hcr]
          obtain ⟨rfl, rfl⟩ := hasc (by subst hcr; decide)
          rw [List.nil_append]
          cases s with
          | nil => rfl
          | cons c2 s =>
            obtain ⟨b2, l2, e2, hl2, hB2, hlt2, hasc2, hsz2⟩ := bytes_cons c2 s
            rw [e2]
            simp only [P.crRaw]
            by_cases hn : c2 = '\n'
            · rw [if_pos ((hB2 '\n' (by decide)).mpr hn), if_pos hn]
              obtain ⟨rfl, rfl⟩ := hasc2 (by subst hn; decide)
              simp at hs
              exact ih s (by omega) (pre ++ [c, c2]) (i + 2) (by simp [h])
                (by subst hcr hn; simp [hi]; rfl)
            · rw [if_neg (fun h => hn ((hB2 '\n' (by decide)).mp h)), if_neg hn]; rfl
        · rw [if_neg (fun h => hcr ((hB '\r' (by decide)).mp h)), if_neg hcr]
          by_cases ha : c.toNat < 128
          · rw [if_pos (hlt.mpr ha)]
            simp only [P.badChar, ha, decide_true, Bool.not_true]
            obtain ⟨rfl, rfl⟩ := hasc ha
            exact ih s (by omega) (pre ++ [c]) _ (by simp [h]) (by simp [hi, utf8Size_ascii ha])
          · rw [if_neg (fun h => ha (hlt.mp h))]
            simp only [P.badChar, ha, decide_false, Bool.not_false, if_true]
            rfl

theorem rawByteString_eq {c : Cursor ο} (hb : Bnd c) :
    rawByteString c = lift c ((P.rawLit .byte c.rest).map P.literalSuffix) := by
  unfold rawByteString P.rawLit
  rw [delimiter_eq hb]
  cases hd : P.delim c.rest 0 with
  | none => rfl
  | some x =>
    obtain ⟨n, r⟩ := x
    simp only [lift2_some, Res.ok_bind, Cursor.to_rest]
    have hs := (P.delim_suffix hd).1
    rw [rawByteStringLoop_eq (hb.to hs) n _ r (Nat.le_refl _) [] 0 rfl rfl]
    apply lift_to hs
    intro r' hr'
    cases hr : P.raw .byte n r with
    | none => rw [hr] at hr'; simp at hr'
    | some r1 =>
      rw [hr] at hr'; simp at hr'; subst hr'
      exact (P.literalSuffix_suffix _).trans (P.raw_suffix hr).1

theorem rawCStringLoop_skip (input : Cursor ο) (d : List Char) (l : List UInt8)
    (hl : ∀ x ∈ l, ¬ x < 128) (bs : List UInt8) (i : Nat) :
    rawCStringLoop input d (l ++ bs) i = rawCStringLoop input d bs (i + l.length) := by
  induction l generalizing i with
  | nil => simp
  | cons b l ih =>
    have hb := hl b (by simp)
    have ih := ih (fun x hx => hl x (by simp [hx])) (i + 1)
    rw [List.cons_append, rawCStringLoop.eq_def]
    simp only
    rw [if_neg (high_ne hb (by decide)), if_neg (high_ne hb (by decide)),
      if_neg (high_ne hb (by decide)), ih]
    congr 1
    simp; omega

theorem rawCStringLoop_eq {input : Cursor ο} (hb : Bnd input) (n : Nat) : ∀ (m : Nat) (s : List Char),
    s.length ≤ m → ∀ (pre : List Char) (i : Nat), input.rest = pre ++ s → i = strLen pre →
      rawCStringLoop input (List.replicate n '#') (bytesOf s) i =
        lift input ((P.raw .c n s).map P.literalSuffix) := by
  intro m
  induction m with
  | zero =>
    intro s hs pre i h hi
    have : s = [] := List.eq_nil_of_length_eq_zero (by omega)
    subst this
    rw [P.raw_nil]; rfl
  | succ m ih =>
    intro s hs pre i h hi
    cases s with
    | nil => rw [P.raw_nil]; rfl
    | cons c s =>
      simp at hs
      obtain ⟨b, l, e, hl, hB, hlt, hasc, hsz⟩ := bytes_cons c s
      rw [e, P.raw_cons, rawCStringLoop.eq_def]
      simp only
      by_cases hq : c = '"'
      · rw [if_pos ((hB '"' (by decide)).mpr hq), if_pos hq]
        obtain ⟨rfl, rfl⟩ := hasc (by subst hq; decide)
        have h' : input.rest = (pre ++ [c]) ++ s := by simp [h]
        have hi' : i + 1 = strLen (pre ++ [c]) := by subst hq; simp [hi]; rfl
        rw [sliceFrom_eq h' hi', Res.ok_bind]
        by_cases hd : startsWith s (List.replicate n '#') = true
        · rw [if_pos hd, if_pos hd]
          have := startsWith_drop hd
          simp only [List.length_replicate] at this
          exact finish_eq hb (t := pre ++ [c] ++ List.replicate n '#') (r := s.drop n)
            (by rw [h', List.append_assoc _ _ (s.drop n), ← this]) (by
              rw [strLen_append, ← hi'])
        · rw [if_neg hd, if_neg hd]
          exact ih s (by omega) (pre ++ [c]) _ h' hi'
      · rw [if_neg (fun h => hq ((hB '"' (by decide)).mp h)), if_neg hq]
        by_cases hcr : c = '\r'
        · rw [if_pos ((hB '\r' (by decide)).mpr hcr), if_pos hcr]
          obtain ⟨rfl, rfl⟩ := hasc (by subst hcr; decide)
          rw [List.nil_append]
          cases s with
          | nil => rfl
          | cons c2 s =>
            obtain ⟨b2, l2, e2, hl2, hB2, hlt2, hasc2, hsz2⟩ := bytes_cons c2 s
            rw [e2]
            simp only [P.crRaw]
            by_cases hn : c2 = '\n'
            · rw [if_pos ((hB2 '\n' (by decide)).mpr hn), if_pos hn]
              obtain ⟨rfl, rfl⟩ := hasc2 (by subst hn; decide)
              simp at hs
              exact ih s (by omega) (pre ++ [c, c2]) (i + 2) (by simp [h])
                (by subst hcr hn; simp [hi]; rfl)
            · rw [if_neg (fun h => hn ((hB2 '\n' (by decide)).mp h)), if_neg hn]; rfl
        · rw [if_neg (fun h => hcr ((hB '\r' (by decide)).mp h)), if_neg hcr]
          simp only [P.badChar, beq_iff_eq]
          by_cases h0 : c = '\x00'
          · rw [if_pos ((hB '\x00' (by decide)).mpr h0), if_pos h0]; rfl
          · rw [if_neg (fun h => h0 ((hB '\x00' (by decide)).mp h)), if_neg h0, rawCStringLoop_skip _ _ _ hl]
            exact ih s (by omega) (pre ++ [c]) _ (by simp [h]) (by simp [hi, hsz]; omega)

theorem rawCString_eq {c : Cursor ο} (hb : Bnd c) :
    rawCString c = lift c ((P.rawLit .c c.rest).map P.literalSuffix) := by
  unfold rawCString P.rawLit
  rw [delimiter_eq hb]
  cases hd : P.delim c.rest 0 with
  | none => rfl
  | some x =>
    obtain ⟨n, r⟩ := x
    simp only [lift2_some, Res.ok_bind, Cursor.to_rest]
    have hs := (P.delim_suffix hd).1
    rw [rawCStringLoop_eq (hb.to hs) n _ r (Nat.le_refl _) [] 0 rfl rfl]
    apply lift_to hs
    intro r' hr'
    cases hr : P.raw .c n r with
    | none => rw [hr] at hr'; simp at hr'
    | some r1 =>
      rw [hr] at hr'; simp at hr'; subst hr'
      exact (P.literalSuffix_suffix _).trans (P.raw_suffix hr).1

/-! ### `string`, `byte_string`, `c_string` -/

theorem strLike_eq {c : Cursor ο} (hb : Bnd c) (k : P.Kind) (cook rawf : Cursor ο → PRes (Cursor ο))
    (hcook : ∀ c, Bnd c → cook c = lift c ((P.cooked k c.rest).map P.literalSuffix))
    (hraw : ∀ c, Bnd c → rawf c = lift c ((P.rawLit k c.rest).map P.literalSuffix)) :
    ((c.parse (P.kpre k ++ ['"'])).ifOk (fun input => cook input) fun _ =>
      (c.parse (P.kpre k ++ ['r'])).ifOk (fun input => rawf input) fun _ => reject) =
    lift c (P.strLit k c.rest) := by
  have hlen : (P.kpre k ++ ['"']).length = (P.kpre k).length + 1 := by simp
  have hlen' : (P.kpre k ++ ['r']).length = (P.kpre k).length + 1 := by simp
  rw [parse_eq hb, parse_eq hb, hlen, hlen']
  unfold P.strLit P.strBody
  have hs : c.rest.drop ((P.kpre k).length + 1) <:+ c.rest := List.drop_suffix _ _
  split
  · simp only [lift_some, Res.ifOk_ok]
    rw [hcook _ (hb.to hs), Cursor.to_rest]
    exact lift_to hs _ (fun r' h => P.cookedSuf_suffix h)
  · simp only [lift_none, Res.ifOk_err]
    split
    · simp only [lift_some, Res.ifOk_ok]
      rw [hraw _ (hb.to hs), Cursor.to_rest]
      apply lift_to hs
      intro r' h
      unfold P.rawLit at h
      split at h
      · rename_i n s' hd
        cases hr : P.raw k n s' with
        | none => rw [hr] at h; simp at h
        | some r1 =>
          rw [hr] at h; simp at h; subst h
          exact ((P.literalSuffix_suffix _).trans (P.raw_suffix hr).1).trans (P.delim_suffix hd).1
      · simp at h
    · rfl

theorem string_eq {c : Cursor ο} (hb : Bnd c) : string c = lift c (P.strLit .str c.rest) :=
  strLike_eq hb .str _ _ (fun _ h => cookedString_eq h) (fun _ h => rawString_eq h)

theorem byteString_eq {c : Cursor ο} (hb : Bnd c) : byteString c = lift c (P.strLit .byte c.rest) :=
  strLike_eq hb .byte _ _ (fun _ h => cookedByteString_eq h) (fun _ h => rawByteString_eq h)

theorem cString_eq {c : Cursor ο} (hb : Bnd c) : cString c = lift c (P.strLit .c c.rest) :=
  strLike_eq hb .c _ _ (fun _ h => cookedCString_eq h) (fun _ h => rawCString_eq h)

/-! ### Byte and character literals -/

theorem charElem_eq (s : List Char) : charElem s = match P.charElem s with
    | some r => .ok (some (r, strLen s - strLen r))
    | none => .ok none := by
  cases s with
  | nil => rfl
  | cons c s =>
    simp only [charElem, P.charElem]
    by_cases hb : c = '\\'
    · rw [if_pos hb, if_pos hb]
      have h1 : c.utf8Size = 1 := by subst hb; rfl
      cases s with
      | nil => rfl
      | cons c2 s =>
        simp only
        by_cases hx : c2 = 'x'
        · rw [if_pos hx, if_pos hx, backslashXChar_eq]
          have h2 : c2.utf8Size = 1 := by subst hx; rfl
          cases h : P.xEsc .str s with
          | none => rfl
          | some r =>
            obtain ⟨t, hl, hsl, rfl, -⟩ := P.xEsc_stable h
            simp [liftI, h1, h2]; omega
        · rw [if_neg hx, if_neg hx]
          by_cases hu : c2 = 'u'
          · rw [if_pos hu, if_pos hu, backslashU_eq]
            have h2 : c2.utf8Size = 1 := by subst hu; rfl
            cases h : P.uEsc s with
            | none => rfl
            | some x =>
              obtain ⟨v, r⟩ := x
              obtain ⟨t, ht, rfl, -⟩ := P.uEsc_stable h
              simp [liftU, h1, h2]; omega
          · rw [if_neg hu, if_neg hu]
            split
            · rename_i he
              have h2 : c2.utf8Size = 1 := by
                rcases he with h | h | h | h | h | h | h <;> subst h <;> rfl
              simp [h1, h2]; omega
            · rfl
    · rw [if_neg hb, if_neg hb]
      simp

theorem byteElem_eq (s : List Char) (hs : ∀ c ∈ s.head?, c.toNat < 128) :
    byteElem (bytesOf s) = match P.byteElem s with
    | some r => .ok (some (bytesOf r, strLen s - strLen r))
    | none => .ok none := by
  cases s with
  | nil => rfl
  | cons c s =>
    have hc : c.toNat < 128 := hs c (by simp)
    obtain ⟨b, l, e, hl, hB, hlt, hasc, hsz⟩ := bytes_cons c s
    obtain ⟨rfl, rfl⟩ := hasc hc
    rw [e]
    have h1 := utf8Size_ascii hc
    simp only [byteElem, P.byteElem, List.nil_append]
    by_cases hb : c = '\\'
    · rw [if_pos ((hB '\\' (by decide)).mpr hb), if_pos hb]
      cases s with
      | nil => rfl
      | cons c2 s =>
        obtain ⟨b2, l2, e2, hl2, hB2, hlt2, hasc2, hsz2⟩ := bytes_cons c2 s
        rw [e2]
        simp only
        by_cases hx : c2 = 'x'
        · rw [if_pos ((hB2 'x' (by decide)).mpr hx), if_pos hx]
          obtain ⟨rfl, rfl⟩ := hasc2 (by subst hx; decide)
          have h2 : c2.utf8Size = 1 := by subst hx; rfl
          rw [List.nil_append, backslashXByte_eq]
          cases h : P.xEsc .byte s with
          | none => rfl
          | some r =>
            obtain ⟨t, hl, hsl, rfl, -⟩ := P.xEsc_stable h
            simp [h1, h2]; omega
        · rw [if_neg (fun h => hx ((hB2 'x' (by decide)).mp h)), if_neg hx]
          have hiff : (b2 = B 'n' ∨ b2 = B 'r' ∨ b2 = B 't' ∨ b2 = B '\\' ∨ b2 = B '0' ∨
              b2 = B '\'' ∨ b2 = B '"') ↔ (c2 = 'n' ∨ c2 = 'r' ∨ c2 = 't' ∨ c2 = '\\' ∨
              c2 = '0' ∨ c2 = '\'' ∨ c2 = '"') := by
            rw [hB2 'n' (by decide), hB2 'r' (by decide), hB2 't' (by decide),
              hB2 '\\' (by decide), hB2 '0' (by decide), hB2 '\'' (by decide),
              hB2 '"' (by decide)]
          by_cases he : c2 = 'n' ∨ c2 = 'r' ∨ c2 = 't' ∨ c2 = '\\' ∨ c2 = '0' ∨ c2 = '\'' ∨ c2 = '"'
          · rw [if_pos (hiff.mpr he), if_pos he]
            have ha : c2.toNat < 128 := by
              rcases he with h | h | h | h | h | h | h <;> subst h <;> decide
            obtain ⟨rfl, rfl⟩ := hasc2 ha
            simp [h1, utf8Size_ascii ha]; omega
          · rw [if_neg (fun h => he (hiff.mp h)), if_neg he]
    · rw [if_neg (fun h => hb ((hB '\\' (by decide)).mp h)), if_neg hb, if_pos hc]
      simp [h1]

theorem P.charElem_stable {s r : List Char} (h : P.charElem s = some r) :
    ∃ t, t ≠ [] ∧ s = t ++ r ∧ ∀ r', P.charElem (t ++ r') = some r' := by
  cases s with
  | nil => simp [P.charElem] at h
  | cons c s =>
    simp only [P.charElem] at h
    split at h
    · rename_i hc
      cases s with
      | nil => simp at h
      | cons c2 s =>
        simp only at h
        split at h
        · rename_i hx
          obtain ⟨t, hl, hsl, rfl, hr⟩ := P.xEsc_stable h
          exact ⟨c :: c2 :: t, by simp, rfl, fun r' => by
            simp only [List.cons_append, P.charElem]; rw [if_pos hc, if_pos hx, hr r']⟩
        · rename_i hx
          split at h
          · rename_i hu
            cases h' : P.uEsc s with
            | none => rw [h'] at h; simp at h
            | some x =>
              obtain ⟨v, r0⟩ := x
              rw [h'] at h; simp at h; subst h
              obtain ⟨t, ht, rfl, hr⟩ := P.uEsc_stable h'
              exact ⟨c :: c2 :: t, by simp, rfl, fun r' => by
                simp only [List.cons_append, P.charElem]
                rw [if_pos hc, if_neg hx, if_pos hu, hr r']; rfl⟩
          · rename_i hu
            split at h
            · rename_i he
              simp at h; subst h
              exact ⟨[c, c2], by simp, rfl, fun r' => by
                simp only [List.cons_append, List.nil_append, P.charElem]
                rw [if_pos hc, if_neg hx, if_neg hu, if_pos he]⟩
            · simp at h
    · rename_i hc
      simp at h; subst h
      exact ⟨[c], by simp, rfl, fun r' => by
        simp only [List.cons_append, List.nil_append, P.charElem]; rw [if_neg hc]⟩

theorem P.byteElem_stable {s r : List Char} (h : P.byteElem s = some r) :
    ∃ t, t ≠ [] ∧ s = t ++ r ∧ (∀ r', P.byteElem (t ++ r') = some r') ∧
      ∀ c ∈ s.head?, c.toNat < 128 := by
  cases s with
  | nil => simp [P.byteElem] at h
  | cons c s =>
    simp only [P.byteElem] at h
    split at h
    · rename_i hc
      have hd : ∀ c' ∈ (c :: s).head?, c'.toNat < 128 := by
        intro c' h'; simp at h'; subst h'; subst hc; decide
      cases s with
      | nil => simp at h
      | cons c2 s =>
        simp only at h
        split at h
        · rename_i hx
          obtain ⟨t, hl, hsl, rfl, hr⟩ := P.xEsc_stable h
          exact ⟨c :: c2 :: t, by simp, rfl, fun r' => by
            simp only [List.cons_append, P.byteElem]; rw [if_pos hc, if_pos hx, hr r'], hd⟩
        · rename_i hx
          split at h
          · rename_i he
            simp at h; subst h
            exact ⟨[c, c2], by simp, rfl, fun r' => by
              simp only [List.cons_append, List.nil_append, P.byteElem]
              rw [if_pos hc, if_neg hx, if_pos he], hd⟩
          · simp at h
    · rename_i hc
      split at h
      · rename_i ha
        simp at h; subst h
        exact ⟨[c], by simp, rfl, fun r' => by
          simp only [List.cons_append, List.nil_append, P.byteElem]; rw [if_neg hc, if_pos ha],
          by intro c' h'; simp at h'; subst h'; exact ha⟩
      · simp at h

theorem P.quote_some {s r : List Char} (h : P.quote s = some r) : s = '\'' :: r := by
  cases s with
  | nil => simp [P.quote] at h
  | cons c s =>
    simp only [P.quote] at h
    split at h
    · rename_i hc; simp at h; subst h hc; rfl
    · simp at h

theorem quote_eq {c : Cursor ο} (hb : Bnd c) :
    (c.parse ['\''] >>= fun input => literalSuffix input) =
      lift c ((P.quote c.rest).map P.literalSuffix) := by
  rw [parse_eq hb]
  cases hr : c.rest with
  | nil => simp [P.quote]
  | cons ch t =>
    simp only [P.quote, startsWith_cons_cons, startsWith_nil, Bool.and_true, beq_iff_eq]
    split
    · simp only [lift_some, Res.ok_bind, List.length_cons, List.length_nil, List.drop_succ_cons,
        List.drop_zero, Option.map_some]
      have hs : t <:+ c.rest := by rw [hr]; exact List.suffix_cons _ _
      rw [literalSuffix_eq (hb.to hs), Cursor.to_rest, Cursor.to_to hs (P.literalSuffix_suffix t)]
    · rfl

theorem character_eq {c : Cursor ο} (hb : Bnd c) : character c = lift c (P.charLit c.rest) := by
  unfold character P.charLit P.charBody
  rw [parse_eq hb]
  split
  · simp only [lift_some, Res.ok_bind, Cursor.to_rest]
    have hs : c.rest.drop 1 <:+ c.rest := List.drop_suffix _ _
    rw [show ['\''].length = 1 from rfl, charElem_eq]
    cases h : P.charElem (c.rest.drop 1) with
    | none => rfl
    | some r =>
      obtain ⟨t, ht, e, -⟩ := P.charElem_stable h
      simp only [Res.ok_bind, Option.bind_some]
      have hr : r <:+ c.rest.drop 1 := ⟨t, e.symm⟩
      cases r with
      | nil => rfl
      | cons a r =>
        simp only
        rw [advance_eq (hb.to hs) (t := t) (r := a :: r) e (by rw [e]; simp), Res.ok_bind]
        rw [Cursor.to_to hs hr, quote_eq (hb.to (hr.trans hs))]
        apply lift_to (hr.trans hs)
        intro r' h'
        cases hq : P.quote (a :: r) with
        | none => simp [hq] at h'
        | some q =>
          simp [hq] at h'
          subst h'
          have := P.quote_some hq
          rw [this]
          exact (P.literalSuffix_suffix _).trans (List.suffix_cons _ _)
  · rfl

theorem isCharBoundary_true {s t r : List Char} {n : Nat} (h : s = t ++ r) (hn : n = strLen t) :
    isCharBoundary s n = true := by
  unfold isCharBoundary; rw [splitAtByte_eq h hn]; rfl

theorem byte_eq {c : Cursor ο} (hb : Bnd c) : byte c = lift c (P.byteLit c.rest) := by
  unfold byte P.byteLit P.byteBody
  rw [parse_eq hb]
  split
  · simp only [lift_some, Res.ok_bind, Cursor.to_rest]
    have hs : c.rest.drop 2 <:+ c.rest := List.drop_suffix _ _
    rw [show ['b', '\''].length = 2 from rfl]
    by_cases ha : ∀ x ∈ (c.rest.drop 2).head?, x.toNat < 128
    · rw [byteElem_eq _ ha]
      cases h : P.byteElem (c.rest.drop 2) with
      | none => rfl
      | some r =>
        obtain ⟨t, ht, e, -⟩ := P.byteElem_stable h
        simp only [Res.ok_bind, Option.bind_some]
        have hr : r <:+ c.rest.drop 2 := ⟨t, e.symm⟩
        have hn : strLen (c.rest.drop 2) - strLen r = strLen t := by rw [e]; simp
        cases r with
        | nil => rfl
        | cons a r =>
          obtain ⟨b, l, eb, -⟩ := bytes_cons a r
          rw [eb]
          simp only
          have hbt := isCharBoundary_true e hn
          refine (if_neg (by rw [hbt]; simp)).trans ?_
          rw [advance_eq (hb.to hs) (t := t) (r := a :: r) e hn, Res.ok_bind]
          rw [Cursor.to_to hs hr, quote_eq (hb.to (hr.trans hs))]
          apply lift_to (hr.trans hs)
          intro r' h'
          cases hq : P.quote (a :: r) with
          | none => simp [hq] at h'
          | some q =>
            simp [hq] at h'
            subst h'
            have := P.quote_some hq
            rw [this]
            exact (P.literalSuffix_suffix _).trans (List.suffix_cons _ _)
    · -- a non-ASCII first character: the boundary check rejects
      have hnone : P.byteElem (c.rest.drop 2) = none := by
        cases h : P.byteElem (c.rest.drop 2) with
        | none => rfl
        | some r => obtain ⟨t, ht, e, -, hd⟩ := P.byteElem_stable h; exact absurd hd ha
      rw [hnone]
      simp only [Option.bind_none, Option.map_none, lift_none]
      cases hr : c.rest.drop 2 with
      | nil => simp [hr] at ha
      | cons x t =>
        have hx : ¬ x.toNat < 128 := by
          intro h; apply ha; intro y hy; simp [hr] at hy; subst hy; exact h
        obtain ⟨b, l, eb, hl, hB, hlt, hasc, hsz⟩ := bytes_cons x t
        rw [eb]
        have hbs : b ≠ B '\\' := fun h => hx (by rw [(hB '\\' (by decide)).mp h]; decide)
        simp only [byteElem, if_neg hbs, Res.ok_bind]
        have hbd : isCharBoundary (x :: t) 1 = false := by
          unfold isCharBoundary
          cases h : splitAtByte (x :: t) 1 with
          | none => rfl
          | some p =>
            obtain ⟨a, b'⟩ := p
            obtain ⟨h1, h2⟩ := splitAtByte_some h
            cases a with
            | nil => simp at h2
            | cons a0 a =>
              simp at h1 h2
              obtain ⟨rfl, -⟩ := h1
              have hp := utf8Size_pos x
              have h1 : x.utf8Size = 1 := by omega
              rw [Char.utf8Size_eq_one_iff, UInt32.le_iff_toNat_le] at h1
              exact absurd (show x.toNat < 128 from Nat.lt_succ_of_le h1) hx
        cases h : l ++ bytesOf t with
        | nil => rfl
        | cons b0 bs => simp [hbd]
  · rfl

end
end PM2
