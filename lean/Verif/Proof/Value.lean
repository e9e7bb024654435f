import Verif.Proof.Unescape
/-! # The value accessors of `Literal`, characterized on every text -/

namespace PM2
open Spec

/-! ### UTF-8 is injective -/

theorem encode_head {c d : Char} {s t : List UInt8}
    (h : String.utf8EncodeChar c ++ s = String.utf8EncodeChar d ++ t) : c = d := by
  have h1 := ByteArray.utf8DecodeChar?_utf8EncodeChar_append (b := s.toByteArray) (c := c)
  have h2 := ByteArray.utf8DecodeChar?_utf8EncodeChar_append (b := t.toByteArray) (c := d)
  rw [← List.toByteArray_append] at h1 h2
  rw [h, h2] at h1
  exact (Option.some.inj h1).symm

theorem bytesOf_inj {s t : List Char} (h : bytesOf s = bytesOf t) : s = t := by
  induction s generalizing t with
  | nil =>
    cases t with
    | nil => rfl
    | cons d t =>
      have := congrArg List.length h
      rw [bytesOf_length, bytesOf_length] at this
      have hp := utf8Size_pos d
      simp at this
      omega
  | cons c s ih =>
    cases t with
    | nil =>
      have := congrArg List.length h
      rw [bytesOf_length, bytesOf_length] at this
      have hp := utf8Size_pos c
      simp at this
      omega
    | cons d t =>
      rw [bytesOf_cons, bytesOf_cons] at h
      have := encode_head h
      subst this
      rw [ih (List.append_cancel_left h)]

/-! ### `get_raw` -/

theorem takeWhile_hash (s : List Char) : ∃ n, s.takeWhile (· == '#') = List.replicate n '#' := by
  refine ⟨_, List.eq_replicate_iff.mpr ⟨rfl, fun c hc => ?_⟩⟩
  have := List.all_eq_true.mp (List.all_takeWhile (p := (· == '#')) (l := s)) c hc
  simpa using this

theorem trimEnd_split (s : List Char) : ∃ n, s = trimEndMatches s '#' ++ List.replicate n '#' := by
  obtain ⟨n, hn⟩ := takeWhile_hash s.reverse
  refine ⟨n, ?_⟩
  unfold trimEndMatches
  have := takeWhile_dropWhile (· == '#') s.reverse
  rw [hn] at this
  have h2 := congrArg List.reverse this
  rw [List.reverse_reverse, List.reverse_append, List.reverse_replicate] at h2
  exact h2

theorem dropWhile_replicate (n : Nat) (s : List Char) :
    (List.replicate n '#' ++ '"' :: s).dropWhile (· == '#') = '"' :: s := by
  induction n with
  | zero => simp
  | succ n ih => rw [List.replicate_succ, List.cons_append, List.dropWhile_cons]; simpa using ih

theorem trimEnd_replicate (n : Nat) (s : List Char) :
    trimEndMatches (s ++ '"' :: List.replicate n '#') '#' = s ++ ['"'] := by
  unfold trimEndMatches
  have : (s ++ '"' :: List.replicate n '#').reverse = List.replicate n '#' ++ '"' :: s.reverse := by
    simp
  rw [this, dropWhile_replicate]
  simp

theorem slice_mid {ε : Type} {s a b c : List Char} {i j : Nat} (h : s = a ++ b ++ c)
    (hi : i = strLen a) (hj : j = strLen a + strLen b) : slice (ε := ε) s i j = .ok b := by
  have h1 : splitAtByte s j = some (a ++ b, c) := splitAtByte_eq h (by rw [strLen_append]; exact hj)
  have h3 : splitAtByte s i = some (a, b ++ c) := splitAtByte_eq (by rw [h]; simp) hi
  unfold slice
  rw [if_neg (by omega), h1, h3]
  simp

/-- `get_raw` never panics, and recognizes exactly `#ⁿ"v"#ⁿ`. -/
theorem getRaw_spec {ε : Type} (s : List Char) :
    (∃ n v, s = List.replicate n '#' ++ '"' :: v ++ '"' :: List.replicate n '#' ∧
      getRaw (ε := ε) s = .ok (some v)) ∨
    ((∀ n v, s ≠ List.replicate n '#' ++ '"' :: v ++ '"' :: List.replicate n '#') ∧
      getRaw (ε := ε) s = .ok none) := by
  obtain ⟨n, hn⟩ := takeWhile_hash s
  have hs : s = List.replicate n '#' ++ s.dropWhile (· == '#') := by
    rw [← hn]; exact takeWhile_dropWhile ..
  have hlen : strLen s = n + strLen (s.dropWhile (· == '#')) := by
    conv => lhs; rw [hs]
    rw [strLen_append, strLen_replicate]
  have hp : (subUsize (strLen s) (strLen (s.dropWhile (· == '#'))) : Res ε Nat) = .ok n := by
    rw [subUsize_ok (by omega)]
    congr 1; omega
  have hno : ∀ m v, s = List.replicate m '#' ++ '"' :: v ++ '"' :: List.replicate m '#' → m = n := by
    intro m v h
    have h1 : s.dropWhile (· == '#') = '"' :: (v ++ '"' :: List.replicate m '#') := by
      rw [h, List.append_assoc, List.cons_append]; exact dropWhile_replicate ..
    rw [h1] at hlen
    have h2 := congrArg strLen h
    simp only [strLen_append, strLen_cons, strLen_replicate] at h2 hlen
    omega
  unfold getRaw
  rw [hp]
  simp only [Res.ok_bind]
  split
  · rename_i hge
    rw [sliceFrom_eq hs (strLen_replicate n).symm]
    simp only [Res.ok_bind]
    split
    · rename_i hc
      simp only [Bool.and_eq_true, beq_iff_eq] at hc
      obtain ⟨h1, h2⟩ := hc
      obtain ⟨m, hm⟩ := trimEnd_split s
      have hmn : m = n := by
        have := congrArg strLen hm
        rw [strLen_append, strLen_replicate] at this
        omega
      subst hmn
      rw [subUsize_ok (by omega)]
      simp only [Res.ok_bind]
      rw [sliceTo_eq hm (by omega)]
      simp only [Res.ok_bind]
      split
      · rename_i he
        simp only [endsWithChar, beq_iff_eq] at he
        obtain ⟨a, ha⟩ : ∃ a, trimEndMatches s '#' = a ++ ['"'] :=
          List.getLast?_eq_some_iff.mp he
        have hd : ∃ b, s.dropWhile (· == '#') = '"' :: b := by
          cases hx : s.dropWhile (· == '#') with
          | nil => rw [hx] at h1; simp [startsWithChar] at h1
          | cons c b => rw [hx] at h1; simp [startsWithChar] at h1; exact ⟨b, by rw [h1]⟩
        obtain ⟨b, hb⟩ := hd
        rw [hb] at hs
        rw [ha] at hm
        -- s = #ᵐ " b = a " #ᵐ
        have hq : '"'.utf8Size = 1 := rfl
        have hal : m + 1 ≤ strLen a := by
          have := congrArg strLen hm
          simp only [strLen_append, strLen_cons, strLen_replicate, strLen_nil] at this
          omega
        have hsplit : a ++ ['"'] ++ List.replicate m '#' = List.replicate m '#' ++ '"' :: b := by
          rw [← hm]; exact hs
        have hpre : ∃ v, a = List.replicate m '#' ++ '"' :: v := by
          rw [List.append_assoc] at hsplit
          rcases List.append_eq_append_iff.mp hsplit with ⟨x, hx1, hx2⟩ | ⟨x, hx1, hx2⟩
          · -- #ᵐ = a ++ x: a too short
            have := congrArg strLen hx1
            rw [strLen_append, strLen_replicate] at this
            omega
          · cases x with
            | nil =>
              rw [List.append_nil] at hx1
              rw [hx1, strLen_replicate] at hal; omega
            | cons y x =>
              simp at hx2
              exact ⟨x, by rw [hx1, ← hx2.1]⟩
        obtain ⟨v, hv⟩ := hpre
        rw [hv] at hm
        left
        refine ⟨m, v, by rw [hm]; simp, ?_⟩
        have hn' : strLen s = m + 1 + strLen v + 1 + m := by
          rw [hm]
          simp only [strLen_append, strLen_cons, strLen_replicate, strLen_nil]
          omega
        rw [subUsize_ok (by omega)]
        simp only [Res.ok_bind]
        rw [slice_mid (a := List.replicate m '#' ++ ['"']) (b := v) (c := '"' :: List.replicate m '#')
          (by rw [hm]; simp) (by simp [strLen_replicate]; omega)
          (by simp [strLen_replicate]; omega)]
        rfl
      · rename_i he
        right
        refine ⟨fun k v h => he ?_, rfl⟩
        have := hno k v h
        subst this
        rw [h, trimEnd_replicate (s := List.replicate k '#' ++ '"' :: v)]
        simp only [endsWithChar, List.getLast?_append]
        simp
    · rename_i hc
      right
      refine ⟨fun k v h => hc ?_, rfl⟩
      have := hno k v h
      subst this
      simp only [Bool.and_eq_true, beq_iff_eq]
      constructor
      · rw [h, List.append_assoc, List.cons_append, dropWhile_replicate]
        simp [startsWithChar]
      · have e : trimEndMatches s '#' = List.replicate k '#' ++ '"' :: v ++ ['"'] := by
          rw [h]; exact trimEnd_replicate ..
        rw [e, h]
        simp only [strLen_append, strLen_cons, strLen_replicate, strLen_nil]
        omega
  · rename_i hge
    right
    refine ⟨fun k v h => hge ?_, rfl⟩
    have := hno k v h
    subst this
    rw [h]
    have hq : '"'.utf8Size = 1 := rfl
    simp only [strLen_append, strLen_cons, strLen_replicate]
    omega

/-! ### The accessors -/

/-- The text of a cooked literal of kind `k` with contents `t`. -/
def cookedText (k : StrKind) (t : List Char) : List Char := kindPrefix k ++ '"' :: t ++ ['"']

/-- The text of a raw literal of kind `k` with `n` hashes and contents `v`. -/
def rawText (k : StrKind) (n : Nat) (v : List Char) : List Char :=
  kindPrefix k ++ 'r' :: List.replicate n '#' ++ '"' :: v ++ '"' :: List.replicate n '#'

theorem endsWithChar_iff {s : List Char} {c : Char} : endsWithChar s c = true ↔ ∃ t, s = t ++ [c] := by
  unfold endsWithChar
  rw [beq_iff_eq]
  exact List.getLast?_eq_some_iff

theorem collect_err {U : Type} {cs : List (Call U)} {e : EscapeError} (h : collectCalls cs = .error e) :
    e.isFatal = true := by
  unfold collectCalls at h
  simp only at h
  split at h
  · rename_i e' he
    simp at h; subst h
    obtain ⟨c, hc, hce⟩ := List.mem_filterMap.mp (List.mem_of_getLast? he)
    split at hce
    · split at hce
      · simp at hce; subst hce; assumption
      · simp at hce
    · simp at hce
  · simp at h

theorem cooked_raw_disjoint {k k' : StrKind} {t v : List Char} {n : Nat}
    (h : cookedText k t = rawText k' n v) : False := by
  cases k <;> cases k' <;> simp [cookedText, rawText, kindPrefix] at h

theorem valueOf_spec {U V : Type} {k : StrKind} {I : Unescape U} {bytes : U → List UInt8}
    (L : LawfulUnescape k I bytes) (cooked : List U → V) (raw : List Char → V) (repr : List Char) :
    (∃ t, repr = cookedText k t ∧
      ((∃ us, valueOf I (kindPrefix k ++ ['"']) (kindPrefix k ++ ['r']) cooked raw repr = .ok (cooked us) ∧
          Means k t (us.flatMap bytes)) ∨
       (∃ e, valueOf I (kindPrefix k ++ ['"']) (kindPrefix k ++ ['r']) cooked raw repr =
            .err (.failedToUnescape e) ∧ e.isFatal = true ∧ ∀ m, ¬ Means k t m))) ∨
    (∃ n v, repr = rawText k n v ∧
      valueOf I (kindPrefix k ++ ['"']) (kindPrefix k ++ ['r']) cooked raw repr = .ok (raw v)) ∨
    ((∀ t, repr ≠ cookedText k t) ∧ (∀ n v, repr ≠ rawText k n v) ∧
      valueOf I (kindPrefix k ++ ['"']) (kindPrefix k ++ ['r']) cooked raw repr =
        .err .invalidLiteralKind) := by
  have hq : '"'.utf8Size = 1 := rfl
  by_cases hc : ∃ t, repr = cookedText k t
  · obtain ⟨t, ht⟩ := hc
    left
    refine ⟨t, ht, ?_⟩
    have h0 : repr = (kindPrefix k ++ ['"']) ++ (t ++ ['"']) := by rw [ht]; simp [cookedText]
    obtain ⟨cs, g1, g2, g3⟩ := unescape_means (ε := ConversionError) L t
    have h1 : startsWith repr (kindPrefix k ++ ['"']) = true := startsWith_iff.mpr ⟨_, h0⟩
    have hl : strLen repr = strLen (kindPrefix k ++ ['"']) + strLen t + 1 := by
      rw [h0]; simp only [strLen_append, strLen_cons, strLen_nil]; omega
    have hv : valueOf I (kindPrefix k ++ ['"']) (kindPrefix k ++ ['r']) cooked raw repr =
        match collectCalls cs with
        | .error e => .err (.failedToUnescape e)
        | .ok us => .ok (cooked us) := by
      unfold valueOf
      rw [if_pos h1, sliceFrom_eq h0 rfl]
      simp only [Res.ok_bind]
      rw [if_pos (endsWithChar_iff.mpr ⟨t, rfl⟩), subUsize_ok (by omega)]
      simp only [Res.ok_bind]
      rw [slice_mid (a := kindPrefix k ++ ['"']) (b := t) (c := ['"']) (by rw [h0]; simp) rfl
        (by omega)]
      simp only [Res.ok_bind]
      rw [g1]
      rfl
    rw [hv]
    cases hcc : collectCalls cs with
    | ok us => left; exact ⟨us, rfl, g2 us hcc⟩
    | error e =>
      right
      refine ⟨e, rfl, collect_err hcc, fun m hm => ?_⟩
      obtain ⟨us, hus, -⟩ := g3 m hm
      rw [hcc] at hus; simp at hus
  · right
    have hne : ∀ t, repr ≠ cookedText k t := fun t ht => hc ⟨t, ht⟩
    have hv : valueOf I (kindPrefix k ++ ['"']) (kindPrefix k ++ ['r']) cooked raw repr =
        (if startsWith repr (kindPrefix k ++ ['r']) then do
          let t ← sliceFrom repr (strLen (kindPrefix k ++ ['r']))
          match ← getRaw t with
          | some r => .ok (raw r)
          | none => .err .invalidLiteralKind
        else .err .invalidLiteralKind) := by
      unfold valueOf
      by_cases h1 : startsWith repr (kindPrefix k ++ ['"']) = true
      · obtain ⟨t, ht⟩ := startsWith_iff.mp h1
        rw [if_pos h1, sliceFrom_eq ht rfl]
        simp only [Res.ok_bind]
        have he : ¬ endsWithChar t '"' = true := by
          intro he
          obtain ⟨u, rfl⟩ := endsWithChar_iff.mp he
          exact hne u (by rw [ht]; simp [cookedText])
        rw [if_neg he]
        rfl
      · rw [if_neg h1]
        simp only [Res.ok_bind]
        rw [if_neg (by simp)]
        rfl
    rw [hv]
    by_cases h1 : startsWith repr (kindPrefix k ++ ['r']) = true
    · obtain ⟨t, ht⟩ := startsWith_iff.mp h1
      rw [if_pos h1, sliceFrom_eq ht rfl]
      simp only [Res.ok_bind]
      rcases getRaw_spec (ε := ConversionError) t with ⟨n, v, h2, h3⟩ | ⟨h2, h3⟩
      · left
        rw [h3]
        exact ⟨n, v, by rw [ht, h2]; simp [rawText], rfl⟩
      · right
        rw [h3]
        refine ⟨hne, fun n v h => h2 n v ?_, rfl⟩
        rw [ht] at h
        have : kindPrefix k ++ ['r'] ++ t = kindPrefix k ++ ['r'] ++
            (List.replicate n '#' ++ '"' :: v ++ '"' :: List.replicate n '#') := by
          rw [h]; simp [rawText]
        exact List.append_cancel_left this
    · right
      rw [if_neg h1]
      refine ⟨hne, fun n v h => h1 (startsWith_iff.mpr ?_), rfl⟩
      exact ⟨_, by rw [h]; simp [rawText]; rfl⟩

theorem hashes_quote_inj {n n' : Nat} {u v : List Char}
    (h : List.replicate n '#' ++ '"' :: u = List.replicate n' '#' ++ '"' :: v) : n = n' ∧ u = v := by
  have h1 := congrArg (List.dropWhile (· == '#')) h
  rw [dropWhile_replicate, dropWhile_replicate] at h1
  simp at h1
  subst h1
  have := congrArg List.length h
  simp at this
  exact ⟨this, rfl⟩

theorem rawText_inj {k : StrKind} {n n' : Nat} {v v' : List Char} (h : rawText k n v = rawText k n' v') :
    n = n' ∧ v = v' := by
  unfold rawText at h
  simp only [List.append_assoc, List.cons_append] at h
  have h1 := List.append_cancel_left h
  simp at h1
  obtain ⟨rfl, h2⟩ := hashes_quote_inj h1
  exact ⟨rfl, List.append_cancel_right h2⟩

theorem cookedText_inj {k : StrKind} {t t' : List Char} (h : cookedText k t = cookedText k t') : t = t' := by
  unfold cookedText at h
  simpa using h

theorem hasValue_iff {k : StrKind} {x : List Char} {m : List UInt8} : HasValue k x m ↔
    (∃ t, x = cookedText k t ∧ Means k t m) ∨ (∃ n v, x = rawText k n v ∧ m = bytesOf v) := by
  constructor
  · intro h
    cases h with
    | cooked hm => exact .inl ⟨_, rfl, hm⟩
    | raw => exact .inr ⟨_, _, rfl, rfl⟩
  · rintro (⟨t, rfl, hm⟩ | ⟨n, v, rfl, rfl⟩)
    · exact .cooked hm
    · exact .raw

theorem hasValue_unique {U : Type} {k : StrKind} {I : Unescape U} {bytes : U → List UInt8}
    (L : LawfulUnescape k I bytes) {x : List Char} {m n : List UInt8} (h1 : HasValue k x m)
    (h2 : HasValue k x n) : m = n := by
  rcases hasValue_iff.mp h1 with ⟨t, rfl, hm⟩ | ⟨i, v, rfl, rfl⟩
  · rcases hasValue_iff.mp h2 with ⟨t', ht, hm'⟩ | ⟨i, v, ht, -⟩
    · rw [cookedText_inj ht] at hm
      exact means_unique L hm hm'
    · exact absurd ht cooked_raw_disjoint
  · rcases hasValue_iff.mp h2 with ⟨t', ht, hm'⟩ | ⟨j, v', ht, rfl⟩
    · exact absurd ht.symm cooked_raw_disjoint
    · rw [(rawText_inj ht).2]

/-- `enc` reads a value back as bytes, followed by `tail`. -/
theorem valueOf_iff {U V : Type} {k : StrKind} {I : Unescape U} {bytes : U → List UInt8}
    (L : LawfulUnescape k I bytes) {cooked : List U → V} {raw : List Char → V} {enc : V → List UInt8}
    {tail : List UInt8} (hinj : ∀ v w, enc v = enc w → v = w)
    (hc : ∀ us, enc (cooked us) = us.flatMap bytes ++ tail) (hr : ∀ s, enc (raw s) = bytesOf s ++ tail)
    (repr : List Char) (v : V) :
    valueOf I (kindPrefix k ++ ['"']) (kindPrefix k ++ ['r']) cooked raw repr = .ok v ↔
      ∃ m, HasValue k repr m ∧ enc v = m ++ tail := by
  rcases valueOf_spec L cooked raw repr with
    ⟨t, ht, ⟨us, h1, h2⟩ | ⟨e, h1, -, h3⟩⟩ | ⟨n, w, ht, h1⟩ | ⟨h1, h2, h3⟩
  · rw [h1]
    constructor
    · intro h
      simp only [Res.ok.injEq] at h; subst h
      exact ⟨_, hasValue_iff.mpr (.inl ⟨t, ht, h2⟩), hc us⟩
    · rintro ⟨m, hm, he⟩
      have := hasValue_unique L hm (hasValue_iff.mpr (.inl ⟨t, ht, h2⟩))
      subst this
      rw [← hc us] at he
      rw [hinj _ _ he]
  · rw [h1]
    constructor
    · intro h; simp at h
    · rintro ⟨m, hm, -⟩
      rcases hasValue_iff.mp hm with ⟨t', ht', hm'⟩ | ⟨i, w, ht', -⟩
      · rw [ht] at ht'
        rw [← cookedText_inj ht'] at hm'
        exact absurd hm' (h3 m)
      · rw [ht] at ht'
        exact absurd ht' cooked_raw_disjoint
  · rw [h1]
    constructor
    · intro h
      simp only [Res.ok.injEq] at h; subst h
      exact ⟨_, hasValue_iff.mpr (.inr ⟨n, w, ht, rfl⟩), hr w⟩
    · rintro ⟨m, hm, he⟩
      have := hasValue_unique L hm (hasValue_iff.mpr (.inr ⟨n, w, ht, rfl⟩))
      subst this
      rw [← hr w] at he
      rw [hinj _ _ he]
  · rw [h3]
    constructor
    · intro h; simp at h
    · rintro ⟨m, hm, -⟩
      rcases hasValue_iff.mp hm with ⟨t', ht', -⟩ | ⟨i, w, ht', -⟩
      · exact absurd ht' (h1 _)
      · exact absurd ht' (h2 _ _)

theorem flatMap_singleton_id (us : List UInt8) : us.flatMap (fun b => [b]) = us := by
  induction us with
  | nil => rfl
  | cons b us ih => simp

theorem strValue_iff (repr v : List Char) : strValue repr = .ok v ↔ HasValue .str repr (bytesOf v) := by
  have h := valueOf_iff lawful_str (cooked := id) (raw := id) (enc := bytesOf) (tail := [])
    (fun v w h => bytesOf_inj h) (fun us => by simp [bytesOf]) (fun s => by simp) repr v
  have e : strValue repr = valueOf unescapeStrImpl (kindPrefix .str ++ ['"']) (kindPrefix .str ++ ['r'])
    id id repr := rfl
  rw [e, h]
  simp

theorem byteStrValue_iff (repr : List Char) (v : List UInt8) :
    byteStrValue repr = .ok v ↔ HasValue .byte repr v := by
  have h := valueOf_iff lawful_byte (cooked := id) (raw := bytesOf) (enc := id) (tail := [])
    (fun v w h => h) (fun us => by simp) (fun s => by simp) repr v
  have e : byteStrValue repr = valueOf unescapeByteImpl (kindPrefix .byte ++ ['"'])
    (kindPrefix .byte ++ ['r']) id bytesOf repr := rfl
  rw [e, h]
  simp

theorem cstrValue_iff (repr : List Char) (v : List UInt8) :
    cstrValue repr = .ok v ↔ ∃ m, HasValue .c repr m ∧ v = m ++ [0] := by
  have h := valueOf_iff lawful_c (cooked := fun us => us.flatMap MixedUnit.bytes ++ [0])
    (raw := fun r => bytesOf r ++ [0]) (enc := id) (tail := [0])
    (fun v w h => h) (fun us => rfl) (fun s => rfl) repr v
  have e : cstrValue repr = valueOf unescapeCImpl (kindPrefix .c ++ ['"'])
    (kindPrefix .c ++ ['r']) (fun us => us.flatMap MixedUnit.bytes ++ [0])
    (fun r => bytesOf r ++ [0]) repr := rfl
  rw [e, h]
  simp

/-- What an accessor returns: a value, an unescaping error for a cooked literal, or
`InvalidLiteralKind` for any other text. -/
theorem valueOf_total {U V : Type} {k : StrKind} {I : Unescape U} {bytes : U → List UInt8}
    (L : LawfulUnescape k I bytes) (cooked : List U → V) (raw : List Char → V) (repr : List Char) :
    (∃ v, valueOf I (kindPrefix k ++ ['"']) (kindPrefix k ++ ['r']) cooked raw repr = .ok v) ∨
    (∃ e, valueOf I (kindPrefix k ++ ['"']) (kindPrefix k ++ ['r']) cooked raw repr =
      .err (.failedToUnescape e) ∧ e.isFatal = true ∧ ∃ t, repr = cookedText k t) ∨
    (valueOf I (kindPrefix k ++ ['"']) (kindPrefix k ++ ['r']) cooked raw repr =
        .err .invalidLiteralKind ∧ (∀ t, repr ≠ cookedText k t) ∧ (∀ n v, repr ≠ rawText k n v)) := by
  rcases valueOf_spec L cooked raw repr with
    ⟨t, ht, ⟨us, h1, h2⟩ | ⟨e, h1, h2, h3⟩⟩ | ⟨n, w, ht, h1⟩ | ⟨h1, h2, h3⟩
  · exact .inl ⟨_, h1⟩
  · exact .inr (.inl ⟨e, h1, h2, t, ht⟩)
  · exact .inl ⟨_, h1⟩
  · exact .inr (.inr ⟨h3, h1, h2⟩)

/-! ### The lexer's grammar and the meanings agree -/

theorem contSpace_ok {k : StrKind} {c : Char} (h : ContSpace c) : CharOk k c ∧ c ≠ '"' ∧ c ≠ '\\' := by
  rcases h with rfl | rfl | rfl | rfl <;> exact ⟨by cases k <;> simp [CharOk], by decide, by decide⟩

theorem Spec.Means.drop {k : StrKind} {t : List Char} {m : List UInt8} (h : Means k t m) :
    ∃ m', Means k (t.dropWhile isSkipped) m' := by
  induction h with
  | nil => exact ⟨[], .nil⟩
  | @piece p t m n hp ht ih =>
    cases hp with
    | @char c h1 h2 h3 h4 =>
      rw [List.cons_append, List.nil_append, List.dropWhile_cons]
      split
      · exact ih
      · exact ⟨_, .piece (.char h1 h2 h3 h4) ht⟩
    | simple hm => exact ⟨_, .piece (.simple hm) ht⟩
    | zero h1 => exact ⟨_, .piece (.zero h1) ht⟩
    | hex h1 h2 h3 h4 => exact ⟨_, .piece (.hex h1 h2 h3 h4) ht⟩
    | uni h1 h2 h3 => exact ⟨_, .piece (.uni h1 h2 h3) ht⟩
  | cont h1 h2 h3 => exact ⟨_, .cont h1 h2 h3⟩

theorem simple_mem {c : Char} : c ∈ ['n', 'r', 't', '\\', '\'', '"'] ↔ ∃ b, (c, b) ∈ simpleEscapes := by
  simp only [simpleEscapes, List.mem_cons, List.not_mem_nil, or_false, Prod.mk.injEq]
  constructor
  · rintro (rfl | rfl | rfl | rfl | rfl | rfl) <;> simp
  · rintro ⟨b, h⟩
    rcases h with ⟨rfl, -⟩ | ⟨rfl, -⟩ | ⟨rfl, -⟩ | ⟨rfl, -⟩ | ⟨rfl, -⟩ | ⟨rfl, -⟩ <;> simp

theorem lowHex {a : Char} (h : '0' ≤ a ∧ a ≤ '7') : HexDigit a ∧ hexDigitVal a < 8 := by
  have g1 := charLe.mp h.1; have g2 := charLe.mp h.2
  simp at g1 g2
  refine ⟨.inl ⟨h.1, charLe.mpr (by simp; omega)⟩, ?_⟩
  unfold hexDigitVal
  rw [if_pos (charLe.mpr (by simp; omega))]
  omega

theorem hexDigitVal_zero {a : Char} (h : HexDigit a) (hz : hexDigitVal a = 0) : a = '0' := by
  apply char_ext
  show a.toNat = 48
  unfold hexDigitVal at hz
  simp only [charLe] at hz
  rcases h with ⟨h1, h2⟩ | ⟨h1, h2⟩ | ⟨h1, h2⟩ <;>
    (have g1 := charLe.mp h1; have g2 := charLe.mp h2; simp at g1 g2)
  all_goals
    (repeat' split at hz)
  all_goals (simp at *; omega)

theorem hexDigit_low {a : Char} (h : HexDigit a) (hz : hexDigitVal a < 8) : '0' ≤ a ∧ a ≤ '7' := by
  simp only [charLe]
  unfold hexDigitVal at hz
  simp only [charLe] at hz
  rcases h with ⟨h1, h2⟩ | ⟨h1, h2⟩ | ⟨h1, h2⟩ <;>
    (have g1 := charLe.mp h1; have g2 := charLe.mp h2; simp at g1 g2)
  all_goals
    (repeat' split at hz)
  all_goals (simp at *; omega)

/-- What the lexer accepts between the quotes has a meaning, if it contains no carriage return. -/
theorem Spec.CookedBody.means {k : StrKind} {b : List Char} (h : CookedBody k b) (hcr : '\r' ∉ b) :
    ∃ m, Means k b m := by
  induction h with
  | nil => exact ⟨_, .nil⟩
  | char h1 h2 h3 h4 _ ih =>
    obtain ⟨m, hm⟩ := ih (fun h => hcr (List.mem_cons_of_mem _ h))
    exact ⟨_, .piece (.char h1 h2 h3 h4) hm⟩
  | crlf _ ih => exact absurd (List.mem_cons_self ..) hcr
  | @esc e t he _ ih =>
    obtain ⟨m, hm⟩ := ih (fun h => hcr (List.mem_append_right _ h))
    cases he with
    | simple h =>
      obtain ⟨b, hb⟩ := simple_mem.mp h
      exact ⟨_, .piece (.simple hb) hm⟩
    | zero h => exact ⟨_, .piece (.zero h) hm⟩
    | @hexStr a b hk h1 h2 =>
      subst hk
      obtain ⟨g1, g2⟩ := lowHex h1
      have := hexDigitVal_lt h2
      exact ⟨_, .piece (.hex g1 h2 (fun _ => by rw [hexNumber_two]; omega) (by simp)) hm⟩
    | hexByte hk h1 h2 => subst hk; exact ⟨_, .piece (.hex h1 h2 (by simp) (by simp)) hm⟩
    | @hexC a b hk h1 h2 h3 =>
      subst hk
      refine ⟨_, .piece (.hex h1 h2 (by simp) (fun _ hz => h3 ?_)) hm⟩
      rw [hexNumber_two] at hz
      exact ⟨hexDigitVal_zero h1 (by omega), hexDigitVal_zero h2 (by omega)⟩
    | @uni ds v h1 h2 h3 => exact ⟨_, .piece (.uni h1 h2 h3) hm⟩
    | newline =>
      obtain ⟨m', hm'⟩ := hm.drop
      refine ⟨m', ?_⟩
      have := Means.cont (k := k) (w := t.takeWhile isSkipped) (t := t.dropWhile isSkipped) (n := m')
        (fun c hc => isSkipped_iff.mp (List.all_eq_true.mp (List.all_takeWhile (p := isSkipped)) c hc))
        (fun c t' hc hs => by
          have := dropWhile_head hc
          rw [isSkipped_iff.mpr hs] at this; simp at this) hm'
      rw [List.cons_append, List.cons_append, ← takeWhile_dropWhile] at this
      exact this
    | crlf => exact absurd (by simp) hcr

/-- Conversely, contents with a meaning and no carriage return are accepted by the lexer. -/
theorem Spec.Means.cooked {k : StrKind} {b : List Char} {m : List UInt8} (h : Means k b m) (hcr : '\r' ∉ b) :
    CookedBody k b := by
  induction h with
  | nil => exact .nil
  | @piece p t m n hp ht ih =>
    have ih := ih (fun h => hcr (List.mem_append_right _ h))
    cases hp with
    | char h1 h2 h3 h4 => exact .char h1 h2 h3 h4 ih
    | simple hm => exact .esc (.simple (simple_mem.mpr ⟨_, hm⟩)) ih
    | zero h1 => exact .esc (.zero h1) ih
    | @hex a b h1 h2 h3 h4 =>
      refine CookedBody.esc (e := ['x', a, b]) ?_ ih
      cases k with
      | str =>
        have := h3 rfl
        rw [hexNumber_two] at this
        exact .hexStr rfl (hexDigit_low h1 (by omega)) h2
      | byte => exact .hexByte rfl h1 h2
      | c =>
        refine .hexC rfl h1 h2 ?_
        rintro ⟨rfl, rfl⟩
        exact h4 rfl rfl
    | @uni ds v h1 h2 h3 =>
      have := CookedBody.esc (k := k) (e := 'u' :: '{' :: ds ++ ['}']) (.uni h1 h2 h3) ih
      exact this
  | @cont w t n h1 _ _ ih =>
    have ih := ih (fun h => hcr (List.mem_append_right _ h))
    refine CookedBody.esc (e := ['\n']) .newline ?_
    have hw : '\r' ∉ w := fun h => hcr (List.mem_append_left _ (by simp [h]))
    clear hcr
    induction w with
    | nil => exact ih
    | cons c w ihw =>
      obtain ⟨g1, g2, g3⟩ := contSpace_ok (k := k) (h1 c (List.mem_cons_self ..))
      exact .char g2 g3 (fun h => hw (by rw [h]; exact List.mem_cons_self ..)) g1
        (ihw (fun c hc => h1 c (List.mem_cons_of_mem _ hc)) (fun h => hw (List.mem_cons_of_mem _ h)))

end PM2
