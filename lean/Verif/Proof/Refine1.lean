import Verif.Proof.Pure
/-! # Refinement, part 1: cursors, whitespace, comments, identifiers -/

namespace PM2

namespace Res
variable {ε δ α β : Type}
@[simp] theorem ok_bind (a : α) (f : α → Res ε β) : (Res.ok a >>= f) = f a := rfl
@[simp] theorem err_bind (e : ε) (f : α → Res ε β) : (Res.err e >>= f) = .err e := rfl
@[simp] theorem panic_bind (f : α → Res ε β) : ((Res.panic : Res ε α) >>= f) = .panic := rfl
@[simp] theorem diverge_bind (f : α → Res ε β) : ((Res.diverge : Res ε α) >>= f) = .diverge := rfl
@[simp] theorem ifOk_ok (a : α) (k : α → Res δ β) (h : Unit → Res δ β) :
    (Res.ok a : Res ε α).ifOk k h = k a := rfl
@[simp] theorem ifOk_err (e : ε) (k : α → Res δ β) (h : Unit → Res δ β) :
    (Res.err e : Res ε α).ifOk k h = h () := rfl
end Res

/-- Laws of positions: they can be moved as far as they fit. -/
class LawfulPos (ο : Type) [Pos ο] where
  move : ο → Nat → ο
  fits : ο → Nat → Prop
  add_eq {ε : Type} {o : ο} {n m : Nat} : fits o n → m ≤ n → Pos.add (ε := ε) o m = .ok (move o m)
  fits_move {o : ο} {n m : Nat} : fits o n → m ≤ n → fits (move o m) (n - m)
  move_zero (o : ο) : move o 0 = o
  move_move (o : ο) (a b : Nat) : move (move o a) b = move o (a + b)

instance : LawfulPos Nat where
  move o n := o + n
  fits o n := o + n < u32Size
  add_eq {ε o n m} h hm := by
    have h1 : asU32 m = m := by unfold asU32; apply Nat.mod_eq_of_lt; omega
    show addU32 o (asU32 m) = _
    rw [h1, addU32, if_pos (by omega)]
  fits_move {o n m} h hm := by omega
  move_zero o := rfl
  move_move o a b := by omega

instance : LawfulPos Unit where
  move _ _ := ()
  fits _ _ := True
  add_eq _ _ := rfl
  fits_move _ _ := trivial
  move_zero _ := rfl
  move_move _ _ _ := rfl

theorem Nat.move_eq (o n : Nat) : LawfulPos.move o n = o + n := rfl

variable {ο : Type} [Pos ο] [LawfulPos ο]

/-- The remaining text still fits the space of positions. -/
def Bnd (c : Cursor ο) : Prop := LawfulPos.fits c.off c.rest.length

/-- The cursor moved forward to the suffix `r`. -/
def Cursor.to (c : Cursor ο) (r : List Char) : Cursor ο :=
  ⟨r, LawfulPos.move c.off (c.rest.length - r.length)⟩

@[simp] theorem Cursor.to_rest (c : Cursor ο) (r : List Char) : (c.to r).rest = r := rfl
theorem Cursor.to_self (c : Cursor ο) : c.to c.rest = c := by simp [Cursor.to, LawfulPos.move_zero]
theorem Cursor.to_to {c : Cursor ο} {r r' : List Char} (h : r <:+ c.rest) (h' : r' <:+ r) :
    (c.to r).to r' = c.to r' := by
  have := h.length_le; have := h'.length_le
  simp only [Cursor.to, LawfulPos.move_move]
  congr 2; omega
theorem Bnd.to {c : Cursor ο} (h : Bnd c) {r : List Char} (hr : r <:+ c.rest) : Bnd (c.to r) := by
  have := hr.length_le
  have e := LawfulPos.fits_move h (Nat.sub_le c.rest.length r.length)
  rwa [Nat.sub_sub_self this] at e

theorem advance_eq {ε : Type} {c : Cursor ο} {n : Nat} {t r : List Char} (hb : Bnd c)
    (h : c.rest = t ++ r) (hn : n = strLen t) : advance (ε := ε) c n = .ok (c.to r) := by
  unfold advance
  rw [splitAtByte_eq h hn]
  have e : c.rest.length = t.length + r.length := by simp [h]
  simp only
  rw [LawfulPos.add_eq hb (by omega), Res.ok_bind]
  simp [Cursor.to, e]

theorem sliceTo_eq {ε : Type} {s : List Char} {n : Nat} {t r : List Char}
    (h : s = t ++ r) (hn : n = strLen t) : sliceTo (ε := ε) s n = .ok t := by
  unfold sliceTo; rw [splitAtByte_eq h hn]

theorem sliceFrom_eq {ε : Type} {s : List Char} {n : Nat} {t r : List Char}
    (h : s = t ++ r) (hn : n = strLen t) : sliceFrom (ε := ε) s n = .ok r := by
  unfold sliceFrom; rw [splitAtByte_eq h hn]

@[simp] theorem startsWith_cons_cons (c d : Char) (s p : List Char) :
    startsWith (c :: s) (d :: p) = (c == d && startsWith s p) := by
  simp only [startsWith, List.isPrefixOf]
  congr 1; exact Bool.beq_comm
@[simp] theorem startsWith_nil (s : List Char) : startsWith s [] = true := by
  simp [startsWith]
@[simp] theorem startsWith_nil_cons (d : Char) (p : List Char) : startsWith [] (d :: p) = false := by
  simp [startsWith]
theorem startsWith_iff {s p : List Char} : startsWith s p = true ↔ ∃ r, s = p ++ r := by
  simp only [startsWith, List.isPrefixOf_iff_prefix]
  constructor
  · rintro ⟨r, h⟩; exact ⟨r, h.symm⟩
  · rintro ⟨r, h⟩; exact ⟨r, h.symm⟩

theorem startsWith_drop {s p : List Char} (h : startsWith s p = true) :
    s = p ++ s.drop p.length := by
  obtain ⟨r, rfl⟩ := startsWith_iff.mp h
  simp

/-- The bytes of a character: a first byte that is the ASCII byte or high, then high bytes. -/
theorem bytes_cons (c : Char) (t : List Char) :
    ∃ b l, bytesOf (c :: t) = b :: (l ++ bytesOf t) ∧ (∀ x ∈ l, ¬ x < 128) ∧
      (∀ d : Char, d.toNat < 128 → (b = B d ↔ c = d)) ∧ (b < 128 ↔ c.toNat < 128) ∧
      (c.toNat < 128 → l = [] ∧ b = B c) ∧ c.utf8Size = 1 + l.length := by
  by_cases h : c.toNat < 128
  · refine ⟨B c, [], by simp [encode_ascii h], by simp, ?_, ?_, by simp, by simp [utf8Size_ascii h]⟩
    · intro d hd; exact B_inj h hd
    · rw [UInt8.lt_iff_toNat_lt, B_toNat h]; simp
  · have hh := encode_high h
    have hl := String.length_utf8EncodeChar c
    have hp := utf8Size_pos c
    generalize he : String.utf8EncodeChar c = e at *
    cases e with
    | nil => simp at hl; omega
    | cons b l =>
      refine ⟨b, l, by simp [he], fun x hx => hh x (by simp [hx]), ?_, ?_, fun h' => absurd h' h, ?_⟩
      · intro d hd
        have hb := hh b (by simp)
        constructor
        · rintro rfl
          rw [UInt8.lt_iff_toNat_lt, B_toNat hd] at hb
          exact absurd hd hb
        · rintro rfl; exact absurd hd h
      · simp [h, hh b (by simp)]
      · simp at hl; omega

theorem headByte_ascii {d : Char} (hd : d.toNat < 128) : ¬ (B d ≥ 128) := by
  rw [ge_iff_le, UInt8.le_iff_toNat_le, B_toNat hd]; simp; omega

theorem high_ne {b : UInt8} (h : ¬ b < 128) {d : Char} (hd : d.toNat < 128) : b ≠ B d := by
  rintro rfl
  rw [UInt8.lt_iff_toNat_lt, B_toNat hd] at h
  exact h hd

theorem takeUntilLoop_eq {ε : Type} {input : Cursor ο} (hb : Bnd input) :
    ∀ (s pre : List Char) (i : Nat), input.rest = pre ++ s → i = strLen pre →
      takeUntilLoop (ε := ε) input s i =
        .ok (input.to (P.takeUntil s).2, pre ++ (P.takeUntil s).1) := by
  intro s
  induction s with
  | nil =>
    intro pre i h hi
    simp only [takeUntilLoop, P.takeUntil]
    rw [advance_eq hb (t := input.rest) (r := []) (by simp) rfl]
    simp [h]
  | cons c s ih =>
    intro pre i h hi
    simp only [takeUntilLoop, P.takeUntil]
    by_cases h1 : c = '\n'
    · simp only [h1, if_true]
      subst h1
      rw [advance_eq hb h hi, Res.ok_bind, sliceTo_eq h hi]
      simp
    · simp only [if_neg h1]
      have h' : input.rest = (pre ++ [c]) ++ s := by simp [h]
      have hi' : i + c.utf8Size = strLen (pre ++ [c]) := by simp [hi]
      by_cases h2 : c = '\r'
      · subst h2
        have e : '\r'.utf8Size = 1 := rfl
        rw [e] at hi'
        simp only [if_true, true_and]
        rw [sliceFrom_eq h' hi', Res.ok_bind]
        by_cases h3 : startsWithChar s '\n' = true
        · simp only [h3, if_true]
          rw [advance_eq hb h' hi', Res.ok_bind, sliceTo_eq h hi]
          simp
        · simp only [h3]
          have := ih (pre ++ ['\r']) (i + 1) h' hi'
          simp [this]
      · simp only [if_neg h2, h2, false_and, if_false]
        have := ih (pre ++ [c]) _ h' hi'
        simp [this]

theorem takeUntil_eq {ε : Type} {c : Cursor ο} (hb : Bnd c) :
    takeUntilNewlineOrEof (ε := ε) c = .ok (c.to (P.takeUntil c.rest).2, (P.takeUntil c.rest).1) := by
  unfold takeUntilNewlineOrEof
  rw [takeUntilLoop_eq hb c.rest [] 0 rfl rfl]; simp

theorem P.takeUntil_suffix (s : List Char) : (P.takeUntil s).2 <:+ s := by
  induction s with
  | nil => simp [P.takeUntil]
  | cons c s ih =>
    simp only [P.takeUntil]
    split
    · exact List.suffix_refl _
    · split
      · exact List.suffix_cons _ _
      · exact ih.trans (List.suffix_cons _ _)

theorem blockCommentLoop_skip (input : Cursor ο) (l : List UInt8) (hl : ∀ x ∈ l, ¬ x < 128)
    (bs : List UInt8) (i d : Nat) :
    blockCommentLoop input (l ++ bs) i d = blockCommentLoop input bs (i + l.length) d := by
  induction l generalizing i with
  | nil => simp
  | cons b l ih =>
    have hb := hl b (by simp)
    have ih := ih (fun x hx => hl x (by simp [hx])) (i + 1)
    have e : blockCommentLoop input (b :: (l ++ bs)) i d
        = blockCommentLoop input (l ++ bs) (i + 1) d := by
      cases h : l ++ bs with
      | nil => simp [blockCommentLoop]
      | cons b1 bs =>
        rw [blockCommentLoop]
        rw [if_neg (fun h => high_ne hb (by decide) h.1),
          if_neg (fun h => high_ne hb (by decide) h.1)]
    rw [List.cons_append, e, ih]
    congr 1
    simp; omega

theorem P.block_suffix {s : List Char} {d : Nat} {r : List Char} (h : P.block s d = some r) :
    r <:+ s ∧ r.length + 2 ≤ s.length := by
  fun_induction P.block s d with
  | case1 c0 c1 s d hc ih =>
    obtain ⟨h1, h2⟩ := ih h
    exact ⟨(h1.trans (List.suffix_cons _ _)).trans (List.suffix_cons _ _), by simp; omega⟩
  | case2 c0 c1 s d hc1 hc2 hd =>
    simp at h; subst h
    exact ⟨(List.suffix_cons _ _).trans (List.suffix_cons _ _), by simp⟩
  | case3 c0 c1 s d hc1 hc2 hd ih =>
    obtain ⟨h1, h2⟩ := ih h
    exact ⟨(h1.trans (List.suffix_cons _ _)).trans (List.suffix_cons _ _), by simp; omega⟩
  | case4 c0 c1 s d hc1 hc2 ih =>
    obtain ⟨h1, h2⟩ := ih h
    exact ⟨h1.trans (List.suffix_cons _ _), by simp at *; omega⟩
  | case5 => simp at h

theorem eaten_eq {s t r : List Char} (h : s = t ++ r) : P.eaten s r = t := by
  subst h; simp [P.eaten]

theorem eaten_append {s r : List Char} (h : r <:+ s) : s = P.eaten s r ++ r := by
  obtain ⟨t, rfl⟩ := h
  rw [eaten_eq rfl]

/-- A failing or succeeding parse of text, moved to cursors. -/
def lift (c : Cursor ο) : Option (List Char) → PRes (Cursor ο)
  | none => .err ()
  | some r => .ok (c.to r)

def lift2 {α β : Type} (c : Cursor ο) (f : α → List Char) (g : α → β) : Option α → PRes (Cursor ο × β)
  | none => .err ()
  | some a => .ok (c.to (f a), g a)

@[simp] theorem lift_none (c : Cursor ο) : lift c none = .err () := rfl
@[simp] theorem lift_some (c : Cursor ο) (r : List Char) : lift c (some r) = .ok (c.to r) := rfl
@[simp] theorem lift2_none {α β : Type} (c : Cursor ο) (f : α → List Char) (g : α → β) :
    lift2 c f g none = .err () := rfl
@[simp] theorem lift2_some {α β : Type} (c : Cursor ο) (f : α → List Char) (g : α → β) (a : α) :
    lift2 c f g (some a) = .ok (c.to (f a), g a) := rfl

theorem blockCommentLoop_eq {input : Cursor ο} (hb : Bnd input) (s : List Char) (d : Nat) :
    ∀ (pre : List Char) (i : Nat), input.rest = pre ++ s → i = strLen pre →
      (1 ≤ d ∨ startsWith s ['/', '*'] = true) →
      blockCommentLoop input (bytesOf s) i d =
        lift2 input id (fun r => P.eaten input.rest r) (P.block s d) := by
  fun_induction P.block s d with
  | case1 c0 c1 s d hc ih =>
    intro pre i h hi hd
    obtain ⟨rfl, rfl⟩ := hc
    rw [bytesOf_cons, bytesOf_cons, encode_ascii (by decide), encode_ascii (by decide)]
    simp only [List.cons_append, List.nil_append, blockCommentLoop]
    simp only [and_self, if_true]
    exact ih (pre ++ ['/', '*']) _ (by simp [h]) (by simp [hi]; rfl) (Or.inl (by omega))
  | case2 c0 c1 s d hc1 hc2 hd =>
    intro pre i h hi hd'
    obtain ⟨rfl, rfl⟩ := hc2
    rw [bytesOf_cons, bytesOf_cons, encode_ascii (by decide), encode_ascii (by decide)]
    simp only [List.cons_append, List.nil_append, blockCommentLoop]
    rw [if_neg (by decide), if_pos (by decide)]
    have hd1 : d = 1 := by
      rcases hd' with h | h
      · omega
      · simp at h
    subst hd1
    rw [if_neg (by omega), if_pos rfl]
    have h' : input.rest = (pre ++ ['*', '/']) ++ s := by simp [h]
    rw [advance_eq hb h' (by simp [hi]; rfl), Res.ok_bind, sliceTo_eq h' (by simp [hi]; rfl)]
    simp [eaten_eq h']
  | case3 c0 c1 s d hc1 hc2 hd ih =>
    intro pre i h hi hd'
    obtain ⟨rfl, rfl⟩ := hc2
    rw [bytesOf_cons, bytesOf_cons, encode_ascii (by decide), encode_ascii (by decide)]
    simp only [List.cons_append, List.nil_append, blockCommentLoop]
    rw [if_neg (by decide), if_pos (by decide)]
    rw [if_neg (by omega), if_neg (by omega)]
    exact ih (pre ++ ['*', '/']) _ (by simp [h]) (by simp [hi]; rfl) (Or.inl (by omega))
  | case4 c0 c1 s d hc1 hc2 ih =>
    intro pre i h hi hd'
    have hd1 : 1 ≤ d := by
      rcases hd' with h | h
      · exact h
      · simp at h; exact absurd h hc1
    have ih := ih (pre ++ [c0]) (i + c0.utf8Size) (by simp [h]) (by simp [hi]) (Or.inl hd1)
    rw [← ih]
    obtain ⟨b, l, e, hl, hB, hlt, hasc, hsz⟩ := bytes_cons c0 (c1 :: s)
    rw [e]
    have step : blockCommentLoop input (b :: (l ++ bytesOf (c1 :: s))) i d
        = blockCommentLoop input (l ++ bytesOf (c1 :: s)) (i + 1) d := by
      by_cases ha : c0.toNat < 128
      · obtain ⟨rfl, rfl⟩ := hasc ha
        obtain ⟨b1, l1, e1, hl1, hB1, -, -, -⟩ := bytes_cons c1 s
        rw [List.nil_append, e1, blockCommentLoop, if_neg, if_neg]
        · rintro ⟨h1, h2⟩
          exact hc2 ⟨(hB '*' (by decide)).mp h1, (hB1 '/' (by decide)).mp h2⟩
        · rintro ⟨h1, h2⟩
          exact hc1 ⟨(hB '/' (by decide)).mp h1, (hB1 '*' (by decide)).mp h2⟩
      · have := blockCommentLoop_skip input [b] (by intro x hx; simp at hx; subst hx; rw [hlt]; exact ha) (l ++ bytesOf (c1 :: s)) i d
        simpa using this
    rw [step, blockCommentLoop_skip _ _ hl]
    congr 1; omega
  | case5 s d hs =>
    intro pre i h hi hd
    simp only [lift2_none]
    cases s with
    | nil => simp [blockCommentLoop]
    | cons c s =>
      cases s with
      | cons c' s => exact absurd rfl (hs c c' s)
      | nil =>
        obtain ⟨b, l, e, hl, hB, hlt, hasc, hsz⟩ := bytes_cons c []
        rw [e]
        by_cases ha : c.toNat < 128
        · obtain ⟨rfl, rfl⟩ := hasc ha
          simp [blockCommentLoop]
        · have := blockCommentLoop_skip input (b :: l) (by
            intro x hx
            simp at hx
            rcases hx with rfl | hx
            · rw [hlt]; exact ha
            · exact hl x hx) [] i d
          simp at this
          simp [this, blockCommentLoop]

theorem blockComment_eq {c : Cursor ο} (hb : Bnd c) :
    blockComment c = lift2 c id (fun r => P.eaten c.rest r) (P.blockComment c.rest) := by
  unfold blockComment P.blockComment
  by_cases h : startsWith c.rest ['/', '*'] = true
  · simp only [h, if_true, Bool.not_true]
    rw [if_neg (by simp), blockCommentLoop_eq hb c.rest 0 [] 0 rfl rfl (Or.inr h)]
  · simp at h; simp [h]

theorem P.blockComment_suffix {s r : List Char} (h : P.blockComment s = some r) :
    r <:+ s ∧ r.length + 2 ≤ s.length := by
  unfold P.blockComment at h
  split at h
  · exact P.block_suffix h
  · simp at h

theorem P.triv1_suffix {s r : List Char} (h : P.triv1 s = some r) :
    r <:+ s ∧ r.length < s.length := by
  unfold P.triv1 at h
  split at h
  · simp at h
  · rename_i c t
    split at h
    · rename_i hc
      simp at h; subst h
      simp only [Bool.and_eq_true] at hc
      obtain ⟨u, hu⟩ := startsWith_iff.mp hc.1.1
      rw [hu]
      have : (P.takeUntil (['/', '/'] ++ u)).2 = (P.takeUntil u).2 := by
        simp [P.takeUntil]
      rw [this]
      have := P.takeUntil_suffix u
      refine ⟨(this.trans (List.suffix_cons _ _)).trans (List.suffix_cons _ _), ?_⟩
      have := this.length_le
      simp; omega
    · split at h
      · rename_i hc
        simp at h; subst h
        obtain ⟨u, hu⟩ := startsWith_iff.mp hc
        rw [hu]
        have e : (['/', '*', '*', '/'] ++ u).drop 4 = u := by simp
        simp only [List.cons_append, List.nil_append] at hu
        injection hu with h1 h2
        subst h1 h2
        exact ⟨List.suffix_append ['/', '*', '*', '/'] u, by simp; omega⟩
      · split at h
        · have := P.blockComment_suffix h
          exact ⟨this.1, by omega⟩
        · split at h
          · simp at h; subst h; exact ⟨List.suffix_cons _ _, by simp⟩
          · simp at h

theorem P.skipWs_eq (s : List Char) :
    P.skipWs s = match P.triv1 s with | none => s | some r => P.skipWs r := by
  rw [P.skipWs]
  cases h : P.triv1 s with
  | none => rfl
  | some r => simp [(P.triv1_suffix h).2]

theorem P.skipWs_suffix (s : List Char) : P.skipWs s <:+ s := by
  induction hn : s.length using Nat.strongRecOn generalizing s with
  | _ n ih =>
    rw [P.skipWs_eq]
    split
    · exact List.suffix_refl _
    · rename_i r h
      have := P.triv1_suffix h
      exact (ih _ (by omega) r rfl).trans this.1

theorem headD_bytesOf {c : Char} {t : List Char} (d : Char) (hd : d.toNat < 128) :
    (bytesOf (c :: t)).headD 0 = B d ↔ c = d := by
  obtain ⟨b, l, e, hl, hB, hlt, hasc, hsz⟩ := bytes_cons c t
  rw [e]; exact hB d hd

theorem headD_lt {c : Char} {t : List Char} : (bytesOf (c :: t)).headD 0 < 128 ↔ c.toNat < 128 := by
  obtain ⟨b, l, e, hl, hB, hlt, hasc, hsz⟩ := bytes_cons c t
  rw [e]; exact hlt

theorem isWhitespace_ascii {c : Char} (h : c.toNat < 128) :
    isWhitespace c = true ↔ c = ' ' ∨ (9 ≤ c.toNat ∧ c.toNat ≤ 13) := by
  have h1 : c ≠ '\u200e' := by rintro rfl; simp [Char.toNat] at h
  have h2 : c ≠ '\u200f' := by rintro rfl; simp [Char.toNat] at h
  have h3 : c = ' ' ↔ c.toNat = 32 := ⟨by rintro rfl; rfl, fun h => char_ext h⟩
  simp only [isWhitespace, charIsWhitespace, h3]
  simp [h1, h2]; omega

theorem skipWsLoop_eq {ε : Type} : ∀ (fuel : Nat) (c : Cursor ο), Bnd c → c.rest.length < fuel →
    skipWsLoop (ε := ε) fuel c = .ok (c.to (P.skipWs c.rest)) := by
  intro fuel
  induction fuel with
  | zero => intro c hb h; omega
  | succ fuel ih =>
    intro c hb hf
    rw [P.skipWs_eq]
    -- continuing with a shorter suffix
    have cont : ∀ r, P.triv1 c.rest = some r →
        skipWsLoop (ε := ε) fuel (c.to r) = .ok (c.to (P.skipWs r)) := by
      intro r hr
      have hs := P.triv1_suffix hr
      rw [ih (c.to r) (hb.to hs.1) (by simp; omega)]
      rw [Cursor.to_rest, Cursor.to_to hs.1 (P.skipWs_suffix r)]
    unfold skipWsLoop
    cases hr : c.rest with
    | nil =>
      simp [P.triv1]
      rw [← hr, Cursor.to_self]
    | cons ch t =>
      simp only
      rw [hr] at cont
      have hself : Res.ok (ε := ε) c = .ok (c.to (ch :: t)) := by rw [← hr, Cursor.to_self]
      -- the part after the comment checks
      have other : ∀ byte, byte = (bytesOf (ch :: t)).headD 0 → (P.triv1 (ch :: t) = if isWhitespace ch then some t else none) →
          (if byte = B ' ' ∨ (0x09 ≤ byte ∧ byte ≤ 0x0d) then do
            let s ← advance (ε := ε) c 1
            skipWsLoop fuel s
          else if byte < 128 then .ok c
          else if isWhitespace ch then do
            let s ← advance c ch.utf8Size
            skipWsLoop fuel s
          else .ok c) = .ok (c.to (match P.triv1 (ch :: t) with
              | none => ch :: t
              | some r => P.skipWs r)) := by
        intro byte hbyte hp
        have hadv : ∀ n, n = ch.utf8Size → advance (ε := ε) c n = .ok (c.to t) := by
          intro n hn
          exact advance_eq hb (t := [ch]) (by simp [hr]) (by simp [hn])
        obtain ⟨b, l, e, hl, hB, hlt, hasc, hsz⟩ := bytes_cons ch t
        rw [e, List.headD_cons] at hbyte
        subst hbyte
        by_cases ha : ch.toNat < 128
        · obtain ⟨-, rfl⟩ := hasc ha
          have hcond : (B ch = B ' ' ∨ 0x09 ≤ B ch ∧ B ch ≤ 0x0d) ↔ isWhitespace ch = true := by
            rw [isWhitespace_ascii ha, B_inj ha (by decide), UInt8.le_iff_toNat_le,
              UInt8.le_iff_toNat_le, B_toNat ha]
            rfl
          by_cases hw : isWhitespace ch = true
          · rw [if_pos (hcond.mpr hw), hadv 1 (utf8Size_ascii ha).symm, Res.ok_bind]
            rw [hp]; simp only [hw, if_true]
            exact cont t (by rw [hp]; simp [hw])
          · rw [if_neg (fun h => hw (hcond.mp h)), if_pos (hlt.mpr ha), hp]
            simp only [hw]
            exact hself
        · have hnb : ¬ byte < 128 := by rw [hlt]; exact ha
          rw [if_neg, if_neg hnb]
          · by_cases hw : isWhitespace ch = true
            · rw [if_pos hw, hadv _ rfl, Res.ok_bind, hp]
              simp only [hw, if_true]
              exact cont t (by rw [hp]; simp [hw])
            · rw [if_neg hw, hp]; simp only [hw]
              exact hself
          · rintro (h | ⟨h1, h2⟩)
            · exact high_ne hnb (by decide) h
            · apply hnb; rw [UInt8.le_iff_toNat_le] at h2; rw [UInt8.lt_iff_toNat_lt]
              simp at *; omega
      by_cases hslash : ch = '/'
      · rw [if_pos ((headD_bytesOf '/' (by decide)).mpr hslash)]
        split
        · rename_i hc
          have ht : P.triv1 (ch :: t) = some (P.takeUntil (ch :: t)).2 := by
            simp only [P.triv1]; rw [if_pos hc]
          rw [takeUntil_eq hb, Res.ok_bind, hr, ht]
          exact cont _ ht
        · rename_i hc
          split
          · rename_i hc2
            have ht : P.triv1 (ch :: t) = some ((ch :: t).drop 4) := by
              simp only [P.triv1]; rw [if_neg hc, if_pos hc2]
            rw [advance_eq (n := 4) hb (t := ['/', '*', '*', '/']) (r := (ch :: t).drop 4)
              (by rw [hr]; exact startsWith_drop hc2) rfl, Res.ok_bind, ht]
            exact cont _ ht
          · rename_i hc2
            split
            · rename_i hc3
              have ht : P.triv1 (ch :: t) = P.blockComment (ch :: t) := by
                simp only [P.triv1]; rw [if_neg hc, if_neg hc2, if_pos hc3]
              rw [blockComment_eq hb, hr, ht]
              cases hbc : P.blockComment (ch :: t) with
              | none => exact hself
              | some r =>
                simp only [lift2_some, Res.ifOk_ok, id]
                exact cont _ (by rw [ht, hbc])
            · rename_i hc3
              apply other _ rfl
              simp only [P.triv1]; rw [if_neg hc, if_neg hc2, if_neg hc3]
      · rw [if_neg (fun h => hslash ((headD_bytesOf '/' (by decide)).mp h))]
        apply other _ rfl
        simp only [P.triv1, startsWith_cons_cons]
        simp [hslash]

theorem skipWhitespace_eq {ε : Type} {c : Cursor ο} (hb : Bnd c) :
    skipWhitespace (ε := ε) c = .ok (c.to (P.skipWs c.rest)) :=
  skipWsLoop_eq _ c hb (by omega)

/-! ### Identifiers -/

section
variable [UnicodeTables]

theorem identEnd_eq (len : Nat) (s : List Char) (i : Nat) (h : len = i + strLen s) :
    identEnd len s i = i + strLen (s.takeWhile isIdentContinue) := by
  induction s generalizing i with
  | nil => simp [identEnd] at *; exact h
  | cons c s ih =>
    simp only [identEnd]
    by_cases hc : isIdentContinue c = true
    · simp [hc]
      rw [ih _ (by simp at h; omega)]
      omega
    · simp [hc]

theorem identNotRaw_eq {c : Cursor ο} (hb : Bnd c) :
    identNotRaw c = lift2 c (·.2) (·.1) (P.identNotRaw c.rest) := by
  unfold identNotRaw P.identNotRaw
  cases hr : c.rest with
  | nil => rfl
  | cons ch t =>
    simp only
    by_cases hs : isIdentStart ch = true
    · simp only [hs, if_true]
      have hlen : identEnd (strLen (ch :: t)) t ch.utf8Size =
          strLen (ch :: t.takeWhile isIdentContinue) := by
        rw [identEnd_eq _ _ _ (by simp)]; simp
      have h : c.rest = (ch :: t.takeWhile isIdentContinue) ++ t.dropWhile isIdentContinue := by
        simp [hr]
      rw [hlen, advance_eq hb h rfl, Res.ok_bind, ← hr, sliceTo_eq h rfl]
      rfl
    · simp [hs]

theorem P.identNotRaw_some {s sym r : List Char} (h : P.identNotRaw s = some (sym, r)) :
    s = sym ++ r ∧ sym ≠ [] ∧ ∃ c t, sym = c :: t ∧ isIdentStart c = true ∧
      (∀ x ∈ t, isIdentContinue x = true) ∧ (∀ x ∈ r.head?, isIdentContinue x = false) := by
  unfold P.identNotRaw at h
  split at h
  · simp at h
  · rename_i c t
    split at h
    · rename_i hs
      simp at h; obtain ⟨rfl, rfl⟩ := h
      refine ⟨by simp, by simp, c, _, rfl, hs, ?_, ?_⟩
      · intro x hx
        exact List.all_eq_true.mp (List.all_takeWhile (p := isIdentContinue) (l := t)) x hx
      · intro x hx
        have := List.head?_dropWhile_not isIdentContinue t
        rw [Option.mem_def] at hx
        rw [hx] at this
        simpa using this
    · simp at h

theorem P.identNotRaw_suffix {s sym r : List Char} (h : P.identNotRaw s = some (sym, r)) :
    r <:+ s ∧ r.length < s.length := by
  obtain ⟨rfl, hne, -⟩ := P.identNotRaw_some h
  refine ⟨List.suffix_append _ _, ?_⟩
  have := List.length_pos_iff.mpr hne
  simp; omega

theorem identAny_eq {c : Cursor ο} (hb : Bnd c) :
    identAny c = lift2 c (·.2.2) (fun x => TokenTree.ident x.1 x.2.1 Span.callSite)
      (P.identAny c.rest) := by
  unfold identAny P.identAny
  by_cases hr : startsWith c.rest ['r', '#'] = true
  · simp only [hr, if_true]
    have hd : c.rest = ['r', '#'] ++ c.rest.drop 2 := startsWith_drop hr
    rw [advance_eq (n := 2) hb hd rfl, Res.ok_bind]
    have hsuf : c.rest.drop 2 <:+ c.rest := List.drop_suffix _ _
    rw [identNotRaw_eq (hb.to hsuf)]
    simp only [Cursor.to_rest]
    cases hi : P.identNotRaw (c.rest.drop 2) with
    | none => rfl
    | some x =>
      obtain ⟨sym, r⟩ := x
      simp only [lift2_some, Res.ok_bind]
      have := P.identNotRaw_suffix hi
      rw [Cursor.to_to hsuf this.1]
      by_cases hn : isNonRawable sym = true
      · simp [hn]
      · simp [hn, identNewRawUnchecked]
  · simp only [hr]
    rw [advance_eq hb (t := []) (r := c.rest) (by simp) (by simp), Res.ok_bind, Cursor.to_self,
      identNotRaw_eq hb]
    cases hi : P.identNotRaw c.rest with
    | none => rfl
    | some x => simp [identNewUnchecked]

theorem P.identAny_suffix {s sym r : List Char} {raw : Bool}
    (h : P.identAny s = some (sym, raw, r)) : r <:+ s ∧ r.length < s.length := by
  unfold P.identAny at h
  split at h
  · split at h
    · rename_i sym' r' hi
      split at h
      · simp at h
      · simp at h; obtain ⟨rfl, rfl, rfl⟩ := h
        have := P.identNotRaw_suffix hi
        have h2 := List.drop_suffix 2 s
        have h3 := h2.length_le
        exact ⟨this.1.trans h2, by omega⟩
    · simp at h
  · split at h
    · rename_i sym' r' hi
      simp at h; obtain ⟨rfl, rfl, rfl⟩ := h
      exact P.identNotRaw_suffix hi
    · simp at h

theorem ident_eq {c : Cursor ο} (hb : Bnd c) :
    ident c = lift2 c (·.2.2) (fun x => TokenTree.ident x.1 x.2.1 Span.callSite)
      (P.ident c.rest) := by
  unfold ident P.ident
  split
  · rfl
  · exact identAny_eq hb

theorem P.ident_suffix {s sym r : List Char} {raw : Bool}
    (h : P.ident s = some (sym, raw, r)) : r <:+ s ∧ r.length < s.length := by
  unfold P.ident at h
  split at h
  · simp at h
  · exact P.identAny_suffix h

theorem literalSuffix_eq {c : Cursor ο} (hb : Bnd c) :
    literalSuffix c = .ok (c.to (P.literalSuffix c.rest)) := by
  unfold literalSuffix P.literalSuffix
  rw [identNotRaw_eq hb]
  cases hi : P.identNotRaw c.rest with
  | none => simp [Cursor.to_self]
  | some x => simp

theorem P.literalSuffix_suffix (s : List Char) : P.literalSuffix s <:+ s := by
  unfold P.literalSuffix
  split
  · rename_i h; exact (P.identNotRaw_suffix h).1
  · exact List.suffix_refl _

theorem wordBreak_eq {c : Cursor ο} : wordBreak c = lift c (P.wordBreak c.rest) := by
  unfold wordBreak P.wordBreak
  cases hr : c.rest with
  | nil => simp; rw [← hr, Cursor.to_self]
  | cons ch t =>
    simp only
    split
    · rfl
    · simp; rw [← hr, Cursor.to_self]

theorem parse_eq {c : Cursor ο} (hb : Bnd c) (tag : List Char) :
    c.parse tag = lift c (if startsWith c.rest tag then some (c.rest.drop tag.length) else none) := by
  unfold Cursor.parse
  by_cases h : startsWith c.rest tag = true
  · simp only [h, if_true]
    rw [advance_eq hb (startsWith_drop h) rfl]; rfl
  · simp [h]

end
end PM2
