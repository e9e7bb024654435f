import Verif.Model.Timed
/-! # The lexer with a count of its steps computes what the lexer computes -/

set_option linter.unusedSectionVars false

namespace PM2

namespace Timed
variable {ε δ α β : Type}

@[simp] theorem val_ok (a : α) : (ok a : Timed ε α).val = .ok a := rfl
@[simp] theorem val_err (e : ε) : (err e : Timed ε α).val = .err e := rfl
@[simp] theorem val_panic : (panic : Timed ε α).val = .panic := rfl
@[simp] theorem val_diverge : (diverge : Timed ε α).val = .diverge := rfl
@[simp] theorem val_tick (n : Nat) (x : Timed ε α) : (tick n x).val = x.val := rfl
@[simp] theorem val_step (r : Res ε α) : (step r).val = r := rfl
@[simp] theorem val_pure (a : α) : (pure a : Timed ε α).val = .ok a := rfl
@[simp] theorem val_bind (x : Timed ε α) (f : α → Timed ε β) :
    (x >>= f).val = x.val >>= fun a => (f a).val := by
  show (bind x f).val = Res.bind x.val _
  unfold bind Res.bind
  cases x.val <;> rfl
@[simp] theorem val_ifOk (x : Timed ε α) (k : α → Timed δ β) (h : Unit → Timed δ β) :
    (x.ifOk k h).val = x.val.ifOk (fun a => (k a).val) (fun u => (h u).val) := by
  unfold ifOk Res.ifOk
  cases x.val <;> rfl
@[simp] theorem val_ite (c : Prop) [Decidable c] (x y : Timed ε α) :
    (if c then x else y).val = if c then x.val else y.val := by split <;> rfl

end Timed

namespace T
open Timed

variable {ο : Type} [Pos ο]

@[simp] theorem advance_val {ε : Type} (c : Cursor ο) (n : Nat) :
    (T.advance c n : Timed ε _).val = PM2.advance c n := rfl

@[simp] theorem takeUntilLoop_val {ε : Type} (input : Cursor ο) (chars : List Char) (i : Nat) :
    (T.takeUntilLoop input chars i : Timed ε _).val = PM2.takeUntilLoop input chars i := by
  induction chars generalizing i with
  | nil => simp [T.takeUntilLoop, PM2.takeUntilLoop]
  | cons ch chars ih => simp [T.takeUntilLoop, PM2.takeUntilLoop, ih]

@[simp] theorem takeUntil_val {ε : Type} (input : Cursor ο) :
    (T.takeUntilNewlineOrEof input : Timed ε _).val = PM2.takeUntilNewlineOrEof input := by
  simp [T.takeUntilNewlineOrEof, PM2.takeUntilNewlineOrEof]

@[simp] theorem blockCommentLoop_val (input : Cursor ο) (bs : List UInt8) (i d : Nat) :
    (T.blockCommentLoop input bs i d).val = PM2.blockCommentLoop input bs i d := by
  fun_induction PM2.blockCommentLoop input bs i d
  case case5 h1 h2 ih => simp only [T.blockCommentLoop, val_tick, val_ite, if_neg h1, if_neg h2, ih]
  all_goals simp_all [T.blockCommentLoop]

@[simp] theorem blockComment_val (input : Cursor ο) : (T.blockComment input).val = PM2.blockComment input := by
  simp [T.blockComment, PM2.blockComment]

@[simp] theorem skipWsLoop_val {ε : Type} (fuel : Nat) (c : Cursor ο) :
    (T.skipWsLoop fuel c : Timed ε _).val = PM2.skipWsLoop fuel c := by
  induction fuel generalizing c with
  | zero => rfl
  | succ fuel ih =>
    obtain ⟨rest, off⟩ := c
    cases rest with
    | nil => rfl
    | cons ch t =>
      simp only [T.skipWsLoop, PM2.skipWsLoop, val_tick, val_ite, val_bind, val_ifOk, takeUntil_val, advance_val, ih,
        blockComment_val, val_ok]

@[simp] theorem skipWhitespace_val {ε : Type} (c : Cursor ο) :
    (T.skipWhitespace c : Timed ε _).val = PM2.skipWhitespace c := by
  simp [T.skipWhitespace, PM2.skipWhitespace]

section
variable [UnicodeTables]

@[simp] theorem identEnd_val (len : Nat) (s : List Char) (i : Nat) :
    (T.identEnd len s i).val = .ok (PM2.identEnd len s i) := by
  induction s generalizing i with
  | nil => rfl
  | cons ch s ih =>
    simp only [T.identEnd, PM2.identEnd, val_tick, val_ite, ih, val_ok]
    split <;> rfl

@[simp] theorem ok_bind {ε α β : Type} (a : α) (f : α → Res ε β) : (Res.ok a >>= f) = f a := rfl

@[simp] theorem identNotRaw_val (c : Cursor ο) : (T.identNotRaw c).val = PM2.identNotRaw c := by
  obtain ⟨rest, off⟩ := c
  cases rest with
  | nil => rfl
  | cons ch t => simp [T.identNotRaw, PM2.identNotRaw]

@[simp] theorem identAny_val (c : Cursor ο) : (T.identAny c).val = PM2.identAny c := by
  simp [T.identAny, PM2.identAny]

@[simp] theorem ident_val (c : Cursor ο) : (T.ident c).val = PM2.ident c := by
  simp only [T.ident, PM2.ident, val_tick, val_ite, identAny_val, val_err]

@[simp] theorem literalSuffix_val (c : Cursor ο) : (T.literalSuffix c).val = PM2.literalSuffix c := by
  simp [T.literalSuffix, PM2.literalSuffix]
end

@[simp] theorem backslashULoop_val (s : List Char) (i v l : Nat) :
    (T.backslashULoop s i v l).val = PM2.backslashULoop s i v l := by
  induction s generalizing i v l with
  | nil => rfl
  | cons ch s ih =>
    simp only [T.backslashULoop, PM2.backslashULoop, val_tick]
    cases hexVal ch with
    | some d => simp [ih]
    | none =>
      simp only [val_ite, ih, val_err]
      cases charFromU32 v <;> simp

@[simp] theorem backslashU_val (s : List Char) (i : Nat) : (T.backslashU s i).val = PM2.backslashU s i := by
  cases s <;> simp [T.backslashU, PM2.backslashU]

@[simp] theorem trailingBackslashLoop_val (input : Cursor ο) (bs : List UInt8) (i : Nat) (last : UInt8) :
    (T.trailingBackslashLoop input bs i last).val = PM2.trailingBackslashLoop input bs i last := by
  fun_induction PM2.trailingBackslashLoop input bs i last <;> unfold T.trailingBackslashLoop <;> simp_all

@[simp] theorem trailingBackslash_val (input : Cursor ο) (last : UInt8) :
    (T.trailingBackslash input last).val = PM2.trailingBackslash input last := by
  simp [T.trailingBackslash, PM2.trailingBackslash]

section
variable [UnicodeTables]

@[simp] theorem cookedStringLoop_val (fuel : Nat) (input : Cursor ο) (chars : List Char) (i : Nat) :
    (T.cookedStringLoop fuel input chars i).val = PM2.cookedStringLoop fuel input chars i := by
  induction fuel generalizing input chars i with
  | zero => rfl
  | succ fuel ih =>
    cases chars with
    | nil => rfl
    | cons ch chars =>
      cases chars with
      | nil => simp [T.cookedStringLoop, PM2.cookedStringLoop, ih]
      | cons c2 chars => simp [T.cookedStringLoop, PM2.cookedStringLoop, ih]

@[simp] theorem cookedString_val (c : Cursor ο) : (T.cookedString c).val = PM2.cookedString c := by
  simp [T.cookedString, PM2.cookedString]

@[simp] theorem delimiterLoop_val (input : Cursor ο) (bs : List UInt8) (i : Nat) :
    (T.delimiterLoop input bs i).val = PM2.delimiterLoop input bs i := by
  induction bs generalizing i with
  | nil => rfl
  | cons b bs ih => simp [T.delimiterLoop, PM2.delimiterLoop, ih]

@[simp] theorem delimiterOfRawString_val (c : Cursor ο) :
    (T.delimiterOfRawString c).val = PM2.delimiterOfRawString c := by
  simp [T.delimiterOfRawString, PM2.delimiterOfRawString]

@[simp] theorem rawStringLoop_val (input : Cursor ο) (d : List Char) (bs : List UInt8) (i : Nat) :
    (T.rawStringLoop input d bs i).val = PM2.rawStringLoop input d bs i := by
  fun_induction PM2.rawStringLoop input d bs i <;> unfold T.rawStringLoop <;> simp_all

@[simp] theorem rawString_val (c : Cursor ο) : (T.rawString c).val = PM2.rawString c := by
  simp [T.rawString, PM2.rawString]

@[simp] theorem string_val (c : Cursor ο) : (T.string c).val = PM2.string c := by
  simp [T.string, PM2.string]

@[simp] theorem cookedByteStringLoop_val (fuel : Nat) (input : Cursor ο) (chars : List UInt8) (i : Nat) :
    (T.cookedByteStringLoop fuel input chars i).val = PM2.cookedByteStringLoop fuel input chars i := by
  induction fuel generalizing input chars i with
  | zero => rfl
  | succ fuel ih =>
    cases chars with
    | nil => rfl
    | cons ch chars =>
      cases chars with
      | nil => simp [T.cookedByteStringLoop, PM2.cookedByteStringLoop, ih]
      | cons c2 chars => simp [T.cookedByteStringLoop, PM2.cookedByteStringLoop, ih]

@[simp] theorem cookedByteString_val (c : Cursor ο) : (T.cookedByteString c).val = PM2.cookedByteString c := by
  simp [T.cookedByteString, PM2.cookedByteString]

@[simp] theorem rawByteStringLoop_val (input : Cursor ο) (d : List Char) (bs : List UInt8) (i : Nat) :
    (T.rawByteStringLoop input d bs i).val = PM2.rawByteStringLoop input d bs i := by
  fun_induction PM2.rawByteStringLoop input d bs i
  case case7 h1 h2 h3 => unfold T.rawByteStringLoop; simp only [val_tick, if_neg h1, if_neg h2, if_neg h3, val_err]
  all_goals unfold T.rawByteStringLoop; simp_all

@[simp] theorem rawByteString_val (c : Cursor ο) : (T.rawByteString c).val = PM2.rawByteString c := by
  simp [T.rawByteString, PM2.rawByteString]

@[simp] theorem byteString_val (c : Cursor ο) : (T.byteString c).val = PM2.byteString c := by
  simp [T.byteString, PM2.byteString]

@[simp] theorem rawCStringLoop_val (input : Cursor ο) (d : List Char) (bs : List UInt8) (i : Nat) :
    (T.rawCStringLoop input d bs i).val = PM2.rawCStringLoop input d bs i := by
  fun_induction PM2.rawCStringLoop input d bs i <;> unfold T.rawCStringLoop <;> simp_all

@[simp] theorem rawCString_val (c : Cursor ο) : (T.rawCString c).val = PM2.rawCString c := by
  simp [T.rawCString, PM2.rawCString]

@[simp] theorem cookedCStringLoop_val (fuel : Nat) (input : Cursor ο) (chars : List Char) (i : Nat) :
    (T.cookedCStringLoop fuel input chars i).val = PM2.cookedCStringLoop fuel input chars i := by
  induction fuel generalizing input chars i with
  | zero => rfl
  | succ fuel ih =>
    cases chars with
    | nil => rfl
    | cons ch chars =>
      cases chars with
      | nil => simp [T.cookedCStringLoop, PM2.cookedCStringLoop, ih]
      | cons c2 chars => simp [T.cookedCStringLoop, PM2.cookedCStringLoop, ih]

@[simp] theorem cookedCString_val (c : Cursor ο) : (T.cookedCString c).val = PM2.cookedCString c := by
  simp [T.cookedCString, PM2.cookedCString]

@[simp] theorem cString_val (c : Cursor ο) : (T.cString c).val = PM2.cString c := by
  simp [T.cString, PM2.cString]

@[simp] theorem byte_val (c : Cursor ο) : (T.byte c).val = PM2.byte c := by
  simp only [T.byte, PM2.byte, val_tick, val_bind, val_step]
  congr 1
  funext input
  congr 1
  funext o
  split
  · rfl
  · split
    · rfl
    · simp

@[simp] theorem charElem_val (s : List Char) : (T.charElem s).val = PM2.charElem s := by
  cases s with
  | nil => rfl
  | cons ch s =>
    cases s with
    | nil => simp [T.charElem, PM2.charElem]
    | cons c2 s => simp [T.charElem, PM2.charElem]

@[simp] theorem character_val (c : Cursor ο) : (T.character c).val = PM2.character c := by
  simp only [T.character, PM2.character, val_tick, val_bind, val_step, charElem_val]
  congr 1
  funext input
  congr 1
  funext o
  split
  · rfl
  · split
    · rfl
    · simp

@[simp] theorem floatMantissa_val (s : List Char) (len : Nat) (d : Bool) :
    (T.floatMantissa s len d).val = PM2.floatMantissa s len d := by
  fun_induction PM2.floatMantissa s len d <;> simp_all [T.floatMantissa]

@[simp] theorem floatExponent_val (s : List Char) (len : Nat) (a b : Bool) :
    (T.floatExponent s len a b).val = .ok (PM2.floatExponent s len a b) := by
  fun_induction PM2.floatExponent s len a b <;> simp_all [T.floatExponent]

@[simp] theorem floatDigits_val (c : Cursor ο) : (T.floatDigits c).val = PM2.floatDigits c := by
  obtain ⟨rest, off⟩ := c
  cases rest with
  | nil => rfl
  | cons ch t =>
    simp only [T.floatDigits, PM2.floatDigits, val_tick, val_ite, val_err, val_bind, floatMantissa_val]
    congr 1
    congr 1
    funext ⟨chars, len, d, e⟩
    simp only [val_ite, val_err, val_bind, advance_val, floatExponent_val, ok_bind]
    congr 1
    congr 1
    congr 1
    · congr 1
      funext before
      cases PM2.floatExponent chars len false false <;> rfl
    · cases PM2.floatExponent chars len false false <;> rfl

@[simp] theorem numberEnd_val (rest : Cursor ο) : (T.numberEnd rest).val =
    (match rest.rest with
    | ch :: _ =>
      if isIdentStart ch then do
        let (rest, _) ← PM2.identNotRaw rest
        wordBreak rest
      else wordBreak rest
    | [] => wordBreak rest) := by
  unfold T.numberEnd
  split <;> simp_all

@[simp] theorem float_val (c : Cursor ο) : (T.float c).val = PM2.float c := by
  simp [T.float, PM2.float]
  rfl

@[simp] theorem digitsLoop_val (base : Nat) (bs : List UInt8) (len : Nat) (e : Bool) :
    (T.digitsLoop base bs len e).val = .ok (PM2.digitsLoop base bs len e) := by
  induction bs generalizing len e with
  | nil => rfl
  | cons b bs ih =>
    simp only [T.digitsLoop, PM2.digitsLoop, val_tick, val_ite, ih, val_ok]
    repeat' split
    all_goals rfl

@[simp] theorem digits_val (c : Cursor ο) : (T.digits c).val = PM2.digits c := by
  simp only [T.digits, PM2.digits, val_tick, val_bind, val_ite, val_ok, advance_val]
  congr 1
  funext ⟨input, base⟩
  simp only [val_bind, digitsLoop_val, ok_bind]
  cases PM2.digitsLoop base (bytesOf input.rest) 0 true <;> simp

@[simp] theorem int_val (c : Cursor ο) : (T.int c).val = PM2.int c := by
  simp [T.int, PM2.int]
  rfl

@[simp] theorem literalNocapture_val (c : Cursor ο) : (T.literalNocapture c).val = PM2.literalNocapture c := by
  simp [T.literalNocapture, PM2.literalNocapture]

@[simp] theorem literal_val (c : Cursor ο) : (T.literal c).val = PM2.literal c := by
  simp [T.literal, PM2.literal]

@[simp] theorem punct_val (c : Cursor ο) : (T.punct c).val = PM2.punct c := by
  simp [T.punct, PM2.punct]

@[simp] theorem leafToken_val (c : Cursor ο) : (T.leafToken c).val = PM2.leafToken c := by
  simp [T.leafToken, PM2.leafToken]

@[simp] theorem docCommentContents_val (c : Cursor ο) :
    (T.docCommentContents c).val = PM2.docCommentContents c := by
  simp [T.docCommentContents, PM2.docCommentContents]

@[simp] theorem scanBareCr_val (fuel : Nat) (s : List Char) : (T.scanBareCr fuel s).val = PM2.scanBareCr fuel s := by
  induction fuel generalizing s with
  | zero => rfl
  | succ fuel ih =>
    simp only [T.scanBareCr, PM2.scanBareCr, val_tick]
    cases strFind s '\r' <;> simp [ih]

@[simp] theorem docComment_val (c : Cursor ο) : (T.docComment c).val = PM2.docComment c := by
  simp [T.docComment, PM2.docComment]

@[simp] theorem lexStep_val (st : LState ο) : (T.lexStep st).val = PM2.lexStep st := by
  simp only [T.lexStep, PM2.lexStep, val_tick, val_bind, skipWhitespace_val, val_ifOk, docComment_val, val_ok]
  congr 1
  funext input
  congr 1
  funext u
  cases bytesOf input.rest with
  | nil => cases st.stack <;> rfl
  | cons first t =>
    simp only []
    cases openDelimiter input first with
    | some d => simp
    | none =>
      simp only []
      cases closeDelimiter first with
      | some d => cases st.stack <;> simp
      | none =>
        simp only [val_ifOk, leafToken_val, val_ok, val_err]
        cases PM2.leafToken input <;> rfl

@[simp] theorem lexLoop_val (fuel : Nat) (st : LState ο) : (T.lexLoop fuel st).val = PM2.lexLoop fuel st := by
  induction fuel generalizing st with
  | zero => rfl
  | succ fuel ih =>
    simp only [T.lexLoop, PM2.lexLoop, val_bind, lexStep_val]
    cases PM2.lexStep st with
    | ok x => cases x <;> simp [ih]
    | _ => rfl

/-- Counting the steps does not change the result. -/
theorem fromStrAt_val (src : List Char) (off : ο) : (T.fromStrAt src off).val = PM2.fromStrAt src off := by
  simp [T.fromStrAt, PM2.fromStrAt, T.tokenStream, PM2.tokenStream]

/-- Counting the steps does not change the result. -/
theorem literalFromStrAt_val (src : List Char) (off : ο) :
    (T.literalFromStrAt src off).val = PM2.literalFromStrAt src off := by
  simp only [T.literalFromStrAt, PM2.literalFromStrAt, val_tick, val_ite, val_bind, advance_val, val_ifOk, literal_val,
    val_err, val_ok]
  congr 1
  congr 1
  funext c
  obtain ⟨rest, o⟩ := c
  cases rest <;> simp

end
end T
end PM2
