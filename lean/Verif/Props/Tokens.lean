import Verif.Proof.Shape
import Verif.Props.Tiling
import Verif.Props.Total
import Verif.Spec.Decide
/-! # C11–C15: the single tokens of an accepted text -/

set_option linter.unusedSectionVars false

namespace PM2.Props
open Spec

section
variable [UnicodeTables]

/-- Every token of an accepted text stands somewhere in it. -/
theorem at_exists {sm : SourceMap} {texts : List (List Char)} (h : History sm texts)
    {src : List Char} (hr : Room texts src) {ts : List TokenTree}
    (hok : (TokenStream.fromStr sm src).2 = .ok ts) {tok : TokenTree} (ht : Sub tok ts) :
    ∃ a x r, At (base texts texts.length) src tok.span a x r ∧ x ≠ [] := by
  obtain ⟨bom, body, rfl, -, htile⟩ := C06_tiling h hr hok
  obtain ⟨a, x, b, rfl, hx, hsp, -⟩ := htile.sub ht
  refine ⟨bom ++ a, x, b, ⟨by simp, ?_, ?_⟩, hx⟩ <;> rw [hsp] <;> simp <;> omega

theorem stripBom_suffix (src : List Char) : P.stripBom src <:+ src := by
  unfold P.stripBom
  split
  · exact List.drop_suffix _ _
  · exact List.suffix_refl _

theorem at_unique {p : Nat} {src a x r a' x' r' : List Char} {span : Span}
    (h : At p src span a x r) (h' : At p src span a' x' r') : a = a' ∧ x = x' ∧ r = r' := by
  have h1 := h.lo; have h2 := h.hi; have h3 := h'.lo; have h4 := h'.hi
  have e := h.split.symm.trans h'.split
  have e1 := List.append_inj e (by simp; omega)
  have e2 := List.append_inj e1.1 (by omega)
  exact ⟨e2.1, e2.2, e1.2⟩

theorem leaf_at {sm : SourceMap} {texts : List (List Char)} (h : History sm texts)
    {src : List Char} (hr : Room texts src) {ts : List TokenTree}
    (hok : (TokenStream.fromStr sm src).2 = .ok ts) {tok : TokenTree} (ht : Sub tok ts)
    (hg : ∀ d inner span, tok ≠ .group d inner span) {a x r : List Char}
    (hat : At (base texts texts.length) src tok.span a x r) (hnd : ¬ IsDoc x) :
    ∃ l, P.leaf (x ++ r) = some (l, r) ∧ tok = l.tok tok.span := by
  obtain ⟨e, -, -, -, hb⟩ := h.fromStr hr
  rw [e, fromStrAt_ok_iff hb] at hok
  have hsuf := stripBom_suffix src
  rcases hok.leaves ht with ⟨s1, l, r1, h1, h2, h3, h4⟩ | ⟨d, i, sp, rfl⟩ | ⟨c, i, x1, r1, h1, h2, h3, h4, h5⟩
  · obtain ⟨a1, e1⟩ := h1.trans hsuf
    obtain ⟨x1, rfl⟩ := h3
    have hsp : tok.span = ⟨base texts texts.length + src.length - (x1 ++ r1).length,
        base texts texts.length + src.length - r1.length⟩ := by
      rw [h4]; cases l <;> rfl
    have hat' : At (base texts texts.length) src tok.span a1 x1 r1 := by
      refine ⟨by rw [← e1]; simp, ?_, ?_⟩ <;> rw [hsp, ← e1] <;> simp <;> omega
    obtain ⟨rfl, rfl, rfl⟩ := at_unique hat hat'
    exact ⟨l, h2, by rw [← hsp] at h4; exact h4⟩
  · exact absurd rfl (hg _ _ _)
  · obtain ⟨a1, e1⟩ := h1.trans hsuf
    have hat' : At (base texts texts.length) src tok.span a1 x1 r1 := by
      refine ⟨by rw [← e1]; simp, ?_, ?_⟩ <;> rw [h5, ← e1] <;> simp <;> omega
    obtain ⟨rfl, rfl, rfl⟩ := at_unique hat hat'
    exact absurd h2.isDoc hnd

/-! ### C11 -/

theorem punctChars_iff {c : Char} : c ∈ recognizedPunct ↔ c ∈ punctChars := by
  have h1 : ∀ c ∈ recognizedPunct, c ∈ punctChars := by decide
  have h2 : ∀ c ∈ punctChars, c ∈ recognizedPunct := by decide
  exact ⟨h1 c, h2 c⟩

/-- **C11.** A parsed punct other than `'` (not from a doc comment) is the one punctuation character at
its span, and it is `Joint` exactly when the next character of the source is a punctuation character
that does not start a comment. -/
theorem C11_spacing {sm : SourceMap} {texts : List (List Char)} (h : History sm texts)
    {src : List Char} (hr : Room texts src) {ts : List TokenTree}
    (hok : (TokenStream.fromStr sm src).2 = .ok ts) {ch : Char} {sp : Spacing} {span : Span}
    (ht : Sub (.punct ch sp span) ts) (hq : ch ≠ '\'') {a x r : List Char}
    (hat : At (base texts texts.length) src span a x r) (hnd : ¬ IsDoc x) :
    x = [ch] ∧ ch ∈ punctChars ∧
    (sp = .joint ↔ (∃ c r', r = c :: r' ∧ c ∈ punctChars) ∧
      ¬ ['/', '/'] <+: r ∧ ¬ ['/', '*'] <+: r) := by
  obtain ⟨l, h1, h2⟩ := leaf_at h hr hok ht (by simp) hat hnd
  cases l with
  | ident => simp [P.Leaf.tok] at h2
  | literal => simp [P.Leaf.tok] at h2
  | punct c' sp' =>
    simp [P.Leaf.tok] at h2
    obtain ⟨rfl, rfl, -⟩ := h2
    obtain ⟨e, hc, hsp, -⟩ := P.punct_spec (P.leaf_punct h1).2
    refine ⟨?_, punctChars_iff.mp hc, ?_⟩
    · exact List.append_cancel_right (e.trans (List.singleton_append).symm)
    · rw [hsp hq, P.punctChar_isSome]
      simp only [punctChars_iff]

/-- The tokens of a doc comment are `Alone`. -/
theorem C11_doc {ch : Char} {sp : Spacing} {span span' : Span} {content : List Char} {inner : Bool}
    (h : Sub (.punct ch sp span) (docAttr content inner span')) : sp = .alone := by
  have hin : ∀ {ch}, Sub (.punct ch sp span) [.ident ['d', 'o', 'c'] false span',
      .punct '=' .alone span', .literal (litString content) span'] → sp = .alone := by
    intro ch h
    rcases h.cons with h | ⟨_, _, _, h, _⟩ | h
    · cases h
    · cases h
    rcases h.cons with h | ⟨_, _, _, h, _⟩ | h
    · cases h; rfl
    · cases h
    rcases h.cons with h | ⟨_, _, _, h, _⟩ | h
    · cases h
    · cases h
    exact h.nil.elim
  have hg : ∀ {ch}, Sub (.punct ch sp span) [.group .bracket [.ident ['d', 'o', 'c'] false span',
      .punct '=' .alone span', .literal (litString content) span'] span'] → sp = .alone := by
    intro ch h
    rcases h.cons with h | ⟨d, i, sp, h, hs⟩ | h
    · cases h
    · cases h; exact hin hs
    exact h.nil.elim
  unfold docAttr at h
  cases inner with
  | true =>
    simp only [if_true] at h
    rcases h.cons with h | ⟨_, _, _, h, _⟩ | h
    · cases h; rfl
    · cases h
    rcases h.cons with h | ⟨_, _, _, h, _⟩ | h
    · cases h; rfl
    · cases h
    exact hg h
  | false =>
    simp only [Bool.false_eq_true, if_false] at h
    rcases h.cons with h | ⟨_, _, _, h, _⟩ | h
    · cases h; rfl
    · cases h
    exact hg h

/-! ### C13 -/

/-- **C13.** A parsed identifier (not from a doc comment) stands in the source as `r#` (exactly if it is
raw) and its symbol; the symbol is a start character and continue characters, is as long as possible,
and is not one of the names that cannot be raw if the identifier is raw. -/
theorem C13_maximal {sm : SourceMap} {texts : List (List Char)} (h : History sm texts)
    {src : List Char} (hr : Room texts src) {ts : List TokenTree}
    (hok : (TokenStream.fromStr sm src).2 = .ok ts) {sym : List Char} {raw : Bool} {span : Span}
    (ht : Sub (.ident sym raw span) ts) {a x r : List Char}
    (hat : At (base texts texts.length) src span a x r) (hnd : ¬ IsDoc x) :
    x = (if raw then ['r', '#'] else []) ++ sym ∧
    (∃ c t, sym = c :: t ∧ (c = '_' ∨ xidStart c = true) ∧ ∀ d ∈ t, xidContinue d = true) ∧
    (∀ c r', r = c :: r' → xidContinue c = false) ∧ (raw = true → sym ∉ neverRaw) := by
  obtain ⟨l, h1, h2⟩ := leaf_at h hr hok ht (by simp) hat hnd
  cases l with
  | punct => simp [P.Leaf.tok] at h2
  | literal => simp [P.Leaf.tok] at h2
  | ident sym' raw' =>
    simp [P.Leaf.tok] at h2
    obtain ⟨rfl, rfl, -⟩ := h2
    obtain ⟨-, -, hi⟩ := P.leaf_ident h1
    unfold P.ident at hi
    split at hi
    · simp at hi
    · obtain ⟨e, ⟨c, t, e1, h3, h4⟩, h5, h6, -⟩ := identAny_spec hi
      refine ⟨List.append_cancel_right e, ⟨c, t, e1, ?_, h4⟩, h5, h6⟩
      simpa [isIdentStart] using h3

/-! ### C14 and C15 -/

end

section
variable [UnicodeTables] [LawfulUnicode]

/-- What an accepted string literal of kind `k` looks like. -/
def GoodString (k : StrKind) (repr : List Char) : Prop :=
  ∃ x suf, repr = x ++ suf ∧ StrText k x ∧ Suffix suf ∧ NoBareCr repr ∧ ∀ c ∈ x, CharOk k c

theorem goodString_of {k : StrKind} {repr r : List Char} (h : P.literal (repr ++ r) = some r)
    (hs : StrStart k repr) : GoodString k repr := by
  have hs' : StrStart k (repr ++ r) := by
    rcases hs with h | h | h
    · exact .inl (h.trans (List.prefix_append _ _))
    · exact .inr (.inl (h.trans (List.prefix_append _ _)))
    · exact .inr (.inr (h.trans (List.prefix_append _ _)))
  rcases literal_shape h with ⟨x, suf, e, hq, hsuf⟩ | ⟨d, u, e, hd⟩
  · have e' := List.append_cancel_right e
    subst e'
    cases hq with
    | @str k' x hx =>
      have hk := StrStart.unique hs (StrText.start hx suf)
      subst hk
      have := StrText.chars hx
      exact ⟨x, suf, rfl, hx, hsuf, noBareCr_append this.1 (noBareCr_of_not_mem (Suffix.noCr hsuf)),
        this.2⟩
    | byte he => exact (StrStart.not_byte hs).elim
    | char he => exact absurd rfl (StrStart.not_digit hs).2.1
  · rw [e] at hs'
    exact absurd hd (StrStart.not_digit hs').1

theorem error_not_start {k : StrKind} : ¬ StrStart k errorRepr := by
  intro h
  have : errorRepr = '(' :: errorRepr.tail := rfl
  rw [this] at h
  exact (StrStart.not_digit h).2.2.2 rfl

/-- **C14**, tokens: a literal token of an accepted text (not from a doc comment) that begins like a
string literal is a well-formed string literal of that kind with an optional suffix. It contains no
bare carriage return, a byte string is ASCII and a C string contains no NUL. -/
theorem C14_token {sm : SourceMap} {texts : List (List Char)} (h : History sm texts)
    {src : List Char} (hr : Room texts src) {ts : List TokenTree}
    (hok : (TokenStream.fromStr sm src).2 = .ok ts) {repr : List Char} {span : Span}
    (ht : Sub (.literal repr span) ts) {a x r : List Char}
    (hat : At (base texts texts.length) src span a x r) (hnd : ¬ IsDoc x) :
    x = repr ∧ ∀ k, StrStart k repr → GoodString k repr := by
  obtain ⟨l, h1, h2⟩ := leaf_at h hr hok ht (by simp) hat hnd
  cases l with
  | punct => simp [P.Leaf.tok] at h2
  | ident => simp [P.Leaf.tok] at h2
  | literal repr' =>
    simp [P.Leaf.tok] at h2
    obtain ⟨rfl, -⟩ := h2
    rcases P.leaf_literal h1 with ⟨h3, h4⟩ | ⟨h3, h4⟩
    · have e := List.append_cancel_right h4
      subst e
      exact ⟨rfl, fun k hk => goodString_of h3 hk⟩
    · have e := List.append_cancel_right h4
      subst e
      exact ⟨h3.symm, fun k hk => by rw [h3] at hk; exact absurd hk error_not_start⟩

/-- **C14**, `Literal::from_str`. -/
theorem C14_literal {sm : SourceMap} {texts : List (List Char)} (h : History sm texts)
    {src : List Char} (hr : Room texts src) {repr : List Char} {span : Span}
    (hok : (Literal.fromStr sm src).2 = .ok (repr, span)) {k : StrKind} (hk : StrStart k repr) :
    GoodString k repr := by
  obtain ⟨rfl, -⟩ := C25_verbatim h hr hok
  obtain ⟨-, e, -, -, hb⟩ := h.fromStr hr
  rw [e, literalFromStrAt_eq hb] at hok
  split at hok
  · rename_i hacc
    rcases (litAccepts_iff _).mp hacc with h1 | ⟨d, u, rfl, -⟩
    · exact goodString_of (r := []) (by simpa using h1) hk
    · exact absurd rfl (StrStart.not_digit hk).2.2.1
  · simp at hok

/-- **C14**, converse: every well-formed string, byte or character literal, with any suffix, is accepted
by `Literal::from_str`. -/
theorem C14_accepts {sm : SourceMap} {texts : List (List Char)} (h : History sm texts)
    {x suf : List Char} (hx : QuotedText x) (hsuf : Suffix suf) (hr : Room texts (x ++ suf)) :
    ∃ span, (Literal.fromStr sm (x ++ suf)).2 = .ok (x ++ suf, span) := by
  obtain ⟨-, e, -, -, hb⟩ := h.fromStr hr
  rw [e, literalFromStrAt_eq hb, if_pos]
  · exact ⟨_, rfl⟩
  · rw [litAccepts_iff]
    left
    rw [literal_quoted hx, literalSuffix_nil hsuf]

/-! ### C15 -/

/-- The text begins like a raw string literal of kind `k` with `n` hashes. -/
def RawStart (k : StrKind) (n : Nat) (s : List Char) : Prop :=
  kindPrefix k ++ 'r' :: List.replicate n '#' ++ ['"'] <+: s

theorem replicate_quote_inj {n n' : Nat} {u v : List Char}
    (h : List.replicate n '#' ++ '"' :: u = List.replicate n' '#' ++ '"' :: v) :
    n = n' ∧ u = v := by
  induction n generalizing n' with
  | zero =>
    cases n' with
    | zero => simpa using h
    | succ n' => simp [List.replicate_succ] at h
  | succ n ih =>
    cases n' with
    | zero => simp [List.replicate_succ] at h
    | succ n' =>
      simp [List.replicate_succ] at h
      obtain ⟨rfl, h2⟩ := ih h
      exact ⟨rfl, h2⟩

/-- What an accepted raw string literal of kind `k` with `n` hashes looks like: `body` ends at the
first quote that is followed by `n` hashes. -/
def GoodRaw (k : StrKind) (n : Nat) (repr : List Char) : Prop :=
  n ≤ 255 ∧ ∃ body suf,
    repr = kindPrefix k ++ 'r' :: List.replicate n '#' ++ '"' :: body ++ '"' :: List.replicate n '#'
      ++ suf ∧ Suffix suf ∧
    ∀ a b, body ++ '"' :: List.replicate n '#' ++ suf = a ++ '"' :: b → a.length < body.length →
      ¬ List.replicate n '#' <+: b

theorem RawStart.start {k : StrKind} {n : Nat} {s : List Char} (h : RawStart k n s) :
    StrStart k s := by
  obtain ⟨u, rfl⟩ := h
  cases n with
  | zero => exact .inr (.inl ⟨u, by simp⟩)
  | succ n =>
    exact .inr (.inr ⟨List.replicate n '#' ++ '"' :: u, by simp [List.replicate_succ]⟩)

theorem goodRaw_of {k : StrKind} {n : Nat} {repr : List Char} (h : GoodString k repr)
    (hs : RawStart k n repr) : GoodRaw k n repr := by
  obtain ⟨x, suf, rfl, hx, hsuf, -⟩ := h
  obtain ⟨v, hv⟩ := hs
  cases hx with
  | @cooked b hb =>
    simp only [List.append_assoc] at hv
    have := List.append_cancel_left hv
    simp at this
  | @raw m b hm hb =>
    have hv' := hv
    simp only [List.append_assoc, List.cons_append] at hv'
    have h1 := List.append_cancel_left hv'
    simp only [List.cons.injEq, true_and, List.nil_append] at h1
    obtain ⟨rfl, -⟩ := replicate_quote_inj h1
    refine ⟨hm, b, suf, by simp, hsuf, ?_⟩
    intro a c e hlt hp
    rw [List.append_assoc, List.append_eq_append_iff] at e
    rcases e with ⟨w, rfl, -⟩ | ⟨w, rfl, hw⟩
    · simp at hlt; omega
    · cases w with
      | nil => simp at hlt
      | cons y w =>
        simp only [List.cons_append, List.cons.injEq] at hw
        obtain ⟨rfl, rfl⟩ := hw
        rw [hashes_prefix] at hp
        exact hb.noTerm a w rfl hp

/-- **C15**, tokens: a literal token of an accepted text that begins like a raw string with `n` hashes
has at most 255 of them and ends at the first quote followed by `n` hashes, up to a suffix. -/
theorem C15_token {sm : SourceMap} {texts : List (List Char)} (h : History sm texts)
    {src : List Char} (hr : Room texts src) {ts : List TokenTree}
    (hok : (TokenStream.fromStr sm src).2 = .ok ts) {repr : List Char} {span : Span}
    (ht : Sub (.literal repr span) ts) {a x r : List Char}
    (hat : At (base texts texts.length) src span a x r) (hnd : ¬ IsDoc x) {k : StrKind} {n : Nat}
    (hs : RawStart k n repr) : GoodRaw k n repr :=
  goodRaw_of ((C14_token h hr hok ht hat hnd).2 k hs.start) hs

/-- **C15**, `Literal::from_str`. -/
theorem C15_literal {sm : SourceMap} {texts : List (List Char)} (h : History sm texts)
    {src : List Char} (hr : Room texts src) {repr : List Char} {span : Span}
    (hok : (Literal.fromStr sm src).2 = .ok (repr, span)) {k : StrKind} {n : Nat}
    (hs : RawStart k n repr) : GoodRaw k n repr :=
  goodRaw_of (C14_literal h hr hok hs.start) hs

theorem literal_too_many {k : StrKind} {n : Nat} {s : List Char} (hs : RawStart k n s)
    (hn : 255 < n) : P.literal s = none := by
  cases hl : P.literal s with
  | none => rfl
  | some r =>
    obtain ⟨y, rfl⟩ := (P.literal_suffix hl).1
    exfalso
    have hs' := hs.start
    rcases literal_shape hl with ⟨x, suf, e, hq, hsuf⟩ | ⟨d, u, e, hd⟩
    · have e' := List.append_cancel_right e
      subst e'
      rw [List.append_assoc] at hs'
      cases hq with
      | @str k' x hx =>
        have hk := StrStart.unique hs' (StrText.start hx (suf ++ r))
        subst hk
        obtain ⟨v, hv⟩ := hs
        cases hx with
        | @cooked b hb =>
          simp only [List.append_assoc] at hv
          have := List.append_cancel_left hv
          simp at this
        | @raw m b hm hb =>
          simp only [List.append_assoc, List.cons_append] at hv
          have h1 := List.append_cancel_left hv
          simp only [List.cons.injEq, true_and, List.nil_append] at h1
          obtain ⟨rfl, -⟩ := replicate_quote_inj h1
          omega
      | byte he => exact (StrStart.not_byte hs').elim
      | char he => exact absurd rfl (StrStart.not_digit hs').2.1
    · rw [e] at hs'
      exact absurd hd (StrStart.not_digit hs').1

theorem next_too_many {k : StrKind} {n : Nat} {s : List Char} (hs : RawStart k n s)
    (hn : 255 < n) : P.next s = .bad s := by
  have hl := literal_too_many hs hn
  obtain ⟨v, hv⟩ := hs
  obtain ⟨m, rfl⟩ : ∃ m, n = m + 2 := ⟨n - 2, by omega⟩
  simp only [List.replicate_succ, List.append_assoc, List.cons_append] at hv
  have hhead : ∃ c u, s = c :: u ∧ (c = 'r' ∨ c = 'b' ∨ c = 'c') := by
    rw [← hv]; cases k <;> exact ⟨_, _, rfl, by simp⟩
  have hrej : identRejectPrefixes.any (startsWith s) = true := by
    rw [← hv]; cases k <;> rfl
  obtain ⟨c, u, rfl, hc⟩ := hhead
  have hc' : isWhitespace c = false ∧ c ≠ '/' ∧ P.openD (c :: u) c = none ∧ P.closeD c = none ∧
      c ∉ recognizedPunct ∧ c ≠ '(' := by
    rcases hc with rfl | rfl | rfl <;>
      exact ⟨by decide, by decide, by simp [P.openD], by simp [P.closeD], by decide, by decide⟩
  obtain ⟨h1, h2, h3, h4, h5, h6⟩ := hc'
  obtain ⟨-, g2, g3⟩ := P.no_trivia (r := u) h1 h2
  have hp : P.punct (c :: u) = none := by
    cases hp : P.punct (c :: u) with
    | none => rfl
    | some y =>
      obtain ⟨c', sp, r'⟩ := y
      obtain ⟨e, hm, -⟩ := P.punct_spec hp
      simp at e
      rw [← e.1] at hm
      exact absurd hm h5
  have hi : P.ident (c :: u) = none := by unfold P.ident; rw [if_pos hrej]
  have he : startsWith (c :: u) errorRepr = false := by
    rw [startsWith_false]
    rintro ⟨w, hw⟩
    simp [errorRepr] at hw
    exact h6 hw.1.symm
  unfold P.next P.next1
  rw [g3, g2]
  simp only [h3, h4]
  unfold P.leaf
  rw [hl, hp, hi, he]
  rfl

/-- **C15**, rejection: a raw string with more than 255 hashes is neither a literal nor the beginning of
a token stream. -/
theorem C15_too_many {sm : SourceMap} {texts : List (List Char)} (h : History sm texts)
    {src : List Char} (hr : Room texts src) {k : StrKind} {n : Nat} (hs : RawStart k n src)
    (hn : 255 < n) :
    (∃ e, (Literal.fromStr sm src).2 = .err e) ∧ (∃ e, (TokenStream.fromStr sm src).2 = .err e) := by
  obtain ⟨e1, e2, -, -, hb⟩ := h.fromStr hr
  have hhead : ∃ c u, src = c :: u ∧ (c = 'r' ∨ c = 'b' ∨ c = 'c') := by
    obtain ⟨v, hv⟩ := hs
    rw [← hv]; cases k <;> exact ⟨_, _, rfl, by simp⟩
  refine ⟨?_, ?_⟩
  · rw [e2, literalFromStrAt_eq hb, if_neg]
    · exact ⟨_, rfl⟩
    · rw [litAccepts_iff, literal_too_many hs hn]
      rintro (h | ⟨d, u, rfl, -⟩)
      · simp at h
      · obtain ⟨c, u, e, hc⟩ := hhead
        simp at e
        rw [← e.1] at hc
        simp at hc
  · rw [e1, fromStrAt_eq hb]
    have hbom : P.stripBom src = src := by
      unfold P.stripBom
      obtain ⟨c, u, rfl, hc⟩ := hhead
      rw [if_neg]
      rw [startsWith_iff]
      rintro ⟨w, hw⟩
      simp at hw
      rw [hw.1] at hc
      exact absurd hc (by decide)
    rw [hbom]
    unfold P.run P.step
    rw [next_too_many hs hn]
    exact ⟨_, rfl⟩

/-! ### C12 -/

theorem Level.cons {l : List TokenTree} {x : TokenTree} {ts : List TokenTree}
    (h : Level l (x :: ts)) : l = x :: ts ∨ (∃ d inner span, x = .group d inner span ∧ Level l inner) ∨
      Level l ts := by
  cases h with
  | top => exact .inl rfl
  | @inside _ d inner span hm hl =>
    rcases List.mem_cons.mp hm with rfl | hm
    · exact .inr (.inl ⟨_, _, _, rfl, hl⟩)
    · exact .inr (.inr (.inside hm hl))

/-- In the sibling list `l`, every `'` is `Joint` and is followed by an identifier or literal that starts
where the quote ends and whose text begins with an identifier. -/
def QuotesAttached (l : List TokenTree) : Prop :=
  ∀ pre sp span rest, l = pre ++ .punct '\'' sp span :: rest →
    sp = .joint ∧ ∃ tok rest', rest = tok :: rest' ∧ tok.span.lo = span.hi ∧
      ((∃ sym raw s, tok = .ident sym raw s) ∨ ∃ repr s, tok = .literal repr s) ∧
      ∃ c t, displayTree tok = c :: t ∧ isIdentStart c = true

theorem QuotesAttached.cons {x : TokenTree} {l : List TokenTree} (h : QuotesAttached l)
    (hx : ∀ sp span, x ≠ .punct '\'' sp span) : QuotesAttached (x :: l) := by
  intro pre sp span rest e
  cases pre with
  | nil => simp at e; exact absurd e.1 (hx _ _)
  | cons y pre => simp at e; exact h pre sp span rest e.2

theorem lex_quotes {E : Nat} {s q : List Char} {ts : List TokenTree} (h : P.Lex E s ts q) :
    ∀ {l}, Level l ts → QuotesAttached l := by
  have hnil : QuotesAttached [] := by intro pre sp span rest e; simp at e
  have hlnil : ∀ {l}, Level l [] → QuotesAttached l := by
    intro l hl
    cases hl with
    | top => exact hnil
    | inside hm => simp at hm
  induction h with
  | eof => exact hlnil
  | cls => exact hlnil
  | @doc s content inner s1 r ts q hn hl ih =>
    intro l hlev
    generalize (⟨E - s1.length, E - r.length⟩ : Span) = sp at hlev
    have key : ∀ {l}, Level l (.group .bracket [.ident ['d', 'o', 'c'] false sp,
        .punct '=' .alone sp, .literal (litString content) sp] sp :: ts) → QuotesAttached l := by
      intro l hlev
      rcases Level.cons hlev with rfl | ⟨_, _, _, e, h⟩ | h
      · exact (ih .top).cons (by simp)
      · cases e
        rcases Level.cons h with rfl | ⟨_, _, _, e, h⟩ | h
        · exact ((hnil.cons (by simp)).cons (by simp)).cons (by simp)
        · cases e
        rcases Level.cons h with rfl | ⟨_, _, _, e, h⟩ | h
        · exact (hnil.cons (by simp)).cons (by simp)
        · cases e
        rcases Level.cons h with rfl | ⟨_, _, _, e, h⟩ | h
        · exact hnil.cons (by simp)
        · cases e
        exact hlnil h
      · exact ih h
    have hm := key .top
    rw [P.docTokens_eq] at hlev
    unfold docAttr at hlev
    cases inner with
    | true =>
      simp only [if_true] at hlev
      rcases Level.cons hlev with rfl | ⟨_, _, _, e, h⟩ | h
      · exact (hm.cons (by simp)).cons (by simp)
      · cases e
      rcases Level.cons h with rfl | ⟨_, _, _, e, h⟩ | h
      · exact hm.cons (by simp)
      · cases e
      exact key h
    | false =>
      simp only [Bool.false_eq_true, if_false] at hlev
      rcases Level.cons hlev with rfl | ⟨_, _, _, e, h⟩ | h
      · exact hm.cons (by simp)
      · cases e
      exact key h
  | @leaf s lf s1 r ts q hn hl ih =>
    intro l hlev
    rcases Level.cons hlev with rfl | ⟨_, _, _, e, h⟩ | h
    · by_cases hq : ∃ sp, lf = .punct '\'' sp
      · obtain ⟨sp, rfl⟩ := hq
        obtain ⟨hlf, -⟩ := P.next_leaf hn
        obtain ⟨e1, -, -, h3⟩ := P.punct_spec (P.leaf_punct hlf).2
        obtain ⟨hsp, sym, raw, after, hi, -⟩ := h3 rfl
        have hcr : ∃ c u, r = c :: u ∧ isIdentStart c = true := by
          obtain ⟨c, u, e, hc⟩ := P.identAny_head hi
          refine ⟨c, u, e, ?_⟩
          rcases hc with hc | rfl
          · exact hc
          · simp only [isIdentStart, Bool.or_eq_true]
            right
            rw [LawfulUnicode.start_ascii _ (by decide)]; decide
        obtain ⟨c, u, e2, hc⟩ := hcr
        obtain ⟨f1, f2, f3, f4, f5⟩ := identStart_leaf hc
        obtain ⟨-, g2, g3⟩ := P.no_trivia (r := u) f1 f2
        rw [← e2] at g2 g3
        have hnx := P.next_facts r
        have hfirst : sp = .joint ∧ ∃ tok rest', ts = tok :: rest' ∧ tok.span.lo = E - r.length ∧
            ((∃ sym raw s, tok = .ident sym raw s) ∨ ∃ repr s, tok = .literal repr s) ∧
            ∃ c t, displayTree tok = c :: t ∧ isIdentStart c = true := by
          refine ⟨hsp, ?_⟩
          cases hl with
          | eof hn' => rw [hn', g3, e2] at hnx; simp at hnx
          | cls hn' =>
            rw [hn'] at hnx
            obtain ⟨c', e3, hc'⟩ := P.next_cls hn'
            rw [hnx.1, g3, e2] at e3
            simp at e3
            rw [← e3.1, f3] at hc'; simp at hc'
          | doc hn' =>
            rw [hn'] at hnx
            have := P.next_doc hn'
            rw [hnx.1, g3, g2] at this
            simp at this
          | group hn' =>
            rw [hn'] at hnx
            obtain ⟨-, c', e3, hc'⟩ := P.next_opn hn'
            rw [hnx.1, g3, e2] at e3
            simp at e3
            rw [← e3.1, f4] at hc'; simp at hc'
          | @leaf _ l' s2 r2 ts' _ hn' _ =>
            rw [hn'] at hnx
            have e3 : s2 = r := by rw [hnx.1, g3]
            subst e3
            obtain ⟨hlf', -⟩ := P.next_leaf hn'
            have hlt := (P.leaf_suffix hlf').2
            refine ⟨_, _, rfl, by cases l' <;> rfl, ?_, ?_⟩
            · cases l' with
              | ident sym raw => exact .inl ⟨_, _, _, rfl⟩
              | literal repr => exact .inr ⟨_, _, rfl⟩
              | punct c' sp' =>
                obtain ⟨e4, hm, -⟩ := P.punct_spec (P.leaf_punct hlf').2
                rw [e2] at e4
                simp at e4
                rw [← e4.1] at hm
                exact absurd hm f5
            · obtain ⟨x, e4, hx⟩ := P.leaf_spec hlf' ⟨E - s2.length, E - r2.length⟩
              rw [← C43_leaf hx]
              cases x with
              | nil => rw [e4] at hlt; simp at hlt
              | cons d x => rw [e2] at e4; simp at e4; exact ⟨d, x, rfl, by rw [← e4.1]; exact hc⟩
        intro pre sp' span' rest e
        cases pre with
        | nil =>
          simp [P.Leaf.tok] at e
          obtain ⟨⟨rfl, rfl⟩, rfl⟩ := e
          exact hfirst
        | cons y pre => simp at e; exact ih .top pre sp' span' rest e.2
      · refine (ih .top).cons ?_
        intro sp span e
        cases lf with
        | punct c sp' => simp [P.Leaf.tok] at e; exact hq ⟨sp', by rw [e.1]⟩
        | ident => simp [P.Leaf.tok] at e
        | literal => simp [P.Leaf.tok] at e
    · cases lf <;> simp [P.Leaf.tok] at e
    · exact ih h
  | @group s d s1 r inner c r1 ts q hn h1 hc h2 ih1 ih2 =>
    intro l hlev
    rcases Level.cons hlev with rfl | ⟨_, _, _, e, h⟩ | h
    · exact (ih2 .top).cons (by simp)
    · cases e; exact ih1 h
    · exact ih2 h

/-- **C12.** In an accepted text, at any depth, a `'` punct is always `Joint` and the next token of the
stream starts right at its end and begins with an identifier. -/
theorem C12_lifetime {sm : SourceMap} {texts : List (List Char)} (h : History sm texts)
    {src : List Char} (hr : Room texts src) {ts : List TokenTree}
    (hok : (TokenStream.fromStr sm src).2 = .ok ts) {l : List TokenTree} (hl : Level l ts) :
    QuotesAttached l := by
  obtain ⟨e, -, -, -, hb⟩ := h.fromStr hr
  rw [e, fromStrAt_ok_iff hb] at hok
  exact lex_quotes hok hl

end

/-! ### Concrete cases -/
section Examples
attribute [local instance] sampleTables
attribute [local instance] sampleTables_lawful

/-- puncts, lifetimes, raw identifiers and raw strings -/
def sampleTokens : List Char := "(+= &'a r#fn, br#\"a\"b\"#x)".toList

example : Room [] sampleTokens := by decide

example : (TokenStream.fromStr SourceMap.init sampleTokens).2 = .ok
    [.group .parenthesis
      [.punct '+' .joint ⟨2, 3⟩, .punct '=' .alone ⟨3, 4⟩, .punct '&' .joint ⟨5, 6⟩,
       .punct '\'' .joint ⟨6, 7⟩, .ident ['a'] false ⟨7, 8⟩, .ident ['f', 'n'] true ⟨9, 13⟩,
       .punct ',' .alone ⟨13, 14⟩, .literal "br#\"a\"b\"#x".toList ⟨15, 25⟩] ⟨1, 26⟩] := by decide +kernel

example : At 1 sampleTokens ⟨3, 4⟩ "(+".toList "=".toList " &'a r#fn, br#\"a\"b\"#x)".toList :=
  ⟨rfl, rfl, rfl⟩

example : ¬ IsDoc "=".toList := by
  rintro ((h | ⟨h, -⟩) | (h | ⟨h, -, -⟩)) <;> revert h <;> decide

example : RawStart .byte 1 "br#\"a\"b\"#x".toList := ⟨"a\"b\"#x".toList, rfl⟩

example (n : Nat) (u : List Char) : RawStart .str n ('r' :: List.replicate n '#' ++ '"' :: u) :=
  ⟨u, by simp [kindPrefix]⟩

end Examples
end PM2.Props
