import Verif.Proof.Release
import Verif.Proof.Release2
import Verif.Props.Grammar
import Verif.Proof.Shift
import Verif.Spec.Decide
/-! # C89, C90: parsing and span queries with overflow checks off, for every source map and texts of any length -/

namespace PM2.Props
open Spec

section
variable [UnicodeTables] [LawfulUnicode]

/-- **C89.** In a build without overflow checks, parsing any text, however long and whatever has been
parsed before, succeeds or fails: it neither panics nor runs forever. -/
theorem C89_total {sm : SourceMap} (hsm : sm.files ≠ []) (src : List Char) :
    (∃ ts, (Release.fromStr sm src).2 = .ok ts) ∨ (∃ e, (Release.fromStr sm src).2 = .err e) := by
  cases hf : sm.files.getLast? with
  | none => exact absurd (List.getLast?_eq_none_iff.mp hf) hsm
  | some f =>
    unfold Release.fromStr
    rw [Release.getCursor_eq hf]
    simp only
    rw [fromStrAt_wrap]
    rcases P.run_total (f.span.hi + 1 + src.length) ((P.stripBom src).length + 1)
      ⟨P.stripBom src, [], []⟩ (Nat.lt_succ_self _) with ⟨ts, h⟩ | ⟨e, h⟩ <;> rw [h]
    · exact .inl ⟨_, rfl⟩
    · exact .inr ⟨_, rfl⟩

/-- **C89**, grammar: the result is the stream that the lexical grammar derives from the text, standing one
past the end of the last file, with the ends of all spans reduced to 32 bits. -/
theorem C89_grammar {sm : SourceMap} {f : FileInfo} (hf : sm.files.getLast? = some f) {src : List Char}
    {ts : List TokenTree} : (Release.fromStr sm src).2 = .ok ts ↔
      ∃ ts', TextLexed (f.span.hi + 1) src ts' ∧ ts = mapSpan wrapSpan ts' := by
  unfold Release.fromStr
  rw [Release.getCursor_eq hf]
  simp only
  rw [fromStrAt_wrap]
  have hrun : ∀ ts', P.run (f.span.hi + 1 + src.length) ((P.stripBom src).length + 1)
      ⟨P.stripBom src, [], []⟩ = .ok ts' ↔ _ := fun ts' => P.run_ok_iff (Nat.lt_succ_self _)
  simp only [← lex_iff_lexed]
  constructor
  · intro h
    cases hr : P.run (f.span.hi + 1 + src.length) ((P.stripBom src).length + 1) ⟨P.stripBom src, [], []⟩ with
    | ok ts' =>
      rw [hr] at h
      simp only [wrapRes, Res.ok.injEq] at h
      exact ⟨ts', (hrun ts').mp hr, h.symm⟩
    | err e => rw [hr] at h; simp [wrapRes] at h
    | panic => rw [hr] at h; simp [wrapRes] at h
    | diverge => rw [hr] at h; simp [wrapRes] at h
  · rintro ⟨ts', hl, rfl⟩
    rw [(hrun ts').mpr hl]
    rfl

/-- **C89**, errors: a text that a fresh thread rejects is rejected, at the same place of the text with the ends of
its span reduced to 32 bits. -/
theorem C89_error {sm : SourceMap} {f : FileInfo} (hf : sm.files.getLast? = some f) {src : List Char}
    (hr : Room [] src) {e : Span} (he : (TokenStream.fromStr SourceMap.init src).2 = .err e) :
    (Release.fromStr sm src).2 = .err (wrapSpan ⟨e.lo + f.span.hi, e.hi + f.span.hi⟩) := by
  obtain ⟨e1, -, -, -, hb⟩ := History.init.fromStr hr
  have hl : (P.stripBom src).length ≤ 1 + src.length := by
    unfold P.stripBom; split <;> simp <;> omega
  rw [e1, fromStrAt_eq hb] at he
  unfold Release.fromStr
  rw [Release.getCursor_eq hf]
  simp only
  have hs := P.run_shift (E := 1 + src.length) f.span.hi ((P.stripBom src).length + 1)
    ⟨P.stripBom src, [], []⟩ hl
  have he' : P.run (1 + src.length) ((P.stripBom src).length + 1) ⟨P.stripBom src, [], []⟩ = .err e := he
  have hE : f.span.hi + 1 + src.length = 1 + src.length + f.span.hi := by omega
  have hst : P.St.shift f.span.hi ⟨P.stripBom src, [], []⟩ = ⟨P.stripBom src, [], []⟩ := rfl
  rw [he', hst] at hs
  rw [fromStrAt_wrap, hE, hs]
  rfl

/-- **C89**, literals: the same texts are accepted as ever, kept as they are, with a span reduced to 32
bits. -/
theorem C89_literal {sm : SourceMap} {f : FileInfo} (hf : sm.files.getLast? = some f) (src : List Char) :
    (WholeLiteral src → (Release.literalFromStr sm src).2 =
      .ok (src, wrapSpan ⟨f.span.hi + 1, f.span.hi + 1 + src.length⟩)) ∧
    (¬ WholeLiteral src → (Release.literalFromStr sm src).2 = .err Span.callSite) := by
  unfold Release.literalFromStr
  rw [Release.getCursor_eq hf]
  simp only
  rw [literalFromStrAt_wrap, ← litAccepts_lexed]
  constructor
  · intro h; rw [if_pos h]
  · intro h; rw [if_neg h]

/-- **C89**, files: each parse adds its text to the source map, at the span that its tokens refer to. -/
theorem C89_file {sm : SourceMap} {f : FileInfo} (hf : sm.files.getLast? = some f) (src : List Char) :
    ∃ g : FileInfo, g.sourceText = src ∧ g.cache = [] ∧
      g.span = wrapSpan ⟨f.span.hi + 1, f.span.hi + 1 + src.length⟩ ∧
      (Release.fromStr sm src).1 = ⟨sm.files ++ [g]⟩ ∧
      (Release.literalFromStr sm src).1 = ⟨sm.files ++ [g]⟩ := by
  refine ⟨⟨src, wrapSpan ⟨f.span.hi + 1, f.span.hi + 1 + src.length⟩, (linesOffsets src).2, []⟩,
    rfl, rfl, rfl, ?_, ?_⟩
  · unfold Release.fromStr
    rw [Release.getCursor_eq hf]
  · unfold Release.literalFromStr
    rw [Release.getCursor_eq hf]

/-- **C89**, both kinds of builds: while there is room the checks make no difference. -/
theorem C89_same {sm : SourceMap} {texts : List (List Char)} (h : History sm texts)
    {src : List Char} (hr : Room texts src) :
    Release.fromStr sm src = TokenStream.fromStr sm src ∧
    Release.literalFromStr sm src = Literal.fromStr sm src := by
  have hfit : sm.nextPos + src.length < u32Size := by rw [h.holds.2.nextPos]; exact hr
  obtain ⟨sm', h1, h2⟩ := Release.getCursor_fits (ε := Span) h.wf hfit
  unfold Release.fromStr TokenStream.fromStr Release.literalFromStr Literal.fromStr
  rw [h1, h2]
  simp only [fromStrAt_fits hfit, literalFromStrAt_fits hfit, and_self]

end

/-- **C90.** Whatever the source map and the span, a query gives the same answer, fills the caches alike or panics
alike with and without overflow checks. -/
theorem C90_same {ε : Type} (sm : SourceMap) (s : Span) :
    Release.byteRange (ε := ε) sm s = s.byteRange sm ∧
    Release.sourceText (ε := ε) sm s = s.sourceText sm := by
  constructor
  · unfold Release.byteRange Span.byteRange
    split
    · rfl
    · exact withFile_congr fun f h1 h2 => Release.byteRangeOf_eq h1 h2
  · unfold Release.sourceText Span.sourceText
    split
    · rfl
    · exact withFile_congr fun f h1 h2 => by rw [Release.sourceTextOf_eq h1 h2]

/-- **C90**, lines and columns: the same, if no file has 2⁶⁴ lines. -/
theorem C90_lines {ε : Type} {sm : SourceMap} (hl : ∀ f ∈ sm.files, f.lines.length < 2 ^ 64) (s : Span) :
    Release.start (ε := ε) sm s = s.start sm ∧ Release.end_ (ε := ε) sm s = s.end_ sm := by
  unfold Release.start Span.start Release.end_ Span.end_
  cases hf : sm.fileinfo (ε := ε) s with
  | ok f =>
    obtain ⟨hm, h1, h2⟩ := fileinfo_some hf
    exact ⟨Release.offsetLineColumn_eq (hl f hm) h1, Release.offsetLineColumn_eq (hl f hm) h2⟩
  | err e => exact ⟨rfl, rfl⟩
  | panic => exact ⟨rfl, rfl⟩
  | diverge => exact ⟨rfl, rfl⟩

section
variable [UnicodeTables] [LawfulUnicode]

theorem spaces_room {n : Nat} {x : List Char} (h : x.length + n + 1 < 2 ^ 32) :
    Room [] (x ++ List.replicate n ' ') := by
  show 1 + (x ++ List.replicate n ' ').length < 2 ^ 32
  rw [List.length_append, List.length_replicate]
  omega

theorem first_files {a : List Char} (h : Room [] a) {n : Nat} (hn : n = a.length + 1) :
    ∃ ls, (Release.fromStr SourceMap.init a).1.files = [dummyFile, ⟨a, ⟨1, n⟩, ls, []⟩] := by
  have h' : 1 + a.length < 2 ^ 32 := h
  unfold Release.fromStr
  rw [Release.getCursor_eq (sm := SourceMap.init) (f := dummyFile) rfl]
  have e : wrapSpan ⟨dummyFile.span.hi + 1, dummyFile.span.hi + 1 + a.length⟩ = ⟨1, n⟩ := by
    show (⟨1, (0 + 1 + a.length) % 2 ^ 32⟩ : Span) = _
    rw [Nat.mod_eq_of_lt (by omega)]
    congr 1; omega
  rw [e]
  exact ⟨_, rfl⟩

omit [LawfulUnicode] in
theorem start_panics {a : List Char} {ls : List Nat} {sm : SourceMap}
    (hf : sm.files = [dummyFile, ⟨a, ⟨1, 4294967294⟩, ls, []⟩]) :
    Release.start (ε := Unit) (Release.literalFromStr sm "1234".toList).1 ⟨4294967295, 3⟩ = .panic := by
  unfold Release.literalFromStr
  rw [Release.getCursor_eq (f := ⟨a, ⟨1, 4294967294⟩, ls, []⟩) (by rw [hf]; rfl)]
  simp only
  unfold Release.start SourceMap.fileinfo SourceMap.find
  rw [hf]
  with_unfolding_all rfl

omit [LawfulUnicode] in
theorem sourceText_wrong {a : List Char} {ls : List Nat} {sm : SourceMap}
    (hf : sm.files = [dummyFile, ⟨a, ⟨1, 4294967295⟩, ls, []⟩]) : ∃ sm',
    Release.sourceText (ε := Unit) (Release.fromStr sm "long_name".toList).1 ⟨1, 4⟩ =
      .ok (sm', some "ong".toList) := by
  unfold Release.fromStr
  rw [Release.getCursor_eq (f := ⟨a, ⟨1, 4294967295⟩, ls, []⟩) (by rw [hf]; rfl)]
  simp only
  unfold Release.sourceText SourceMap.withFile SourceMap.find
  rw [hf]
  apply Exists.intro
  with_unfolding_all rfl

/-- **C90**, after positions have wrapped around: a query about a token that was just parsed can panic. (The
documentation of `invalidate_current_thread_spans` only says that it can return wrong data.) -/
theorem C90_wrapped_panic : ∃ (a b : List Char) (s : Span), Room [] a ∧
    (Release.literalFromStr (Release.fromStr SourceMap.init a).1 b).2 = .ok (b, s) ∧
    Release.start (ε := Unit) (Release.literalFromStr (Release.fromStr SourceMap.init a).1 b).1 s = .panic := by
  obtain ⟨n, hn⟩ : ∃ n, n = 4294967293 := ⟨_, rfl⟩
  have hr := spaces_room (n := n) (x := []) (by rw [hn]; decide)
  obtain ⟨ls, hf⟩ := first_files hr (n := 4294967294)
    (by rw [List.nil_append, List.length_replicate, hn])
  refine ⟨_, "1234".toList, ⟨4294967295, 3⟩, hr, ?_, start_panics hf⟩
  have hw : WholeLiteral "1234".toList := litAccepts_lexed.mp (by with_unfolding_all rfl)
  rw [(C89_literal (f := ⟨[] ++ List.replicate n ' ', ⟨1, 4294967294⟩, ls, []⟩) (by rw [hf]; rfl) _).1 hw]
  have e : wrapSpan ⟨4294967294 + 1, 4294967294 + 1 + "1234".toList.length⟩ = ⟨4294967295, 3⟩ := by
    decide +kernel
  exact congrArg (fun s => Res.ok ("1234".toList, s)) e

/-- **C90**, after positions have wrapped around: a query can return wrong data, even about a token that was parsed
before. -/
theorem C90_wrapped_wrong : ∃ (a b t t' : List Char) (s : Span), Room [] a ∧
    (∃ sm', Release.sourceText (ε := Unit) (Release.fromStr SourceMap.init a).1 s = .ok (sm', some t)) ∧
    (∃ sm', Release.sourceText (ε := Unit) (Release.fromStr (Release.fromStr SourceMap.init a).1 b).1 s =
      .ok (sm', some t')) ∧ t ≠ t' := by
  obtain ⟨n, hn⟩ : ∃ n, n = 4294967291 := ⟨_, rfl⟩
  have hr := spaces_room (n := n) (x := "pqr".toList) (by rw [hn]; decide)
  obtain ⟨ls, hf⟩ := first_files hr (n := 4294967295)
    (by rw [List.length_append, List.length_replicate, hn]; rfl)
  refine ⟨_, "long_name".toList, "pqr".toList, "ong".toList, ⟨1, 4⟩, hr, ?_, sourceText_wrong hf, by decide⟩
  rw [(C90_same _ _).2]
  obtain ⟨-, -, h, -⟩ := History.init.fromStr hr
  rw [← (C89_same .init hr).1] at h
  obtain ⟨sm', e, -⟩ := sourceText_eq (ε := Unit) h.wf (k := 1) (s := ⟨1, 4⟩)
    ⟨by rw [hf]; rfl, Nat.le_refl 1, by decide, (by decide : 4 ≤ 4294967295)⟩ rfl
  exact ⟨sm', e⟩

end

/-! ### Examples -/

section
attribute [local instance] sampleTables sampleTables_lawful

/-- A thread on which 4294967285 positions have been used up. -/
def nearlyFull : SourceMap := ⟨SourceMap.init.files ++ [⟨[], ⟨1, 4294967285⟩, [0], []⟩]⟩

/-- The positions wrap around in the middle of a token. -/
example : (Release.fromStr nearlyFull "fn(abcdefgh) +".toList).2 = .ok
    [.ident "fn".toList false ⟨4294967286, 4294967288⟩,
      .group .parenthesis [.ident "abcdefgh".toList false ⟨4294967289, 1⟩] ⟨4294967288, 2⟩,
      .punct '+' .alone ⟨3, 4⟩] := by decide +kernel

/-- With overflow checks the same parse panics. -/
example : (TokenStream.fromStr nearlyFull "fn(abcdefgh) +".toList).2 = .panic := by decide +kernel

example : (Release.literalFromStr nearlyFull "\"0123456789\"".toList).2 =
    .ok ("\"0123456789\"".toList, ⟨4294967286, 2⟩) := by decide +kernel

example : (Release.fromStr nearlyFull "fn(abcdefgh] +".toList).2 = .err ⟨1, 1⟩ := by decide +kernel

example : (TokenStream.fromStr SourceMap.init "fn(abcdefgh] +".toList).2 = .err ⟨12, 12⟩ ∧
    (12 + 4294967285) % 2 ^ 32 = 1 := by decide +kernel

/-- The end of the position space: the next text starts at position 0. -/
example : (Release.fromStr ⟨[⟨[], ⟨0, 4294967295⟩, [0], []⟩]⟩ "a".toList).2 =
    .ok [.ident ['a'] false ⟨0, 1⟩] := by decide +kernel

example : Release.fromStr SourceMap.init "a + 1".toList = TokenStream.fromStr SourceMap.init "a + 1".toList :=
  (C89_same .init (by decide)).1

end
end PM2.Props
