import Verif.Proof.ErrorAt
import Verif.Props.Release
import Verif.Spec.Decide
/-! # C100: the span of a lex error -/

set_option linter.unusedSectionVars false

namespace PM2.Props
open Spec

section
variable [UnicodeTables] [LawfulUnicode]

/-- **C100.** `TokenStream::from_str` fails exactly if the text cannot be read to its end with all delimiters closed,
and the error has the empty span where it cannot be read on, or, at the end, that of the innermost open delimiter. -/
theorem C100_error {sm : SourceMap} {texts : List (List Char)} (h : History sm texts)
    {src : List Char} (hr : Room texts src) {e : Span} :
    (TokenStream.fromStr sm src).2 = .err e ↔ e.lo = e.hi ∧ ErrorAt (base texts texts.length) src e.lo := by
  obtain ⟨e1, -, -, -, hb⟩ := h.fromStr hr
  rw [e1, fromStrAt_eq hb]
  exact P.err_iff (Nat.lt_succ_self _)

/-- **C100**, with overflow checks off: the same place, reduced to 32 bits. -/
theorem C100_release {sm : SourceMap} {f : FileInfo} (hf : sm.files.getLast? = some f) {src : List Char} {e : Span} :
    (Release.fromStr sm src).2 = .err e ↔ ∃ q, ErrorAt (f.span.hi + 1) src q ∧ e = wrapSpan ⟨q, q⟩ := by
  unfold Release.fromStr
  rw [Release.getCursor_eq hf]
  simp only
  rw [fromStrAt_wrap]
  have hrun : ∀ e', P.run (f.span.hi + 1 + src.length) ((P.stripBom src).length + 1)
      ⟨P.stripBom src, [], []⟩ = .err e' ↔ _ := fun e' => P.err_iff (Nat.lt_succ_self _)
  constructor
  · intro h
    cases hr : P.run (f.span.hi + 1 + src.length) ((P.stripBom src).length + 1) ⟨P.stripBom src, [], []⟩ with
    | ok ts' => rw [hr] at h; simp [wrapRes] at h
    | err e' =>
      rw [hr] at h
      simp only [wrapRes, Res.err.injEq] at h
      obtain ⟨h1, h2⟩ := (hrun e').mp hr
      obtain ⟨lo, hi⟩ := e'
      cases h1
      exact ⟨lo, h2, h.symm⟩
    | panic => rw [hr] at h; simp [wrapRes] at h
    | diverge => rw [hr] at h; simp [wrapRes] at h
  · rintro ⟨q, h, rfl⟩
    rw [(hrun ⟨q, q⟩).mpr ⟨rfl, h⟩]
    rfl

/-- **C100**, the place is well defined: a text either denotes a stream, or has exactly one place where it stops. -/
theorem C100_one (p : Nat) (src : List Char) :
    (∃ ts, TextLexed p src ts) ∧ (∀ q, ¬ ErrorAt p src q) ∨
    (∀ ts, ¬ TextLexed p src ts) ∧ ∃ q, ErrorAt p src q ∧ ∀ q', ErrorAt p src q' → q' = q := by
  have he : ∀ e, P.run (p + src.length) ((P.stripBom src).length + 1) ⟨P.stripBom src, [], []⟩ = .err e ↔ _ :=
    fun e => P.err_iff (Nat.lt_succ_self _)
  have ho : ∀ ts, P.run (p + src.length) ((P.stripBom src).length + 1) ⟨P.stripBom src, [], []⟩ = .ok ts ↔ _ :=
    fun ts => P.run_ok_iff (Nat.lt_succ_self _)
  simp only [← lex_iff_lexed, ← ho]
  have he' : ∀ q, ErrorAt p src q ↔
      P.run (p + src.length) ((P.stripBom src).length + 1) ⟨P.stripBom src, [], []⟩ = .err ⟨q, q⟩ := by
    intro q
    rw [he]
    simp
  simp only [he']
  rcases P.run_total (p + src.length) ((P.stripBom src).length + 1) ⟨P.stripBom src, [], []⟩
    (Nat.lt_succ_self _) with ⟨ts, e⟩ | ⟨e', e⟩
  · refine .inl ⟨⟨ts, e⟩, fun q h => ?_⟩
    rw [e] at h
    cases h
  · obtain ⟨h1, -⟩ := (he e').mp e
    obtain ⟨lo, hi⟩ := e'
    cases h1
    refine .inr ⟨fun ts h => ?_, lo, e, fun q' h => ?_⟩
    · rw [e] at h; cases h
    · rw [e] at h; cases h; rfl

end

section
attribute [local instance] sampleTables sampleTables_lawful

/-- C100: the delimiter that is not closed -/
example : ErrorAt 1 "a { (b".toList 5 :=
  ((C100_error History.init (src := "a { (b".toList) (by decide +kernel) (e := ⟨5, 5⟩)).mp (by decide +kernel)).2

/-- C100: the delimiter that closes another -/
example : ErrorAt 1 "a { (b}".toList 7 :=
  ((C100_error History.init (src := "a { (b}".toList) (by decide +kernel) (e := ⟨7, 7⟩)).mp (by decide +kernel)).2

/-- C100: a string without an end -/
example : ErrorAt 1 "f(\"x)".toList 3 :=
  ((C100_error History.init (src := "f(\"x)".toList) (by decide +kernel) (e := ⟨3, 3⟩)).mp (by decide +kernel)).2

/-- C100: derived -/
example : ErrorAt 0 "+(]".toList 2 := by
  refine ⟨[], "+(".toList, "]".toList, [(.parenthesis, 1)], rfl, .inr ⟨rfl, by decide⟩, ?_, .inr ⟨rfl, .inr ?_⟩⟩
  · refine .opn (a := ['+']) (o := '(') (b := []) (opens := []) (ts := [.punct '+' .alone ⟨0, 1⟩]) ?_ rfl (by decide)
      (.none (.nil .nil))
    refine .leaf (p := 0) (t := []) (x := ['+']) (s := []) .nil (.punct ?_ (by decide) ?_) rfl (.nil .nil)
    · exact ⟨⟨'+', _, rfl, by decide⟩, by decide, by decide⟩
    · constructor
      · intro h; cases h
      · rintro ⟨⟨c, r, h1, h2⟩, -⟩
        simp at h1
        rw [← h1.1] at h2
        revert h2; decide
  · exact ⟨.bracket, '[', ']', [], rfl, rfl, by decide⟩

end

end PM2.Props
