import Verif.Model.Fuzzing
import Verif.Proof.Utf8
import Verif.Props.Moves
import Verif.Props.Total
import Verif.Spec.Decide
/-! # C84: the configuration for fuzzing -/

namespace PM2.Props
open Spec

section
variable [UnicodeTables]

/-- **C84.** With `cfg(fuzzing)` a text gives the result of a thread on which nothing has been parsed. -/
theorem C84_first {src : List Char} (hr : Room [] src) :
    Fuzzing.fromStr src = (TokenStream.fromStr SourceMap.init src).2 ∧
    Fuzzing.literalFromStr src = (Literal.fromStr SourceMap.init src).2 := by
  obtain ⟨e, e', -⟩ := History.init.fromStr hr
  exact ⟨e.symm, e'.symm⟩

/-- **C84**, other threads: after any history a text gives the same tokens, or the error at the same place, moved by
the texts that were parsed before. -/
theorem C84_any {sm : SourceMap} {texts : List (List Char)} (h : History sm texts) {src : List Char}
    (hr : Room texts src) :
    (∀ ts, Fuzzing.fromStr src = .ok ts →
      (TokenStream.fromStr sm src).2 = .ok (shift (texts.map (fun t => t.length + 1)).sum ts)) ∧
    (∀ e, Fuzzing.fromStr src = .err e →
      (TokenStream.fromStr sm src).2 =
        .err ⟨e.lo + (texts.map (fun t => t.length + 1)).sum, e.hi + (texts.map (fun t => t.length + 1)).sum⟩) := by
  have hb : base texts texts.length = 1 + (texts.map (fun t => t.length + 1)).sum := by
    unfold base; rw [List.take_length]
  have hr0 : Room [] src := by
    unfold Room at hr ⊢
    rw [hb] at hr
    have : base [] (List.length ([] : List (List Char))) = 1 := rfl
    omega
  obtain ⟨r0, hall⟩ := C16_shift src
  rw [(C84_first hr0).1, hall .init hr0, hall h hr, hb]
  have h1 : base [] (List.length ([] : List (List Char))) = 1 := rfl
  rw [h1]
  generalize (texts.map (fun t => t.length + 1)).sum = k
  cases r0 with
  | ok ts0 =>
    refine ⟨fun ts e => ?_, fun e he => by simp [shiftRes] at he⟩
    simp only [shiftRes, Res.ok.injEq] at e ⊢
    subst e
    unfold shift
    rw [mapSpan_mapSpan]
    congr 1
    funext s
    simp [Nat.add_assoc]
  | err e0 =>
    refine ⟨fun ts e => by simp [shiftRes] at e, fun e he => ?_⟩
    simp only [shiftRes, Res.err.injEq] at he ⊢
    subst he
    simp [Nat.add_assoc]
  | panic => simp [shiftRes]
  | diverge => simp [shiftRes]

/-- **C84**, panics: every text for which there are positions is parsed to its end, or refused. -/
theorem C84_total {src : List Char} (hr : Room [] src) :
    ((∃ ts, Fuzzing.fromStr src = .ok ts) ∨ ∃ e, Fuzzing.fromStr src = .err e) ∧
    ((∃ l, Fuzzing.literalFromStr src = .ok l) ∨ ∃ e, Fuzzing.literalFromStr src = .err e) := by
  rw [(C84_first hr).1, (C84_first hr).2]
  exact ⟨C01_parse_total .init hr, C02_literal_total .init hr⟩

omit [UnicodeTables] in
/-- **C84**, reach: the fuzz target finds exactly the panics of a parser on texts of up to 199 bytes. -/
theorem C84_reach (parse : List Char → Res Span (List TokenTree)) (bytes : List UInt8) :
    Fuzzing.doFuzz parse bytes = .panic ↔
      ∃ string, bytes = bytesOf string ∧ bytes.length ≤ 199 ∧ parse string = .panic := by
  constructor
  · intro h
    unfold Fuzzing.doFuzz at h
    split at h
    · rename_i hl
      split at h
      · rename_i string r hu
        obtain ⟨hs, hr, -⟩ := fromUtf8_spec _ _ (Nat.le_refl _) hu
        rw [hr rfl, List.append_nil] at hs
        split at h <;> first | exact ⟨string, hs, hl, by assumption⟩ | exact absurd h (by simp)
      · simp at h
    · simp at h
  · rintro ⟨string, rfl, hl, hp⟩
    unfold Fuzzing.doFuzz
    rw [if_pos hl, fromUtf8_bytesOf _ _ (Nat.le_refl _)]
    simp only [hp]

/-- **C84**, the fuzz target: no input makes it panic, or run forever. -/
theorem C84_fuzz (bytes : List UInt8) : Fuzzing.doFuzz Fuzzing.fromStr bytes = .ok () := by
  unfold Fuzzing.doFuzz
  split
  · rename_i hl
    split
    · rename_i string r hu
      have hs := (fromUtf8_spec _ _ (Nat.le_refl _) hu).1
      have hlen : string.length ≤ 199 := by
        have e := bytesOf_length string
        have l := length_le_strLen string
        have : (bytesOf string).length ≤ bytes.length := by rw [hs]; simp
        omega
      have hr : Room [] string := by unfold Room base; simp; omega
      rw [(C84_first hr).1]
      rcases C01_parse_total .init hr with ⟨ts, e⟩ | ⟨e', e⟩ <;> rw [e]
    · rfl
  · rfl

/-- **C84**, spans: a span answers what the one of the call site answers without `cfg(fuzzing)`, but for the line,
which is 0, and nothing can be joined. -/
theorem C84_spans {sm : SourceMap} {texts : List (List Char)} (h : History sm texts) (s t : Span) {ε : Type} :
    Span.callSite.byteRange (ε := ε) sm = .ok (sm, Fuzzing.byteRange s) ∧
    Span.callSite.sourceText (ε := ε) sm = .ok (sm, Fuzzing.sourceText s) ∧
    Span.callSite.file (ε := ε) sm = .ok (Fuzzing.file s) ∧
    Span.callSite.start (ε := ε) sm = .ok { Fuzzing.start s with line := 1 } ∧
    Span.callSite.end_ (ε := ε) sm = .ok { Fuzzing.end_ s with line := 1 } ∧
    (Fuzzing.start s).line = 0 ∧ (Fuzzing.end_ s).line = 0 ∧ Fuzzing.join s t = none := by
  obtain ⟨h1, h2, h3, h4, h5⟩ := C48_call_site (ε := ε) h
  exact ⟨h2, h1, h5, h3, h4, rfl, rfl, rfl⟩

end

/-! ### Examples -/
section
attribute [local instance] sampleTables sampleTables_lawful

example : Fuzzing.fromStr "a (b)".toList = .ok
    [.ident ['a'] false ⟨1, 2⟩, .group .parenthesis [.ident ['b'] false ⟨4, 5⟩] ⟨3, 6⟩] := by decide +kernel

/-- C84: after parsing `xy`, everything is three positions later -/
example : (TokenStream.fromStr (TokenStream.fromStr SourceMap.init "xy".toList).1 "a (b)".toList).2 = .ok
    (shift 3 [.ident ['a'] false ⟨1, 2⟩, .group .parenthesis [.ident ['b'] false ⟨4, 5⟩] ⟨3, 6⟩]) :=
  (C84_any (texts := ["xy".toList]) (.parse _ .init (by decide)) (by decide)).1 _ (by decide +kernel)

/-- C84: a parser that panics for `é`, and the input that shows it -/
example : Fuzzing.doFuzz (fun s => if s = ['é'] then .panic else .ok []) [195, 169] = .panic :=
  (C84_reach _ _).mpr ⟨['é'], by decide +kernel, by decide, rfl⟩

end

end PM2.Props
