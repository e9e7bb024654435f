import Verif.Proof.TimedMap
import Verif.Proof.Cost7
import Verif.Spec.MapCost
import Verif.Spec.Decide
/-! # C104: what the source map costs -/

set_option linter.unusedSectionVars false

namespace PM2.Props
open Spec Timed

section
variable [UnicodeTables] [LawfulUnicode]

/-! ## C104 -/

theorem files_length {sm : SourceMap} {texts : List (List Char)} (h : History sm texts) :
    sm.files.length = texts.length + 1 := by
  have := congrArg List.length h.holds.2
  have hl : ∀ (n : Nat) (ts : List (List Char)), (lay n ts).length = ts.length := by
    intro n ts
    induction ts generalizing n with
    | nil => rfl
    | cons t ts ih => simp [lay, ih]
  simpa [hl] using this

/-- Parsing a text of `n` bytes on a thread, with its registration in the source map, takes at most `217 n + 135` steps,
whatever was parsed before on that thread, and whether or not the text is accepted. Map and result are those of the model
without the count. -/
theorem C104_parse (sm : SourceMap) (src : List Char) :
    (TM.streamFromStr sm src).1 = (TokenStream.fromStr sm src).1 ∧
    (TM.streamFromStr sm src).2.val = (TokenStream.fromStr sm src).2 ∧
    (TM.streamFromStr sm src).2.cost ≤ 217 * strLen src + 135 := by
  refine ⟨(TM.streamFromStr_val sm src).1, (TM.streamFromStr_val sm src).2, ?_⟩
  have hc := TM.getCursor_cost (ε := Span) sm src
  unfold TM.streamFromStr
  generalize (TM.getCursor sm src : Timed Span _) = g at *
  obtain ⟨v, c⟩ := g
  simp only at hc
  cases v with
  | ok r =>
    have := T.fromStrAt_cost (ο := Nat) src r.2.off
    simp only [TM.cost_tick]
    omega
  | err | panic | diverge => simp only; omega

/-- The same for a literal: at most `34 n + 70` steps. -/
theorem C104_literal (sm : SourceMap) (src : List Char) :
    (TM.literalFromStr sm src).1 = (Literal.fromStr sm src).1 ∧
    (TM.literalFromStr sm src).2.val = (Literal.fromStr sm src).2 ∧
    (TM.literalFromStr sm src).2.cost ≤ 34 * strLen src + 70 := by
  refine ⟨(TM.literalFromStr_val sm src).1, (TM.literalFromStr_val sm src).2, ?_⟩
  have hc := TM.getCursor_cost (ε := Span) sm src
  unfold TM.literalFromStr
  generalize (TM.getCursor sm src : Timed Span _) = g at *
  obtain ⟨v, c⟩ := g
  simp only at hc
  cases v with
  | ok r =>
    have := T.literalFromStrAt_cost (ο := Nat) src r.2.off
    simp only [TM.cost_tick]
    omega
  | err | panic | diverge => simp only; omega

omit [UnicodeTables] [LawfulUnicode] in
theorem nlPos_length (t : List Char) (i : Nat) : (nlPos t i).length = t.count '\n' := by
  induction t generalizing i with
  | nil => rfl
  | cons c t ih =>
    simp only [nlPos, List.count_cons]
    split <;> simp_all

variable {ε : Type}

/-- The line and column of either end of a span in a text with `m` line breaks are found in time logarithmic in the number of
texts and in `m`, and so is the file, whose name is then written out; to join two spans takes time logarithmic in the number
of texts. The results are those of the model without the count. -/
theorem C104_line_column {sm : SourceMap} {texts : List (List Char)} (h : History sm texts) {i : Nat} {t : List Char}
    {s : Span} (hs : InText texts i t s) (o : Span) :
    let find := Nat.log2 (texts.length + 1) + 4
    ((TM.spanStart sm s : Timed ε _).val = s.start sm ∧
      (TM.spanStart sm s : Timed ε _).cost ≤ find + Nat.log2 (t.count '\n' + 1) + 4) ∧
    ((TM.spanEnd sm s : Timed ε _).val = s.end_ sm ∧
      (TM.spanEnd sm s : Timed ε _).cost ≤ find + Nat.log2 (t.count '\n' + 1) + 4) ∧
    ((TM.spanFile sm s : Timed ε _).val = s.file sm ∧
      ∀ name, s.file (ε := ε) sm = .ok name → (TM.spanFile sm s : Timed ε _).cost ≤ find + name.length) ∧
    ((TM.spanJoin sm s o : Timed ε _).val = s.join sm o ∧ (TM.spanJoin sm s o : Timed ε _).cost ≤ find) := by
  obtain ⟨hw, hh⟩ := h.holds
  obtain ⟨f, ht, hsp, hwi⟩ := hh.within hs
  have hlen := files_length h
  have hfv : (TM.fileinfo sm s : Timed ε _).val = .ok f := by rw [TM.fileinfo_val]; exact fileinfo_eq hw hwi
  have hfc := TM.fileinfo_cost (ε := ε) sm s
  have hg := hw.files.good hwi.file
  have hll : f.lines.length = t.count '\n' + 1 := by
    rw [hg.lines, linesOffsets_eq, ht]
    simp [nlPos_length]
  rw [hlen] at hfc
  refine ⟨⟨TM.spanStart_val sm s, ?_⟩, ⟨TM.spanEnd_val sm s, ?_⟩, ⟨TM.spanFile_val sm s, ?_⟩, TM.spanJoin_val sm s o, ?_⟩
  · unfold TM.spanStart
    rw [TM.cost_tick, TM.cost_bind_eq hfv]
    have := TM.offsetLineColumn_cost (ε := ε) f s.lo
    rw [hll] at this
    omega
  · unfold TM.spanEnd
    rw [TM.cost_tick, TM.cost_bind_eq hfv]
    have := TM.offsetLineColumn_cost (ε := ε) f s.hi
    rw [hll] at this
    omega
  · intro name hn
    rw [file_eq hw hwi] at hn
    injection hn with hn
    have hf : (TM.find sm s : Timed ε _).val = .ok (i + 1) := by rw [TM.find_val]; exact find_eq hw hwi
    have hc := TM.find_cost (ε := ε) sm s
    rw [hlen] at hc
    unfold TM.spanFile TM.filepath
    rw [TM.cost_tick, TM.cost_bind_eq hf]
    simp only [TM.cost_tick, TM.cost_ok, hn]
    omega
  · unfold TM.spanJoin
    rw [TM.cost_tick, TM.cost_bind_eq hfv]
    split <;> simp only [TM.cost_ok] <;> omega

/-- The questions compute what `Span::byte_range` and `Span::source_text` compute. -/
theorem C104_bytes_same (sm : SourceMap) (s : Span) :
    (TM.spanByteRange sm s : Timed ε _).val = s.byteRange sm ∧
    (TM.spanSourceText sm s : Timed ε _).val = s.sourceText sm :=
  ⟨TM.spanByteRange_val sm s, TM.spanSourceText_val sm s⟩

/-- A sequence of questions about the bytes of spans of one text takes at most twice the way one travels over the text,
beginning at its first character, and a logarithmic number of steps for each question. This is so whatever has been asked
before, about whichever spans. -/
theorem C104_bytes {sm : SourceMap} {texts : List (List Char)} (h : History sm texts) {i : Nat} {t : List Char}
    {qs : List Query} (hq : ∀ q ∈ qs, InText texts i t q.span) :
    (∃ sm', (askAll sm qs).val = .ok sm') ∧
    (askAll sm qs).cost ≤ 2 * travel (base texts i) qs +
      qs.length * (Nat.log2 (texts.length + 1) + 6 * Nat.log2 (t.length + 1) + 14) := by
  cases qs with
  | nil => exact ⟨⟨sm, rfl⟩, Nat.zero_le _⟩
  | cons q qs =>
    obtain ⟨hw, hh⟩ := h.holds
    obtain ⟨f, ht, hsp, hwi⟩ := hh.within (hq q (by simp))
    have hlen := files_length h
    have hb : 1 ≤ base texts i := by unfold base; omega
    have hlo : f.span.lo = base texts i := by rw [hsp]
    have hhi : f.span.hi = base texts i + t.length := by rw [hsp]
    obtain ⟨⟨sm', v, -⟩, c⟩ := TM.askAll_cost hw hwi.file (by omega) (p := base texts i) (.inl (by omega)) (by omega)
      (qs := q :: qs) (fun q' hq' => by
        have := hq q' hq'
        rw [hlo, hhi]
        exact ⟨this.lo, this.le, this.hi⟩)
    rw [hlen, ht] at c
    exact ⟨⟨sm', v⟩, c⟩

omit [UnicodeTables] [LawfulUnicode] in
theorem travel_ascending {qs : List Query} {p e : Nat} (hp : p ≤ e) (ha : Ascending qs)
    (hq : ∀ q ∈ qs, p ≤ q.span.lo ∧ q.span.lo ≤ q.span.hi ∧ q.span.hi ≤ e) : travel p qs ≤ e - p := by
  induction qs generalizing p with
  | nil => exact Nat.zero_le _
  | cons q qs ih =>
    obtain ⟨h1, h2, h3⟩ := hq q (by simp)
    have ha' := List.pairwise_cons.mp ha
    have := ih (p := q.span.hi) h3 ha'.2 (fun q' hq' => ⟨ha'.1 q' hq', (hq q' (by simp [hq'])).2⟩)
    simp only [travel, gap]
    omega

/-- To ask about spans in the order of the text costs in all at most twice the length of the text and a logarithmic number of
steps for each question. -/
theorem C104_ascending {sm : SourceMap} {texts : List (List Char)} (h : History sm texts) {i : Nat} {t : List Char}
    {qs : List Query} (hq : ∀ q ∈ qs, InText texts i t q.span) (ha : Ascending qs) :
    (askAll sm qs).cost ≤ 2 * t.length +
      qs.length * (Nat.log2 (texts.length + 1) + 6 * Nat.log2 (t.length + 1) + 14) := by
  have hc := (C104_bytes h hq).2
  have ht := travel_ascending (p := base texts i) (e := base texts i + t.length) (by omega) ha
    (fun q hq' => ⟨(hq q hq').lo, (hq q hq').le, (hq q hq').hi⟩)
  omega

/-- A question that is asked again costs a logarithmic number of steps, and for `source_text` the copying of the text. -/
theorem C104_again {sm sm' : SourceMap} {texts : List (List Char)} (h : History sm texts) {i : Nat} {t : List Char}
    {q q' : Query} (hs : q'.span = q.span) (hq : InText texts i t q.span) (hv : (q.ask sm).val = .ok sm') :
    (q'.ask sm').cost ≤ q'.copied +
      (Nat.log2 (texts.length + 1) + 6 * Nat.log2 (t.length + 1) + 14) := by
  obtain ⟨hw, hh⟩ := h.holds
  obtain ⟨f, ht, hsp, hwi⟩ := hh.within hq
  have hlen := files_length h
  have hb : 1 ≤ base texts i := by unfold base; omega
  have hlo : f.span.lo = base texts i := by rw [hsp]
  have h1 := hq.lo
  have hcs : q.span.isCallSite = false := by
    have := hq.le
    unfold Span.isCallSite
    simp
    omega
  obtain ⟨sm2, f2, v, w, sa, hf, hs2, ht2, k0, kn, -⟩ := TM.ask_cost hw q hwi hcs (p := 0) (.inl rfl) (.inr rfl)
  rw [hv] at v
  injection v with v
  subst v
  rw [← hs] at k0 kn hwi hcs
  obtain ⟨-, -, -, -, -, -, -, -, -, -, c⟩ := TM.ask_cost w q'
    ⟨hf, by rw [hs2]; exact hwi.lo, hwi.le, by rw [hs2]; exact hwi.hi⟩ hcs k0 (.inl kn)
  rw [TM.same_length sa, hlen, ht2, ht, hs2] at c
  have hg : ∀ n, gap n n = 0 := by intro n; simp [gap]
  rw [hg, hg] at c
  omega

end

/-! ### Concrete cases -/

section
attribute [local instance] sampleTables sampleTables_lawful

/-- The map after `let é = 1;⏎f(é)` has been parsed. -/
def costMap : SourceMap := (TokenStream.fromStr SourceMap.init "let é = 1;\nf(é)".toList).1

theorem costMap_history : History costMap ["let é = 1;\nf(é)".toList] := by
  have h := History.parse "let é = 1;\nf(é)".toList History.init (by decide)
  rwa [if_pos (by decide)] at h

/-- The tokens `é`, `1` and the group, in the order of the text. -/
def costQueries : List Query := [.sourceText ⟨5, 6⟩, .byteRange ⟨9, 10⟩, .sourceText ⟨13, 16⟩]

example : ∀ q ∈ costQueries, InText ["let é = 1;\nf(é)".toList] 0 "let é = 1;\nf(é)".toList q.span := by
  intro q hq
  simp only [costQueries, List.mem_cons, List.not_mem_nil, or_false] at hq
  rcases hq with rfl | rfl | rfl <;> exact ⟨rfl, by decide, by decide, by decide⟩
example : Ascending costQueries := by
  unfold Ascending costQueries
  simp [Query.span]
example : travel 1 costQueries = 15 ∧ (askAll costMap costQueries).cost = 79 ∧
    (askAll costMap (costQueries ++ [.byteRange ⟨5, 6⟩])).cost = 91 := by decide +kernel
example : (TM.streamFromStr SourceMap.init "let é = 1;\nf(é)".toList).2.cost = 110 ∧
    (TM.spanStart costMap ⟨13, 16⟩ : Timed Unit _).cost = 8 ∧
    (TM.spanFile costMap ⟨13, 16⟩ : Timed Unit _).cost = 21 := by decide +kernel
end

end PM2.Props
