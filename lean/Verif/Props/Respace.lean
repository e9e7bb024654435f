import Verif.Proof.Respace
import Verif.Props.RoundTrip
import Verif.Props.HeapPrint
import Verif.Spec.Decide
/-! # C115: Printing loses nothing but the spacing of puncts that join with nothing -/

set_option linter.unusedSectionVars false

namespace PM2.Props
open Spec Heap

mutual
private theorem bareTree_erase (f : Span → Span) : ∀ t : TokenTree, bareTree (mapSpanTree f t) = bareTree t
  | .group d inner span => by simp only [mapSpanTree, bareTree, bare_erase f inner]
  | .ident .. => rfl
  | .punct .. => rfl
  | .literal .. => rfl
private theorem bare_erase (f : Span → Span) : ∀ ts : List TokenTree, bare (mapSpan f ts) = bare ts
  | [] => rfl
  | t :: ts => by simp only [mapSpan, bare, bareTree_erase f t, bare_erase f ts]
end

private theorem bareTree_loosen (t : TokenTree) (ts : List TokenTree) : bareTree (loosen t ts) = bareTree t := by
  unfold loosen
  split
  · split <;> rfl
  · rfl

mutual
private theorem bareTree_respace : ∀ t : TokenTree, bareTree (respaceTree t) = bareTree t
  | .group d inner span => by simp only [respaceTree, bareTree, bare_respace inner]
  | .ident .. => rfl
  | .punct .. => rfl
  | .literal .. => rfl
private theorem bare_respace : ∀ ts : List TokenTree, bare (respace ts) = bare ts
  | [] => rfl
  | t :: ts => by simp only [respace, bare, bareTree_loosen, bareTree_respace t, bare_respace ts]
end

section
variable [UnicodeTables] [LawfulUnicode]

/-- **C115.** Printing a stream of valid tokens, whatever follows its joint puncts, and parsing the text
gives back the stream, modulo spans, in which exactly the joint puncts with nothing to join are alone. -/
theorem C115_reads {ts : List TokenTree} (hp : Printable ts) {sm : SourceMap} {texts : List (List Char)}
    (h : History sm texts) (hr : Room texts (display ts)) :
    ∃ ts', (TokenStream.fromStr sm (display ts)).2 = .ok ts' ∧ erase ts' = erase (respace ts) := by
  have hs := spaced_respace hp (fun h => (wf_respace h).lexed) [] [] (.inl rfl)
  obtain ⟨ts', hl, he⟩ := hs.lex (wf_respace hp).lexed (.inl rfl)
    (base texts texts.length + (display ts).length) [] .nil
  exact ⟨ts', fromStr_of_lex h hr (by simpa [display] using hl), he⟩

/-- **C115.** No token is lost, added or changed, except for its spans and spacing. -/
theorem C115_tokens {ts : List TokenTree} (hp : Printable ts) {sm : SourceMap} {texts : List (List Char)}
    (h : History sm texts) (hr : Room texts (display ts)) :
    ∃ ts', (TokenStream.fromStr sm (display ts)).2 = .ok ts' ∧ bare ts' = bare ts := by
  obtain ⟨ts', e, he⟩ := C115_reads hp h hr
  refine ⟨ts', e, ?_⟩
  have := congrArg bare he
  unfold erase at this
  rwa [bare_erase, bare_erase, bare_respace] at this

/-- **C115.** The well-formed streams are those of valid tokens whose spacing needs no mending. -/
theorem C115_wf {ts : List TokenTree} : WF ts ↔ Printable ts ∧ respace ts = ts := by
  constructor
  · intro h
    unfold WF at h
    induction h with
    | nil => exact ⟨.nil, rfl⟩
    | ident h1 h2 _ ih => exact ⟨.ident h1 h2 ih.1, by simp [respace, respaceTree, loosen, ih.2]⟩
    | literal h1 _ ih => exact ⟨.literal h1 ih.1, by simp [respace, respaceTree, loosen, ih.2]⟩
    | group h1 _ _ ih1 ih2 =>
      exact ⟨.group h1 ih1.1 ih2.1, by simp [respace, respaceTree, loosen, ih1.2, ih2.2]⟩
    | @punct c sp span ts h1 h2 h3 _ ih =>
      refine ⟨.punct h1 h2 ?_ ih.1, ?_⟩
      · rintro rfl rfl c' sp' span' ts' rfl
        rcases h3 rfl with ⟨_, _, _, _, e, hn⟩ | ⟨_, _, _, e, -⟩
        · cases e
          exact ⟨fun e => hn ⟨rfl, .inl e⟩, fun e => hn ⟨rfl, .inr e⟩⟩
        · cases e
      · cases sp with
        | alone => simp [respace, respaceTree, loosen, ih.2]
        | joint =>
          have : beginsJoinable ts = true := by
            rcases h3 rfl with ⟨_, _, _, _, rfl, -⟩ | ⟨_, _, _, rfl, hx⟩
            · rfl
            · simpa [beginsJoinable] using hx
          simp [respace, respaceTree, loosen, ih.2, this]
    | quote h1 _ ih => exact ⟨.quote h1 ih.1, by simp [respace, respaceTree, loosen, ih.2]⟩
  · rintro ⟨h, e⟩
    rw [← e]
    exact wf_respace h

/-- **C115.** Of the streams of valid tokens, exactly the well-formed ones come back unchanged. -/
theorem C115_exact {ts : List TokenTree} (hp : Printable ts) {sm : SourceMap} {texts : List (List Char)}
    (h : History sm texts) (hr : Room texts (display ts)) :
    (∃ ts', (TokenStream.fromStr sm (display ts)).2 = .ok ts' ∧ erase ts' = erase ts) ↔ WF ts := by
  obtain ⟨ts1, e1, he1⟩ := C115_reads hp h hr
  constructor
  · rintro ⟨ts', e, he⟩
    rw [e1] at e
    cases e
    exact wfOf_erase (wf_respace hp) (he1.symm.trans he)
  · intro hw
    refine ⟨ts1, e1, ?_⟩
    rw [he1, (C115_wf.mp hw).2]

private theorem vacts_history : ∀ (as : List Act) {sm sm' : SourceMap} {texts : List (List Char)} {v v' : List Val},
    History sm texts → base (texts ++ actTexts as) (texts ++ actTexts as).length ≤ 2 ^ 32 →
      vacts sm v as = .ok (sm', v') → History sm' (texts ++ actTexts as)
  | [], _, _, _, _, _, h, _, e => by
    simp only [vacts, Res.ok.injEq, Prod.mk.injEq] at e
    obtain ⟨rfl, rfl⟩ := e
    simpa [actTexts] using h
  | .op o :: as, sm, sm', texts, v, v', h, hb, e => by
    simp only [vacts, vact] at e
    cases e1 : vstep v o with
    | none => rw [e1] at e; cases e
    | some v1 =>
      rw [e1] at e
      exact vacts_history as h hb e
  | .parse src :: as, sm, sm', texts, v, v', h, hb, e => by
    have hroom : Room texts src := by
      have := hb
      unfold base at this
      unfold Room base
      rw [List.take_length] at this ⊢
      simp only [actTexts, List.map_append, List.map_cons, List.sum_append_nat, List.sum_cons] at this
      omega
    have hl : src.length < 2 ^ 32 := by unfold Room at hroom; omega
    have h' := History.parse src h hl
    rw [if_pos hroom] at h'
    have ih := fun {v v'} => vacts_history as (v := v) (v' := v') (sm' := sm') h' (by simpa [actTexts] using hb)
    simp only [actTexts, List.append_assoc, List.cons_append, List.nil_append] at ih ⊢
    simp only [vacts, vact] at e
    generalize TokenStream.fromStr sm src = x at ih e
    obtain ⟨sm1, x⟩ := x
    cases x with
    | ok ts => exact ih e
    | err e' => exact ih e
    | panic => cases e
    | diverge => cases e

/-- **C115.** The same for the streams that a program builds in the heap, by whatever operations: what `to_string` writes of a
stream of valid tokens, `from_str` on the same thread reads as a stream with the spacing mended. -/
theorem C115_program {as : List Act} (hb : base (actTexts as) (actTexts as).length ≤ 2 ^ 32) {sm : SourceMap} {s : State}
    (h : acts SourceMap.init State.init as = .ok (sm, s)) {i : Nat} {a : Addr} {ts : List TokenTree}
    (ha : s.vars[i]? = some (.stream a)) (hi : VarHolds s i (.stream ts)) (hp : Printable ts)
    {n : Nat} (hn : streamNesting ts ≤ n) :
    ∃ text, (displayH n a).run _ stringWriter [] s.heap = .ok ((text, true), s.heap) ∧
      (Room (actTexts as) text →
        ∃ s' b ts', Heap.parse sm s text = ((TokenStream.fromStr sm text).1, .ok s') ∧
          s'.vars = s.vars ++ [.stream b] ∧ VarHolds s' s.vars.length (.stream ts') ∧
          erase ts' = erase (respace ts)) := by
  have h1 : History sm (actTexts as) := by
    have := acts_same as Rel.init SourceMap.init
    rw [h] at this
    cases e : vacts SourceMap.init [] as <;> rw [e] at this <;> first | exact this.elim | skip
    rename_i p
    obtain ⟨sm', v⟩ := p
    obtain ⟨h1, -⟩ := this
    simp only at h1
    subst h1
    simpa using vacts_history as (texts := []) .init (by simpa using hb) e
  refine ⟨display ts, by simpa using (C109_text ⟨as, h⟩ ha hi hn false false []).1, fun hr => ?_⟩
  obtain ⟨ts', e, he⟩ := C115_reads hp h1 hr
  obtain ⟨s', b, h2, h3, h4, -⟩ := C108_ok (⟨as, h⟩ : Reached sm s) (src := display ts) (ts := ts')
    (sm' := (TokenStream.fromStr sm (display ts)).1) (by rw [← e])
  exact ⟨s', b, ts', h2, h3, h4, he⟩

end

/-! ### A concrete case -/

section Examples
attribute [local instance] sampleTables sampleTables_lawful

/-- `+` before an identifier, `-` before a group that ends with `!`, and `<=`, all of them joint; the last
punct joins with nothing. -/
private def careless : List TokenTree :=
  [.punct '+' .joint ⟨0, 0⟩, .ident ['a'] false ⟨0, 0⟩, .punct '-' .joint ⟨0, 0⟩,
   .group .parenthesis [.ident ['b'] false ⟨0, 0⟩, .punct '!' .joint ⟨0, 0⟩] ⟨0, 0⟩,
   .punct '<' .joint ⟨0, 0⟩, .punct '=' .joint ⟨0, 0⟩]

private theorem careless_ident {c : Char} (h : isIdentStart c = true) : ValidIdent [c] :=
  ⟨c, [], rfl, h, by simp⟩

example : Printable careless :=
  .punct (by decide) (by decide) (fun _ e => absurd e (by decide)) (.ident (careless_ident (by decide +kernel)) (by decide)
    (.punct (by decide) (by decide) (fun _ e => absurd e (by decide)) (.group (by decide)
      (.ident (careless_ident (by decide +kernel)) (by decide)
        (.punct (by decide) (by decide) (fun _ e => absurd e (by decide)) .nil))
      (.punct (by decide) (by decide) (fun _ e => absurd e (by decide)) (.punct (by decide) (by decide) (fun _ e => absurd e (by decide)) .nil)))))

example : respace careless =
    [.punct '+' .alone ⟨0, 0⟩, .ident ['a'] false ⟨0, 0⟩, .punct '-' .alone ⟨0, 0⟩,
     .group .parenthesis [.ident ['b'] false ⟨0, 0⟩, .punct '!' .alone ⟨0, 0⟩] ⟨0, 0⟩,
     .punct '<' .joint ⟨0, 0⟩, .punct '=' .alone ⟨0, 0⟩] := by decide +kernel

example : display careless = ['+', 'a', ' ', '-', '(', 'b', ' ', '!', ')', ' ', '<', '='] ∧
    (TokenStream.fromStr SourceMap.init (display careless)).2 = .ok
      [.punct '+' .alone ⟨1, 2⟩, .ident ['a'] false ⟨2, 3⟩, .punct '-' .alone ⟨4, 5⟩,
       .group .parenthesis [.ident ['b'] false ⟨6, 7⟩, .punct '!' .alone ⟨8, 9⟩] ⟨5, 10⟩,
       .punct '<' .joint ⟨11, 12⟩, .punct '=' .alone ⟨12, 13⟩] := by decide +kernel

/-- The condition on slashes is needed: this stream prints as a comment, and comes back empty. -/
example : (TokenStream.fromStr SourceMap.init
    (display [.punct '/' .joint ⟨0, 0⟩, .punct '/' .alone ⟨0, 0⟩])).2 = .ok [] := by decide +kernel

/-- C115_program: a joint `+` is pushed onto the parsed `a`, and the stream is used as it is. -/
private def carelessEx : List Act :=
  [.parse ['a'], .op (.leaf (.punct '+' .joint Span.callSite)), .op (.makeMut 0), .op (.pushMutPM 0 1), .op (.endMut 0)]

example : acts SourceMap.init State.init carelessEx = .ok
    (⟨[⟨[], ⟨0, 0⟩, [0], []⟩, ⟨['a'], ⟨1, 2⟩, [0], []⟩]⟩,
      ⟨[some ⟨1, [.ident ['a'] false ⟨1, 2⟩, .punct '+' .joint Span.callSite]⟩], [.stream 0, .dead]⟩) := by
  decide +kernel

example : Printable [.ident ['a'] false ⟨1, 2⟩, .punct '+' .joint Span.callSite] ∧
    respace [.ident ['a'] false ⟨1, 2⟩, .punct '+' .joint Span.callSite] =
      [.ident ['a'] false ⟨1, 2⟩, .punct '+' .alone Span.callSite] :=
  ⟨.ident (careless_ident (by decide +kernel)) (by decide)
    (.punct (by decide) (by decide) (fun _ e => absurd e (by decide)) .nil), by decide +kernel⟩

end Examples
end PM2.Props
