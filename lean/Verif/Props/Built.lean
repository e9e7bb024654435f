import Verif.Spec.Built
import Verif.Props.HeapPrint
import Verif.Props.RoundTrip
import Verif.Props.Streams
import Verif.Props.Numbers
import Verif.Props.Values
import Verif.Spec.Decide
/-!
# C114: Programs whose streams can be printed and parsed again
-/

set_option linter.unusedSectionVars false

namespace PM2.Props
open Spec Heap

section
variable [UnicodeTables] [LawfulUnicode]

private theorem joinsWith_app {c : Char} {ts us : List TokenTree} (h : JoinsWith c ts) : JoinsWith c (ts ++ us) := by
  rcases h with ⟨c', sp, span, ts', rfl, h⟩ | ⟨x, span, ts', rfl, h⟩
  · exact .inl ⟨c', sp, span, ts' ++ us, rfl, h⟩
  · exact .inr ⟨x, span, ts' ++ us, rfl, h⟩

private theorem quoteJoins_app {ts us : List TokenTree} (h : QuoteJoins ts) : QuoteJoins (ts ++ us) := by
  rcases h with ⟨sym, raw, span, ts', rfl⟩ | ⟨x, span, ts', p, rfl, h⟩
  · exact .inl ⟨sym, raw, span, ts' ++ us, rfl⟩
  · exact .inr ⟨x, span, ts' ++ us, p, rfl, h⟩

/-- Well-formed, but the last token may be a joint punct. -/
inductive Open : List TokenTree → Prop
  | nil : Open []
  | ident {sym raw span ts} : ValidIdent sym → (raw = true → sym ∉ neverRaw) → Open ts → Open (.ident sym raw span :: ts)
  | literal {x span ts} : LitOk x → Open ts → Open (.literal x span :: ts)
  | group {d inner span ts} : d ≠ .none → WF inner → Open ts → Open (.group d inner span :: ts)
  | punct {c sp span ts} : c ∈ punctChars → c ≠ '\'' → (sp = .joint → ts = [] ∨ JoinsWith c ts) → Open ts →
      Open (.punct c sp span :: ts)
  | quote {span ts} : (ts = [] ∨ QuoteJoins ts) → Open ts → Open (.punct '\'' .joint span :: ts)

private theorem open_of_wf {ts : List TokenTree} (h : WF ts) : Open ts := by
  unfold WF at h
  induction h with
  | nil => exact .nil
  | ident h1 h2 _ ih => exact .ident h1 h2 ih
  | literal h1 _ ih => exact .literal h1 ih
  | group h1 h2 _ _ ih => exact .group h1 h2 ih
  | punct h1 h2 h3 _ ih => exact .punct h1 h2 (fun e => .inr (h3 e)) ih
  | quote h1 _ ih => exact .quote (.inr h1) ih

private theorem wf_of_open {ts : List TokenTree} (h : Open ts) (hj : ¬ EndsJoint ts) : WF ts := by
  have tail : ∀ {t : TokenTree} {ts : List TokenTree}, ¬ EndsJoint (t :: ts) → ¬ EndsJoint ts := by
    rintro t ts h ⟨ts', c, span, rfl⟩
    exact h ⟨t :: ts', c, span, rfl⟩
  induction h with
  | nil => exact .nil
  | ident h1 h2 _ ih => exact .ident h1 h2 (ih (tail hj))
  | literal h1 _ ih => exact .literal h1 (ih (tail hj))
  | group h1 h2 _ ih => exact .group h1 h2 (ih (tail hj))
  | punct h1 h2 h3 _ ih =>
    refine .punct h1 h2 (fun e => ?_) (ih (tail hj))
    rcases h3 e with rfl | h3
    · subst e
      exact absurd ⟨[], _, _, rfl⟩ hj
    · exact h3
  | quote h1 _ ih =>
    refine .quote ?_ (ih (tail hj))
    rcases h1 with rfl | h1
    · exact absurd ⟨[], _, _, rfl⟩ hj
    · exact h1

private theorem open_append {ts us : List TokenTree} (h : Open ts) (h' : Open us) (hf : MayFollow ts us) :
    Open (ts ++ us) := by
  have tail : ∀ {t : TokenTree} {ts : List TokenTree}, MayFollow (t :: ts) us → MayFollow ts us := by
    rintro t ts h hne ts' c span rfl
    exact h hne (t :: ts') c span rfl
  induction h with
  | nil => exact h'
  | ident h1 h2 _ ih => exact .ident h1 h2 (ih (tail hf))
  | literal h1 _ ih => exact .literal h1 (ih (tail hf))
  | group h1 h2 _ ih => exact .group h1 h2 (ih (tail hf))
  | punct h1 h2 h3 _ ih =>
    refine .punct h1 h2 (fun e => ?_) (ih (tail hf))
    rcases h3 e with rfl | h3
    · by_cases hu : us = []
      · exact .inl (by simpa using hu)
      · subst e
        exact .inr ((hf hu [] _ _ rfl).1 h2)
    · exact .inr (joinsWith_app h3)
  | quote h1 _ ih =>
    refine .quote ?_ (ih (tail hf))
    rcases h1 with rfl | h1
    · by_cases hu : us = []
      · exact .inl (by simpa using hu)
      · exact .inr ((hf hu [] _ _ rfl).2 rfl)
    · exact .inr (quoteJoins_app h1)

private theorem not_endsJoint {ts : List TokenTree} (h : WF ts) : ¬ EndsJoint ts := by
  rintro ⟨ts', c, span, e⟩
  unfold WF at h
  induction h generalizing ts' with
  | nil => simp at e
  | ident _ _ _ ih | literal _ _ ih | group _ _ _ _ ih =>
    cases ts' with
    | nil => cases e
    | cons t ts' => cases e; exact ih ts' rfl
  | punct _ _ h3 _ ih =>
    cases ts' with
    | nil =>
      cases e
      rcases h3 rfl with ⟨_, _, _, _, h, _⟩ | ⟨_, _, _, h, _⟩ <;> cases h
    | cons t ts' => cases e; exact ih ts' rfl
  | quote h1 _ ih =>
    cases ts' with
    | nil =>
      cases e
      rcases h1 with ⟨_, _, _, _, h⟩ | ⟨_, _, _, _, h, _⟩ <;> cases h
    | cons t ts' => cases e; exact ih ts' rfl

/-- **C114.** One after the other, streams that survive printing and parsing give a stream that survives them. -/
theorem C114_append {ts us : List TokenTree} (h : WF ts) (h' : WF us) : WF (ts ++ us) := by
  by_cases hu : us = []
  · subst hu
    simpa using h
  · refine wf_of_open (open_append (open_of_wf h) (open_of_wf h') ?_) ?_
    · rintro - ts' c span rfl
      exact absurd ⟨ts', c, span, rfl⟩ (not_endsJoint h)
    · rintro ⟨ts', c, span, e⟩
      refine not_endsJoint h' ?_
      rw [List.append_eq_append_iff] at e
      rcases e with ⟨l, -, e⟩ | ⟨l, -, e⟩
      · exact ⟨l, c, span, e⟩
      · cases l with
        | nil => exact ⟨[], c, span, by simpa using e.symm⟩
        | cons t l =>
          simp only [List.cons_append, List.cons.injEq, List.nil_eq, List.append_eq_nil_iff] at e
          exact absurd e.2.2 hu

private theorem wf_suffix {l r : List TokenTree} (h : WF (l ++ r)) : WF r := by
  induction l with
  | nil => exact h
  | cons t l ih => exact ih (by cases h <;> assumption)

/-- **C114.** The condition is needed: if something else is put after a joint punct, the stream does not survive, whatever is
put after that. -/
theorem C114_needed {ts us ws : List TokenTree} (h : WF (ts ++ us ++ ws)) : MayFollow ts us := by
  rintro hu ts' c span rfl
  obtain ⟨t, us, rfl⟩ := List.exists_cons_of_ne_nil hu
  have := wf_suffix (l := ts') (r := .punct c .joint span :: (t :: us ++ ws)) (by simpa using h)
  clear h
  cases this with
  | punct _ hc hj _ =>
    refine ⟨fun _ => ?_, fun e => absurd e hc⟩
    rcases hj rfl with ⟨c', sp, span', ts', e, h⟩ | ⟨x, span', ts', e, h⟩
    · cases e
      exact .inl ⟨c', sp, span', us, rfl, h⟩
    · cases e
      exact .inr ⟨x, span', us, rfl, h⟩
  | quote hq _ =>
    refine ⟨fun e => absurd rfl e, fun _ => ?_⟩
    rcases hq with ⟨sym, raw, span', ts', e⟩ | ⟨x, span', ts', p, e, h⟩
    · cases e
      exact .inl ⟨sym, raw, span', us, rfl⟩
    · cases e
      exact .inr ⟨x, span', us, p, rfl, h⟩

private theorem litOk_noMinus {x : List Char} (h : LitOk x) : x.head? ≠ some '-' := litLex_head (litOk_iff.mp h)

private theorem open_tree {t : TokenTree} (h : BuiltTree t) : Open (splitNeg t) := by
  cases t with
  | ident sym raw span => exact .ident h.1 h.2 .nil
  | group d ts span => exact .group h.1 h.2 .nil
  | punct c sp span =>
    show Open [_]
    by_cases hc : c = '\''
    · subst hc
      cases sp with
      | joint => exact .quote (.inl rfl) .nil
      | alone => exact absurd rfl (h.2 rfl)
    · exact .punct h.1 hc (fun _ => .inl rfl) .nil
  | literal x span =>
    have key : LitOk x → Open (splitNeg (.literal x span)) := by
      intro h
      have : splitNeg (.literal x span) = [.literal x span] := by
        unfold splitNeg
        split
        · rename_i e
          cases e
          exact absurd rfl (litOk_noMinus h)
        · rfl
      rw [this]
      exact .literal h .nil
    rcases h with (h | ⟨y, rfl, h⟩) | h
    · exact key (.inr h)
    · exact .punct (by decide) (by decide) (by simp) (.literal (.inr (.inr h)) .nil)
    · exact key (.inl h)

private theorem open_single {t : TokenTree} (h : BuiltTree t) (hn : NotNegative t) : Open [t] := by
  have := open_tree h
  have e : splitNeg t = [t] := by
    unfold splitNeg
    split
    · exact hn.elim
    · rfl
  rwa [e] at this

private theorem open_cons {t : TokenTree} {ts : List TokenTree} (h : Open (t :: ts)) : BuiltTree t ∧ Open ts := by
  cases h with
  | ident h1 h2 h3 => exact ⟨⟨h1, h2⟩, h3⟩
  | literal h1 h2 =>
    refine ⟨?_, h2⟩
    rcases h1 with h1 | h1
    · exact .inr h1
    · exact .inl (.inl h1)
  | group h1 h2 h3 => exact ⟨⟨h1, h2⟩, h3⟩
  | punct h1 h2 _ h3 => exact ⟨⟨h1, fun _ => h2⟩, h3⟩
  | quote _ h2 => exact ⟨⟨by decide, by simp⟩, h2⟩

/-- What the variables hold. -/
def BuiltVal : Val → Prop
  | .dead => True
  | .stream ts | .borrowed ts | .owned ts => Open ts
  | .tree t => BuiltTree t

private theorem vstep_built {v v' : List Val} {op : Op} (h : vstep v op = some v') (ho : BuiltOp v op)
    (hv : ∀ w ∈ v, BuiltVal w) : ∀ w ∈ v', BuiltVal w := by
  have get : ∀ {i : Nat} {w : Val}, v[i]? = some w → BuiltVal w := fun h => hv _ (List.mem_of_getElem? h)
  have key1 : ∀ u, BuiltVal u → ∀ w ∈ v ++ [u], BuiltVal w := fun u hu w hw => by
    rcases List.mem_append.mp hw with hw | hw
    · exact hv w hw
    · simp at hw; subst hw; exact hu
  have keyS : ∀ (l : List Val), (∀ w ∈ l, BuiltVal w) → ∀ j u, BuiltVal u → ∀ w ∈ l.set j u, BuiltVal w :=
    fun l hl j u hu w hw => by
      rcases List.mem_or_eq_of_mem_set hw with hw | rfl
      · exact hl w hw
      · exact hu
  have key3 : ∀ j u u', BuiltVal u → BuiltVal u' → ∀ w ∈ v.set j u ++ [u'], BuiltVal w := fun j u u' h1 h2 w hw => by
    rcases List.mem_append.mp hw with hw | hw
    · exact keyS v hv j u h1 w hw
    · simp at hw; subst hw; exact h2
  cases op with
  | builder => simp only [vstep, Option.some.injEq] at h; subst h; exact key1 _ Open.nil
  | cloneStream j | cloneTree j | cloneOwned j =>
    simp only [vstep] at h
    split at h <;> simp only [Option.some.injEq, reduceCtorEq] at h
    rename_i e
    subst h
    exact key1 _ (get e)
  | groupStream j =>
    simp only [vstep] at h
    split at h <;> simp only [Option.some.injEq, reduceCtorEq] at h
    rename_i e
    subst h
    exact key1 _ (by have := get e; exact open_of_wf this.2)
  | leaf t =>
    simp only [vstep] at h
    split at h <;> simp only [Option.some.injEq, reduceCtorEq] at h
    rename_i e
    subst h
    exact key1 _ (ho _ e)
  | dropStream j | dropTree j | dropOwned j =>
    simp only [vstep] at h
    split at h <;> simp only [Option.some.injEq, reduceCtorEq] at h
    subst h
    exact keyS v hv _ _ trivial
  | makeMut j | endMut j =>
    simp only [vstep] at h
    split at h <;> simp only [Option.some.injEq, reduceCtorEq] at h
    rename_i e
    subst h
    exact keyS v hv _ _ (by have := get e; exact this)
  | setSpan j sp =>
    simp only [vstep] at h
    split at h <;> simp only [Option.some.injEq, reduceCtorEq] at h
    rename_i t e
    subst h
    refine keyS v hv _ _ ?_
    have := get e
    cases t <;> exact this
  | build j | intoOwned j =>
    simp only [vstep] at h
    split at h <;> simp only [Option.some.injEq, reduceCtorEq] at h
    rename_i e
    subst h
    exact key3 _ _ _ trivial (by have := get e; exact this)
  | groupNew d j =>
    simp only [vstep] at h
    split at h <;> simp only [Option.some.injEq, reduceCtorEq] at h
    rename_i e
    subst h
    exact key3 _ _ _ trivial ⟨ho.1, wf_of_open (get e) (ho.2 _ e)⟩
  | next j =>
    simp only [vstep] at h
    split at h <;> simp only [Option.some.injEq, reduceCtorEq] at h
    · rename_i e
      subst h
      have := open_cons (get e)
      exact key3 _ _ _ this.2 this.1
    · subst h; exact hv
  | pushOwned j k | pushMut j k =>
    simp only [vstep] at h
    split at h <;> simp only [Option.some.injEq, reduceCtorEq] at h
    rename_i e1 e2
    subst h
    exact keyS _ (keyS v hv _ .dead trivial) _ _ (open_append (get e1) (open_single (get e2) (ho _ _ e1 e2).1) (ho _ _ e1 e2).2)
  | pushOwnedPM j k | pushMutPM j k =>
    simp only [vstep] at h
    split at h <;> simp only [Option.some.injEq, reduceCtorEq] at h
    rename_i e1 e2
    subst h
    exact keyS _ (keyS v hv _ .dead trivial) _ _ (open_append (get e1) (open_tree (get e2)) (ho _ _ e1 e2))
  | extendMut j k =>
    simp only [vstep] at h
    split at h <;> simp only [Option.some.injEq, reduceCtorEq] at h
    rename_i e1 e2
    subst h
    exact keyS _ (keyS v hv _ .dead trivial) _ _ (open_append (get e1) (get e2) (ho _ _ e1 e2))
  | extendOwned j k =>
    simp only [vstep] at h
    split at h
    · split at h <;> simp only [Option.some.injEq, reduceCtorEq] at h
      rename_i e1 e2 _
      subst h
      exact keyS _ (keyS v hv _ .dead trivial) _ _ (open_append (get e1) (get e2) (ho _ _ e1 e2))
    · simp at h

private theorem vacts_built : ∀ (as : List Act) {sm sm' : SourceMap} {texts : List (List Char)} {v v' : List Val},
    History sm texts → base (texts ++ actTexts as) (texts ++ actTexts as).length ≤ 2 ^ 32 → BuiltActs sm v as →
      vacts sm v as = .ok (sm', v') → (∀ w ∈ v, BuiltVal w) → History sm' (texts ++ actTexts as) ∧ ∀ w ∈ v', BuiltVal w
  | [], _, _, _, _, _, h, _, _, e, hv => by
    simp only [vacts, Res.ok.injEq, Prod.mk.injEq] at e
    obtain ⟨rfl, rfl⟩ := e
    exact ⟨by simpa [actTexts] using h, hv⟩
  | .op o :: as, sm, sm', texts, v, v', h, hb, ho, e, hv => by
    simp only [vacts, vact] at e
    cases e1 : vstep v o with
    | none => rw [e1] at e; cases e
    | some v1 =>
      rw [e1] at e
      exact vacts_built as h hb (ho.2 sm v1 (by simp only [vact, e1])) e (vstep_built e1 (ho.1 o rfl) hv)
  | .parse src :: as, sm, sm', texts, v, v', h, hb, ho, e, hv => by
    have hroom : Room texts src := by
      have := hb
      unfold base at this
      unfold Room base
      rw [List.take_length] at this ⊢
      simp only [actTexts, List.map_append, List.map_cons, List.sum_append_nat, List.sum_cons] at this
      omega
    have hl : src.length < 2 ^ 32 := by unfold Room at hroom; omega
    have h' := History.parse src h hl
    rw [if_pos hroom] at h'
    have ih := fun {v v'} => vacts_built as (v := v) (v' := v') (sm' := sm') h' (by simpa [actTexts] using hb)
    simp only [actTexts, List.append_assoc, List.cons_append, List.nil_append] at ih ⊢
    have hp := fun ts => (show (TokenStream.fromStr sm src).2 = .ok ts → WF ts from fun hok => by
      obtain ⟨e, -, -, -, hb⟩ := h.fromStr hroom
      rw [e, fromStrAt_ok_iff hb] at hok
      exact wf_iff.mpr hok.wf)
    have ho' := ho.2
    simp only [vacts, vact] at e ho'
    generalize TokenStream.fromStr sm src = x at ih e ho' hp
    obtain ⟨sm1, x⟩ := x
    cases x with
    | ok ts =>
      refine ih (ho' _ _ rfl) e ?_
      intro w hw
      rcases List.mem_append.mp hw with hw | hw
      · exact hv w hw
      · simp at hw; subst hw; exact open_of_wf (hp ts rfl)
    | err e' => exact ih (ho' _ _ rfl) e hv
    | panic => cases e
    | diverge => cases e

private theorem acts_built {as : List Act} (hb : base (actTexts as) (actTexts as).length ≤ 2 ^ 32)
    (ho : BuiltActs SourceMap.init [] as) {sm : SourceMap} {s : State}
    (h : acts SourceMap.init State.init as = .ok (sm, s)) :
    History sm (actTexts as) ∧ ∀ i w, VarHolds s i w → BuiltVal w := by
  have := acts_same as Rel.init SourceMap.init
  rw [h] at this
  cases e : vacts SourceMap.init [] as <;> rw [e] at this <;> first | exact this.elim | skip
  rename_i p
  obtain ⟨sm', v⟩ := p
  obtain ⟨h1, h2⟩ := this
  simp only at h1 h2
  subst h1
  obtain ⟨h3, h4⟩ := vacts_built as (texts := []) .init (by simpa using hb) ho e (by simp)
  exact ⟨by simpa using h3, fun i w hi => h4 _ (List.mem_of_getElem? (h2.of_holds hi))⟩

/-- **C114.** In a program that puts no group without delimiters into a stream, and after a joint punct only what it can be
joint to, whatever else it does on the heap, every stream, at any time, is one that survives printing and parsing, unless it
ends with a joint punct. -/
theorem C114_wf {as : List Act} (hb : base (actTexts as) (actTexts as).length ≤ 2 ^ 32)
    (ho : BuiltActs SourceMap.init [] as) {sm : SourceMap} {s : State}
    (h : acts SourceMap.init State.init as = .ok (sm, s)) {i : Nat} {ts : List TokenTree}
    (hi : VarHolds s i (.stream ts) ∨ VarHolds s i (.owned ts) ∨ VarHolds s i (.borrowed ts)) :
    WF ts ↔ ¬ EndsJoint ts := by
  refine ⟨not_endsJoint, wf_of_open ?_⟩
  have := (acts_built hb ho h).2
  rcases hi with hi | hi | hi <;> exact this i _ hi

/-- **C114.** `to_string` of such a stream, from the heap, gives a text, and `from_str` of it, on the same thread, gives the
tokens of the stream. -/
theorem C114_reparse {as : List Act} (hb : base (actTexts as) (actTexts as).length ≤ 2 ^ 32)
    (ho : BuiltActs SourceMap.init [] as) {sm : SourceMap} {s : State}
    (h : acts SourceMap.init State.init as = .ok (sm, s)) {i : Nat} {a : Addr} {ts : List TokenTree}
    (ha : s.vars[i]? = some (.stream a)) (hi : VarHolds s i (.stream ts))
    (hj : ¬ EndsJoint ts) {n : Nat} (hn : streamNesting ts ≤ n) :
    ∃ text, (displayH n a).run _ stringWriter [] s.heap = .ok ((text, true), s.heap) ∧
      (Room (actTexts as) text →
        ∃ s' b ts', Heap.parse sm s text = ((TokenStream.fromStr sm text).1, .ok s') ∧
          s'.vars = s.vars ++ [.stream b] ∧ VarHolds s' s.vars.length (.stream ts') ∧ erase ts' = erase ts) := by
  have hw := (C114_wf hb ho h (.inl hi)).mpr hj
  obtain ⟨h1, -⟩ := acts_built hb ho h
  refine ⟨display ts, by simpa using (C109_text ⟨as, h⟩ ha hi hn false false []).1, fun hr => ?_⟩
  obtain ⟨ts', e, he⟩ := C03_lossless hw h1 hr
  obtain ⟨s', b, h2, h3, h4, -⟩ := C108_ok (⟨as, h⟩ : Reached sm s) (src := display ts) (ts := ts')
    (sm' := (TokenStream.fromStr sm (display ts)).1) (by rw [← e])
  exact ⟨s', b, ts', h2, h3, h4, he⟩

/-- **C114.** The identifiers of the API meet the condition; … -/
theorem C114_ident {a : IdentData} (h : ApiIdent a) (span : Span) : BuiltTree (.ident a.sym a.raw span) := h.valid

/-- … so do literals that are parsed. -/
theorem C114_literal {sm : SourceMap} {texts : List (List Char)} (h : History sm texts) {src : List Char}
    (hr : Room texts src) {r : List Char} {sp : Span} (hok : (Literal.fromStr sm src).2 = .ok (r, sp)) (span : Span) :
    r = src ∧ BuiltTree (.literal r span) := by
  obtain ⟨-, e, -, -, hb⟩ := h.fromStr hr
  rw [e, literalFromStrAt_eq hb] at hok
  split at hok <;> rename_i hacc <;> cases hok
  exact ⟨rfl, .inl (litAccepts_lexed.mp hacc)⟩

private theorem numText_whole {x : List Char} (h : NumText x) : WholeLiteral x ∧ WholeLiteral ('-' :: x) := by
  obtain ⟨d, u, rfl, hd⟩ := h.head
  exact ⟨litAccepts_lexed.mp ((litAccepts_iff _).mpr (.inl h.lit)),
    litAccepts_lexed.mp ((litAccepts_iff _).mpr (.inr ⟨d, u, rfl, hd, h.lit⟩))⟩

/-- So do the integers, … -/
theorem C114_int (k : IntKind) (n : Int) : BuiltTree (Literal.intSuffixed k n) ∧ BuiltTree (Literal.intUnsuffixed n) := by
  have key : ∀ suf, NumSuffix suf → WholeLiteral (intDec n ++ suf) := by
    intro suf hs
    have := numText_whole (numText_int (natDec_decimal n.natAbs) hs)
    rw [intDec_eq]
    split
    · exact this.2
    · exact this.1
  exact ⟨.inl (key _ (kind_suffix k)), .inl (by simpa [litIntUnsuffixed] using key [] (.inl rfl))⟩

/-- … the floating-point numbers, … -/
theorem C114_float {ε : Type} (k : FloatKind) {shown : List Char}
    (hs : FloatText shown ∨ ∃ s, shown = '-' :: s ∧ FloatText s) {t : TokenTree}
    (h : Literal.floatSuffixed (ε := ε) k true shown = .ok t ∨
      Literal.floatUnsuffixed (ε := ε) true shown = .ok t) : BuiltTree t := by
  have suffixed : ∀ s, FloatText s → NumText (s ++ k.name) := by
    rintro s ⟨ds, fs, rfl, h1, h2, h3⟩
    rcases h3 with rfl | ⟨gs, rfl, h4, h5⟩
    · rw [List.append_nil]
      refine ⟨literal_int h1 h2 (fkind_suffix k), ?_⟩
      obtain ⟨d, u, e⟩ := List.exists_cons_of_ne_nil h1
      exact ⟨d, u ++ k.name, by rw [e]; rfl, h2 d (by rw [e]; simp)⟩
    · rw [List.append_assoc, List.cons_append]
      exact numText_float h1 h2 h4 h5 (fkind_suffix k)
  have unsuffixed : ∀ s, FloatText s → ∃ x, NumText x ∧ litFloatUnsuffixed s = x ∧ litFloatUnsuffixed ('-' :: s) = '-' :: x := by
    rintro s ⟨ds, fs, rfl, h1, h2, h3⟩
    have hnd : '.' ∉ ds := fun hm => absurd (h2 _ hm) (by decide)
    rcases h3 with rfl | ⟨gs, rfl, h4, h5⟩
    · exact ⟨ds ++ ['.', '0'], numText_float (gs := ['0']) (suf := []) h1 h2 (by simp) (by decide) (.inl rfl),
        by simp [litFloatUnsuffixed, hnd], by simp [litFloatUnsuffixed, hnd]⟩
    · refine ⟨ds ++ '.' :: gs, ?_, by simp [litFloatUnsuffixed], by simp [litFloatUnsuffixed]⟩
      have := numText_float (suf := []) h1 h2 h4 h5 (.inl rfl)
      rwa [List.append_nil] at this
  rcases h with h | h
  · simp only [Literal.floatSuffixed, if_true] at h
    cases h
    rcases hs with hs | ⟨s, rfl, hs⟩
    · exact .inl (numText_whole (suffixed _ hs)).1
    · exact .inl (numText_whole (suffixed _ hs)).2
  · simp only [Literal.floatUnsuffixed, if_true] at h
    cases h
    rcases hs with hs | ⟨s, rfl, hs⟩
    · obtain ⟨x, h1, h2, -⟩ := unsuffixed _ hs
      exact .inl (by rw [h2]; exact (numText_whole h1).1)
    · obtain ⟨x, h1, -, h2⟩ := unsuffixed _ hs
      exact .inl (by rw [h2]; exact (numText_whole h1).2)

/-- … and the strings and characters. -/
theorem C114_text (s : List Char) (c : Char) (b : UInt8) (bs : List UInt8) {x : List Char}
    (h : x = litString s ∨ x = litCharacter c ∨ x = litByteCharacter b ∨ x = litByteString bs ∨
      (0 ∉ bs ∧ litCString bs = .ok x)) (span : Span) : BuiltTree (.literal x span) := by
  have key : QuotedText x → BuiltTree (.literal x span) := fun h =>
    .inl (.inl (.inl ⟨x, [], by simp, h, .inl ⟨rfl, by simp⟩⟩))
  rcases h with rfl | rfl | rfl | rfl | ⟨h0, h⟩
  · exact key (.str (litString_value s).1)
  · obtain ⟨e, h1, h2, -⟩ := litCharacter_value c
    exact key (by rw [h1]; exact .char h2)
  · obtain ⟨e, h1, h2, -⟩ := litByteCharacter_value b
    exact key (by rw [h1]; exact .byte h2)
  · exact key (.str (litByteString_value bs).1)
  · obtain ⟨y, h1, h2, -⟩ := litCString_value bs h0
    rw [h1] at h
    cases h
    exact key (.str h2)

end

/-! ### Concrete cases -/

section
attribute [local instance] sampleTables sampleTables_lawful

/-- A program: `a->'b` is parsed, and `-1`, a group around a copy of the stream, and `=>` are put after it. -/
private def builtEx : List Act :=
  [.parse ['a', '-', '>', '\'', 'b'], .op (.leaf (.literal ['-', '1'] Span.callSite)), .op (.cloneStream 0),
   .op (.groupNew .bracket 2), .op (.makeMut 0), .op (.pushMutPM 0 1), .op (.pushMutPM 0 3), .op (.endMut 0),
   .op (.leaf (.punct '=' .joint Span.callSite)), .op (.leaf (.punct '>' .alone Span.callSite)),
   .op (.makeMut 0), .op (.pushMutPM 0 4), .op (.endMut 0), .op (.makeMut 0), .op (.pushMutPM 0 5), .op (.endMut 0)]

private def endsJoint (ts : List TokenTree) : Bool :=
  match ts.getLast? with
  | some (.punct _ .joint _) => true
  | _ => false

private theorem endsJoint_of {ts : List TokenTree} (h : EndsJoint ts) : endsJoint ts = true := by
  obtain ⟨ts', c, span, rfl⟩ := h
  simp [endsJoint]

/-- A check for the steps of programs like this one: nothing follows a joint punct but another punct. -/
private def builtCheck (v : List Val) : Op → Bool
  | .leaf (.literal r _) => r == ['-', '1']
  | .leaf (.punct c _ _) => c == '=' || c == '>'
  | .groupNew d i => d != .none &&
    match v[i]? with
    | some (.stream ts) => !endsJoint ts
    | _ => true
  | .pushMutPM i j =>
    match v[i]?, v[j]? with
    | some (.borrowed ts), some (.tree t) => !endsJoint ts || ts.getLast? == some (.punct '=' .joint Span.callSite) &&
      match t with
      | .punct .. => true
      | _ => false
    | _, _ => true
  | .leaf _ | .pushOwned .. | .pushMut .. | .pushOwnedPM .. | .extendOwned .. | .extendMut .. => false
  | _ => true

private def builtChecks (sm : SourceMap) (v : List Val) : List Act → Bool
  | [] => true
  | a :: as =>
    (match a with
      | .op o => builtCheck v o
      | _ => true) &&
    match vact sm v a with
    | .ok (sm, v) => builtChecks sm v as
    | _ => true

private theorem builtCheck_ok {v : List Val} {o : Op} (h : builtCheck v o = true) : BuiltOp v o := by
  cases o with
  | leaf t =>
    cases t <;> simp only [builtCheck, beq_iff_eq, Bool.false_eq_true, Bool.or_eq_true] at h
    · intro t' e
      simp only [leafValue, Option.some.injEq] at e
      subst e
      rcases h with rfl | rfl <;> exact ⟨by decide, fun _ => by decide⟩
    · subst h
      intro t' e
      simp only [leafValue, Option.some.injEq] at e
      subst e
      exact .inl (litAccepts_lexed.mp (by decide +kernel))
  | groupNew d j =>
    simp only [builtCheck, Bool.and_eq_true, bne_iff_ne] at h
    refine ⟨h.1, fun ts e hj => ?_⟩
    have := h.2
    simp [e, endsJoint_of hj] at this
  | pushMutPM i j =>
    rintro ts t e1 e2 - ts' c span rfl
    simp only [builtCheck, e1, e2] at h
    rw [endsJoint_of ⟨ts', c, span, rfl⟩] at h
    cases t <;> simp at h
    obtain ⟨rfl, rfl⟩ := h
    exact ⟨fun _ => .inl ⟨_, _, _, _, rfl, by simp⟩, by simp⟩
  | pushOwned | pushMut | pushOwnedPM | extendOwned | extendMut => simp [builtCheck] at h
  | _ => trivial

private theorem builtChecks_ok : ∀ {as : List Act} {sm : SourceMap} {v : List Val}, builtChecks sm v as = true → BuiltActs sm v as
  | [], _, _, _ => trivial
  | a :: as, sm, v, h => by
    simp only [builtChecks, Bool.and_eq_true] at h
    refine ⟨?_, fun sm' v' e => ?_⟩
    · rintro o rfl
      exact builtCheck_ok h.1
    · have := h.2
      rw [e] at this
      exact builtChecks_ok this

/-- C114_wf: the program meets the conditions, … -/
example : BuiltActs SourceMap.init [] builtEx ∧ base (actTexts builtEx) (actTexts builtEx).length ≤ 2 ^ 32 :=
  ⟨builtChecks_ok (by decide +kernel), by decide +kernel⟩

/-- … it ends normally, … -/
private theorem builtEx_values : vacts SourceMap.init [] builtEx = .ok
    (⟨[⟨[], ⟨0, 0⟩, [0], []⟩, ⟨['a', '-', '>', '\'', 'b'], ⟨1, 6⟩, [0], []⟩]⟩,
      [.stream [.ident ['a'] false ⟨1, 2⟩, .punct '-' .joint ⟨2, 3⟩, .punct '>' .joint ⟨3, 4⟩,
        .punct '\'' .joint ⟨4, 5⟩, .ident ['b'] false ⟨5, 6⟩,
        .punct '-' .alone Span.callSite, .literal ['1'] Span.callSite,
        .group .bracket [.ident ['a'] false ⟨1, 2⟩, .punct '-' .joint ⟨2, 3⟩, .punct '>' .joint ⟨3, 4⟩,
          .punct '\'' .joint ⟨4, 5⟩, .ident ['b'] false ⟨5, 6⟩] Span.callSite,
        .punct '=' .joint Span.callSite, .punct '>' .alone Span.callSite],
      .dead, .dead, .dead, .dead, .dead]) := by decide +kernel

/-- … and the text of the stream has room after that of the program. -/
example : Room (actTexts builtEx) "a->'b - 1 [a->'b] =>".toList := by decide +kernel

/-- C114_append, C114_wf: without the conditions, streams do not survive: `=` joint to an identifier is printed as `=a`, and
`=` in it is not joint when that is parsed. -/
example : ¬ MayFollow [.punct '=' .joint Span.callSite] [.ident ['a'] false Span.callSite] := by
  intro h
  rcases (h (by simp) [] _ _ rfl).1 (by decide) with ⟨_, _, _, _, h, _⟩ | ⟨_, _, _, h, _⟩ <;> cases h

end

end PM2.Props
