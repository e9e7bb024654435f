import Verif.Spec.Panics
import Verif.Props.Program
import Verif.Props.Values
/-! # C95: exactly these calls panic -/

set_option linter.unusedSectionVars false

namespace PM2.Props
open Spec Wrap

/-- The call panics exactly if `P`, and always ends. -/
def PanicsIff {α : Type} (x : Out α) (P : Prop) : Prop := (x = .panic ↔ P) ∧ x ≠ .diverge

section
variable {α β : Type}

theorem piff_ok {a : α} : PanicsIff (.ok a) False := by simp [PanicsIff]
theorem piff_ill : PanicsIff (.ill : Out α) False := by simp [PanicsIff]
theorem piff_mismatch : PanicsIff (.mismatch : Out α) False := by simp [PanicsIff]
theorem piff_panic : PanicsIff (.panic : Out α) True := by simp [PanicsIff]

theorem PanicsIff.iff {x : Out α} {P Q : Prop} (h : PanicsIff x P) (e : P ↔ Q) : PanicsIff x Q := by rwa [← e]

theorem PanicsIff.map {x : Out α} {P : Prop} {f : α → β} (h : PanicsIff x P) : PanicsIff (x >>= fun a => .ok (f a)) P := by
  obtain ⟨h1, h2⟩ := h
  cases x with
  | ok a => exact ⟨⟨fun e => (by cases e), fun p => (by cases h1.mpr p)⟩, fun e => by cases e⟩
  | panic => exact ⟨⟨fun _ => h1.mp rfl, fun _ => rfl⟩, fun e => by cases e⟩
  | diverge => exact (h2 rfl).elim
  | mismatch => exact ⟨⟨fun e => (by cases e), fun p => (by cases h1.mpr p)⟩, fun e => by cases e⟩
  | ill => exact ⟨⟨fun e => (by cases e), fun p => (by cases h1.mpr p)⟩, fun e => by cases e⟩

theorem PanicsIff.get {x : Out α} {Q : α → Prop} {g : α → Out β} (h : PanicsIff x False)
    (hg : ∀ a, x = .ok a → PanicsIff (g a) (Q a)) : PanicsIff (x >>= g) (∃ a, x = .ok a ∧ Q a) := by
  obtain ⟨h1, h2⟩ := h
  cases x with
  | ok a =>
    refine (hg a rfl).iff ⟨fun q => ⟨a, rfl, q⟩, ?_⟩
    rintro ⟨b, e, q⟩
    cases e; exact q
  | panic => exact (h1.mp rfl).elim
  | diverge => exact (h2 rfl).elim
  | mismatch => exact ⟨⟨fun e => (by cases e), by rintro ⟨_, e, _⟩; cases e⟩, fun e => by cases e⟩
  | ill => exact ⟨⟨fun e => (by cases e), by rintro ⟨_, e, _⟩; cases e⟩, fun e => by cases e⟩

theorem PanicsIff.calm {x : Out α} {g : α → Out β} (h : PanicsIff x False) (hg : ∀ a, x = .ok a → PanicsIff (g a) False) :
    PanicsIff (x >>= g) False := (PanicsIff.get (Q := fun _ => False) h hg).iff (by simp)

theorem piff_typed (x : Option α) : PanicsIff (Out.typed x) False := by
  cases x <;> simp [Out.typed, piff_ok, piff_ill]

theorem piff_ofOption (x : Option α) : PanicsIff (Out.ofOption x) (x = none) := by
  cases x <;> simp [Out.ofOption, PanicsIff]

end

section
variable [Compiler] {σ : Type} [UnicodeTables] [LawfulUnicode]

theorem piff_stream (s : State σ) (i : Nat) : PanicsIff (s.stream i) False := by
  unfold State.stream; split <;> first | exact piff_ok | exact piff_ill
theorem piff_tree (s : State σ) (i : Nat) : PanicsIff (s.tree i) False := by
  unfold State.tree; split <;> first | exact piff_ok | exact piff_ill
theorem piff_span (s : State σ) (i : Nat) : PanicsIff (s.span i) False := by
  unfold State.span; split <;> first | exact piff_ok | exact piff_ill
theorem piff_delim (s : State σ) (i : Nat) : PanicsIff (s.delim i) False := by
  unfold State.delim; split <;> first | exact piff_ok | exact piff_ill

theorem piff_trees (s : State σ) (is : List Nat) : PanicsIff (s.trees is) False := by
  induction is with
  | nil => exact piff_ok
  | cons i is ih => exact (piff_tree s i).calm fun _ _ => ih.map

theorem piff_streams (s : State σ) (is : List Nat) : PanicsIff (s.streams is) False := by
  induction is with
  | nil => exact piff_ok
  | cons i is ih => exact (piff_stream s i).calm fun _ _ => ih.map

theorem piff_unwrapNightly (a : WSpan) : PanicsIff a.unwrapNightly False := by
  cases a <;> first | exact piff_ok | exact piff_mismatch

theorem piff_intoCompilerToken (t : Tree) : PanicsIff (intoCompilerToken t) False := by
  cases t with
  | punct ch sp s => exact (piff_unwrapNightly s).map
  | _ => first | exact piff_ok | exact piff_mismatch

theorem piff_intoCompilerTokens (ts : List Tree) : PanicsIff (intoCompilerTokens ts) False := by
  induction ts with
  | nil => exact piff_ok
  | cons t ts ih => exact (piff_intoCompilerToken t).calm fun _ _ => ih.map

theorem piff_unwrapNightlies (ss : List (WStream σ)) : PanicsIff (unwrapNightlies ss) False := by
  induction ss with
  | nil => exact piff_ok
  | cons s ss ih =>
    refine PanicsIff.calm ?_ fun _ _ => ih.map
    cases s <;> first | exact piff_ok | exact piff_mismatch

theorem piff_unwrapStables (ss : List (WStream σ)) : PanicsIff (unwrapStables ss) False := by
  induction ss with
  | nil => exact piff_ok
  | cons s ss ih =>
    refine PanicsIff.calm ?_ fun _ _ => ih.map
    cases s <;> first | exact piff_ok | exact piff_mismatch

theorem piff_resolvedAt (a b : WSpan) : PanicsIff (a.resolvedAt b) False := by
  cases a <;> cases b <;> first | exact piff_ok | exact piff_mismatch
theorem piff_locatedAt (a b : WSpan) : PanicsIff (a.locatedAt b) False := by
  cases a <;> cases b <;> first | exact piff_ok | exact piff_mismatch
theorem piff_setSpan (t : Tree) (a : WSpan) : PanicsIff (t.setSpan a) False := by
  cases t <;> cases a <;> first | exact piff_ok | exact piff_mismatch
theorem piff_identEq (t u : Tree) : PanicsIff (t.identEq u) False := by
  cases t <;> cases u <;> first | exact piff_ok | exact piff_mismatch | exact piff_ill
theorem piff_subspan (t : Tree) (lo hi : Bound) : PanicsIff (t.subspan lo hi) False := by
  cases t <;> first | exact piff_ok | exact piff_mismatch | exact piff_ill

theorem punct_iff (c : Char) : isPunctCtorChar c = true ↔ PunctChar c := by
  have h := C33_punct_new (ε := Unit) c .alone
  unfold PunctChar
  by_cases hc : c ∈ "~!@#$%^&*-=+|;:,<.>/?'".toList
  · have := h.1 hc
    unfold PM2.punctNew at this
    split at this
    · rename_i hp; simp only [hp, hc]
    · cases this
  · have := h.2 hc
    unfold PM2.punctNew at this
    split at this
    · cases this
    · rename_i hp; exact ⟨fun h => absurd h hp, fun h => absurd h hc⟩

theorem piff_punctNew (inside : Bool) (ch : Char) (sp : Spacing) :
    PanicsIff (Wrap.punctNew inside ch sp) (¬ PunctChar ch) := by
  unfold Wrap.punctNew
  rw [← punct_iff]
  split
  · rename_i h; exact piff_ok.iff (by simp [h])
  · rename_i h; exact piff_panic.iff (by simp [h])

theorem piff_ofCompilerToken (t : CTree) :
    PanicsIff (ofCompilerToken t) (∃ ch sp a, t = .punct ch sp a ∧ ¬ PunctChar ch) := by
  cases t with
  | punct ch sp a =>
    simp only [ofCompilerToken]
    split
    · rename_i h
      refine piff_ok.iff ⟨False.elim, ?_⟩
      rintro ⟨_, _, _, e, hn⟩
      cases e
      exact hn ((punct_iff ch).mp h)
    · rename_i h
      exact piff_panic.iff ⟨fun _ => ⟨ch, sp, a, rfl, fun hp => h ((punct_iff ch).mpr hp)⟩, fun _ => trivial⟩
  | _ => exact piff_ok.iff ⟨False.elim, by rintro ⟨_, _, _, e, _⟩; cases e⟩

theorem ofCompilerToken_cases (t : CTree) : (∃ u, ofCompilerToken t = .ok u) ∨ ofCompilerToken t = .panic := by
  cases t with
  | punct ch sp a =>
    simp only [ofCompilerToken]
    split
    · exact .inl ⟨_, rfl⟩
    · exact .inr rfl
  | _ => exact .inl ⟨_, rfl⟩

theorem piff_ofCompilerTokens (ts : List CTree) :
    PanicsIff (ofCompilerTokens ts) (∃ ch sp a, .punct ch sp a ∈ ts ∧ ¬ PunctChar ch) := by
  induction ts with
  | nil => exact piff_ok.iff (by simp)
  | cons t ts ih =>
    have ht := piff_ofCompilerToken t
    simp only [ofCompilerTokens]
    rcases ofCompilerToken_cases t with ⟨u, e⟩ | e
    · rw [e] at ht ⊢
      refine (ih.map (f := fun us => u :: us)).iff ⟨?_, ?_⟩
      · rintro ⟨ch, sp, a, hm, hn⟩
        exact ⟨ch, sp, a, .tail _ hm, hn⟩
      · rintro ⟨ch, sp, a, hm, hn⟩
        rcases List.mem_cons.mp hm with hm | hm
        · exact ((ht.1.mpr ⟨ch, sp, a, hm.symm, hn⟩ : Out.ok u = .panic) |> fun e => by cases e)
        · exact ⟨ch, sp, a, hm, hn⟩
    · rw [e] at ht ⊢
      obtain ⟨ch, sp, a, rfl, hn⟩ := ht.1.mp rfl
      exact piff_panic.iff ⟨fun _ => ⟨ch, sp, a, .head _, hn⟩, fun _ => trivial⟩

theorem piff_literalUnchecked (inside : Bool) (r : List Char) :
    PanicsIff (Wrap.literalUnchecked inside r) (inside = true ∧ NoLiteral r) := by
  cases inside with
  | false => exact piff_ok.iff (by simp)
  | true =>
    simp only [Wrap.literalUnchecked, if_true, true_and]
    unfold NoLiteral
    split
    · rename_i l e; exact piff_ok.iff ⟨False.elim, fun h => h l e⟩
    · rename_i e; exact piff_panic.iff ⟨fun _ l h => by simp [e] at h, fun _ => trivial⟩
    · rename_i e; exact piff_panic.iff ⟨fun _ l h => by simp [e] at h, fun _ => trivial⟩

theorem piff_byteCharacter (inside : Bool) (b : UInt8) :
    PanicsIff (byteCharacterW inside b)
      (inside = true ∧ Compiler.cfgByteCharacter = false ∧ NoLiteral (litByteCharacter b)) := by
  cases inside with
  | false => exact piff_ok.iff (by simp)
  | true =>
    simp only [byteCharacterW, if_true, true_and]
    split
    · rename_i h; exact piff_ok.iff (by simp [h])
    · rename_i h; exact (piff_literalUnchecked true _).iff (by simp [h])

theorem piff_value (r : List Char) (k : ValueKind) : PanicsIff (Out.ofRes (literalValue r k)) False := by
  have h := C27_total r
  cases k with
  | str =>
    rcases h.1 with ⟨v, e⟩ | ⟨x, e, -⟩ | e <;>
      (simp only [literalValue, e, conversionOf, Out.ofRes]; exact piff_ok)
  | byteStr =>
    rcases h.2.1 with ⟨v, e⟩ | ⟨x, e, -⟩ | e <;>
      (simp only [literalValue, e, conversionOf, Out.ofRes]; exact piff_ok)
  | cstr =>
    rcases h.2.2 with ⟨v, e⟩ | ⟨x, e, -⟩ | e <;>
      (simp only [literalValue, e, conversionOf, Out.ofRes]; exact piff_ok)

theorem piff_cString (inside : Bool) {bs : List UInt8} (hz : (0 : UInt8) ∉ bs) :
    PanicsIff (cStringW inside bs)
      (inside = true ∧ Compiler.cfgCString = false ∧ ∃ r, litCString bs = .ok r ∧ NoLiteral r) := by
  obtain ⟨r, e, -⟩ := litCString_value bs hz
  cases inside with
  | false =>
    simp only [cStringW, e, Out.ofRes, Bool.false_eq_true, if_false, false_and]
    exact piff_ok
  | true =>
    simp only [cStringW, e, Out.ofRes, if_true, true_and, Res.ok.injEq]
    split
    · rename_i h; exact piff_ok.iff (by simp [h])
    · rename_i h
      exact (piff_literalUnchecked true r).iff (by simp [h])

theorem piff_identNew (x : List Char) (a : WSpan) :
    PanicsIff (identNewW x a) ((∃ b, a = .fallback b ∧ ¬ IdentText x) ∨
      ∃ b, a = .compiler b ∧ Compiler.identNew x b = none) := by
  cases a with
  | compiler b =>
    refine (piff_ofOption _).map.iff ⟨fun h => .inr ⟨b, rfl, h⟩, ?_⟩
    rintro (⟨_, e, _⟩ | ⟨_, e, h⟩) <;> cases e
    exact h
  | fallback b =>
    by_cases hv : IdentText x
    · simp only [identNewW, (C29_ident_new x b).1 hv, Out.ofRes]
      refine piff_ok.iff ⟨False.elim, ?_⟩
      rintro (⟨_, e, h⟩ | ⟨_, e, _⟩) <;> cases e
      exact h hv
    · simp only [identNewW, (C29_ident_new x b).2 hv, Out.ofRes]
      exact piff_panic.iff ⟨fun _ => .inl ⟨b, rfl, hv⟩, fun _ => trivial⟩

theorem piff_identNewRaw (x : List Char) (a : WSpan) :
    PanicsIff (identNewRawW x a) ((∃ b, a = .fallback b ∧ ¬ (IdentText x ∧
        x ∉ ["_".toList, "super".toList, "self".toList, "Self".toList, "crate".toList])) ∨
      ∃ b, a = .compiler b ∧ Compiler.identNewRaw x b = none) := by
  cases a with
  | compiler b =>
    refine (piff_ofOption _).map.iff ⟨fun h => .inr ⟨b, rfl, h⟩, ?_⟩
    rintro (⟨_, e, _⟩ | ⟨_, e, h⟩) <;> cases e
    exact h
  | fallback b =>
    have hi : IdentText x ↔ Ident.new (ε := Unit) x b = .ok (.ident x false b) := by
      constructor
      · exact (C29_ident_new x b).1
      · intro h
        refine Classical.byContradiction fun hn => ?_
        rw [(C29_ident_new x b).2 hn] at h; cases h
    rw [hi]
    by_cases hv : Ident.new (ε := Unit) x b = .ok (.ident x false b) ∧
        x ∉ ["_".toList, "super".toList, "self".toList, "Self".toList, "crate".toList]
    · simp only [identNewRawW, (C30_ident_new_raw x b).1 hv, Out.ofRes]
      refine piff_ok.iff ⟨False.elim, ?_⟩
      rintro (⟨_, e, h⟩ | ⟨_, e, _⟩) <;> cases e
      exact h hv
    · simp only [identNewRawW, (C30_ident_new_raw x b).2 hv, Out.ofRes]
      exact piff_panic.iff ⟨fun _ => .inl ⟨b, rfl, hv⟩, fun _ => trivial⟩

theorem piff_identEqStr (t : Tree) (x : List Char) : PanicsIff (t.identEqStr x) False := by
  cases t with
  | identF sym raw s =>
    simp only [Tree.identEqStr, C31_eq_str, Out.ofRes]; exact piff_ok
  | _ => first | exact piff_ok | exact piff_ill

theorem piff_fromStr2 {ε α β : Type} {x : Res ε β} (parse : List Char → Outcome CompilerTypes.Error α)
    (src : List Char) {P : Prop} (hp : x = .panic ↔ P) (hd : x ≠ .diverge) :
    PanicsIff (fromStr2 x parse src).1 P := by
  cases x with
  | ok a =>
    have : ¬ P := fun p => by cases hp.mpr p
    simp only [fromStr2]
    split <;> exact piff_ok.iff ⟨False.elim, this⟩
  | err e =>
    have : ¬ P := fun p => by cases hp.mpr p
    exact piff_ok.iff ⟨False.elim, this⟩
  | panic => exact piff_panic.iff ⟨fun _ => hp.mp rfl, fun _ => trivial⟩
  | diverge => exact (hd rfl).elim

theorem parse_panic {sm : SourceMap} {texts : List (List Char)} (h : History sm texts)
    {src : List Char} (hl : src.length < 2 ^ 32) :
    ((TokenStream.fromStr sm src).2 = .panic ↔ ¬ Room texts src) ∧ (TokenStream.fromStr sm src).2 ≠ .diverge := by
  by_cases hr : Room texts src
  · rcases C01_parse_total h hr with ⟨_, e⟩ | ⟨_, e⟩ <;> simp [e, hr]
  · simp [C01_exhausted h hl hr, hr]

theorem parseLiteral_panic {sm : SourceMap} {texts : List (List Char)} (h : History sm texts)
    {src : List Char} (hl : src.length < 2 ^ 32) :
    ((Literal.fromStr sm src).2 = .panic ↔ ¬ Room texts src) ∧ (Literal.fromStr sm src).2 ≠ .diverge := by
  by_cases hr : Room texts src
  · rcases C02_literal_total h hr with ⟨_, e⟩ | ⟨_, e⟩ <;> simp [e, hr]
  · have hn := h.holds.2.nextPos
    simp [(getCursor_panic h.wf hl (by rw [hn]; exact hr)).2, hr]

variable [Rep σ]

theorem piff_fromStr (inside : Bool) {sm : SourceMap} {texts : List (List Char)} (h : History sm texts)
    {src : List Char} (hl : src.length < 2 ^ 32) :
    PanicsIff (WStream.fromStr (σ := σ) inside sm src).result (¬ Room texts src) := by
  obtain ⟨hp, hd⟩ := parse_panic h hl
  cases inside with
  | true =>
    have h2 := piff_fromStr2 (Compiler.parseStream) src hp hd
    simp only [WStream.fromStr, if_true]
    generalize (fromStr2 _ _ _).1 = x at h2
    cases x with
    | ok a => cases a <;> exact piff_ok.iff ⟨False.elim, fun p => (by cases h2.1.mpr p)⟩
    | panic => exact piff_panic.iff ⟨fun _ => h2.1.mp rfl, fun _ => trivial⟩
    | diverge => exact (h2.2 rfl).elim
    | mismatch => exact piff_mismatch.iff ⟨False.elim, fun p => (by cases h2.1.mpr p)⟩
    | ill => exact piff_ill.iff ⟨False.elim, fun p => (by cases h2.1.mpr p)⟩
  | false =>
    simp only [WStream.fromStr, Bool.false_eq_true, if_false]
    generalize (TokenStream.fromStr sm src).2 = x at hp hd
    cases x with
    | ok a => exact piff_ok.iff ⟨False.elim, fun p => (by cases hp.mpr p)⟩
    | err a => exact piff_ok.iff ⟨False.elim, fun p => (by cases hp.mpr p)⟩
    | panic => exact piff_panic.iff ⟨fun _ => hp.mp rfl, fun _ => trivial⟩
    | diverge => exact (hd rfl).elim

omit [Rep σ] in
theorem piff_literalFromStr (inside : Bool) {sm : SourceMap} {texts : List (List Char)} (h : History sm texts)
    {src : List Char} (hl : src.length < 2 ^ 32) :
    PanicsIff (Wrap.literalFromStr inside sm src).result (¬ Room texts src) := by
  obtain ⟨hp, hd⟩ := parseLiteral_panic h hl
  cases inside with
  | true =>
    have h2 := piff_fromStr2 (Compiler.parseLiteral) src hp hd
    simp only [Wrap.literalFromStr, if_true]
    generalize (fromStr2 _ _ _).1 = x at h2
    cases x with
    | ok a => cases a <;> exact piff_ok.iff ⟨False.elim, fun p => (by cases h2.1.mpr p)⟩
    | panic => exact piff_panic.iff ⟨fun _ => h2.1.mp rfl, fun _ => trivial⟩
    | diverge => exact (h2.2 rfl).elim
    | mismatch => exact piff_mismatch.iff ⟨False.elim, fun p => (by cases h2.1.mpr p)⟩
    | ill => exact piff_ill.iff ⟨False.elim, fun p => (by cases h2.1.mpr p)⟩
  | false =>
    simp only [Wrap.literalFromStr, Bool.false_eq_true, if_false]
    generalize (Literal.fromStr sm src).2 = x at hp hd
    cases x with
    | ok a => exact piff_ok.iff ⟨False.elim, fun p => (by cases hp.mpr p)⟩
    | err a => exact piff_ok.iff ⟨False.elim, fun p => (by cases hp.mpr p)⟩
    | panic => exact piff_panic.iff ⟨fun _ => hp.mp rfl, fun _ => trivial⟩
    | diverge => exact (hd rfl).elim

theorem piff_extendStreams (s : WStream σ) (ss : List (WStream σ)) : PanicsIff (s.extendStreams ss) False := by
  cases s with
  | compiler s => exact (piff_unwrapNightlies ss).map
  | fallback s => exact (piff_unwrapStables ss).map

/-- **C95.** In a thread that has only live spans, a call panics exactly if it is one of `Panics` (or mixes
modes, C57), and every call ends. -/
theorem C95_panic {K : Span → Prop} {s : State σ} {texts : List (List Char)} (h : Session s.sm texts K)
    (hk : ∀ sp, HasSpan s sp → K sp) {op : Op} (hl : Live s op) (hz : CText op) (inside : Bool) :
    (Wrap.step inside s op = .panic ↔ Panics inside texts s op) ∧ Wrap.step inside s op ≠ .diverge := by
  show PanicsIff _ _
  have hh := Session.hist h
  have hspan : ∀ {i : Nat} {a : Span}, s.span i = .ok (.fallback a) → K a := fun {i a} ha =>
    hk a ⟨_, List.mem_of_getElem? (span_ok.mp ha), .head _⟩
  cases op with
  | fromStr src =>
    have := piff_fromStr (σ := σ) inside hh hl
    simp only [Wrap.step, Panics]
    generalize (WStream.fromStr (σ := σ) inside s.sm src).result = x at this
    cases x with
    | ok a => cases a <;> exact piff_ok.iff ⟨False.elim, fun p => (by cases this.1.mpr p)⟩
    | panic => exact piff_panic.iff ⟨fun _ => this.1.mp rfl, fun _ => trivial⟩
    | diverge => exact (this.2 rfl).elim
    | mismatch => exact piff_mismatch.iff ⟨False.elim, fun p => (by cases this.1.mpr p)⟩
    | ill => exact piff_ill.iff ⟨False.elim, fun p => (by cases this.1.mpr p)⟩
  | literalFromStr src =>
    have := piff_literalFromStr inside hh hl
    simp only [Wrap.step, Panics]
    generalize (Wrap.literalFromStr inside s.sm src).result = x at this
    cases x with
    | ok a => cases a <;> exact piff_ok.iff ⟨False.elim, fun p => (by cases this.1.mpr p)⟩
    | panic => exact piff_panic.iff ⟨fun _ => this.1.mp rfl, fun _ => trivial⟩
    | diverge => exact (this.2 rfl).elim
    | mismatch => exact piff_mismatch.iff ⟨False.elim, fun p => (by cases this.1.mpr p)⟩
    | ill => exact piff_ill.iff ⟨False.elim, fun p => (by cases this.1.mpr p)⟩
  | intoCompiler i =>
    refine ((piff_stream s i).get (Q := fun x => ∃ ts, x = .fallback ts ∧
      ∀ us, Compiler.parseStream (WStream.fallback (σ := σ) ts).display ≠ .ok us) fun x _ => ?_).iff ?_
    · refine PanicsIff.map ?_
      cases x with
      | compiler x => exact piff_ok.iff ⟨False.elim, by rintro ⟨_, e, _⟩; cases e⟩
      | fallback ts =>
        simp only [WStream.intoCompiler]
        split
        · rename_i us e
          refine piff_ok.iff ⟨False.elim, ?_⟩
          rintro ⟨_, e', hn⟩
          cases e'
          exact hn us e
        · rename_i e
          exact piff_panic.iff ⟨fun _ => ⟨ts, rfl, fun us h => by
            simp only [WStream.display, e] at h; cases h⟩, fun _ => trivial⟩
        · rename_i e
          exact piff_panic.iff ⟨fun _ => ⟨ts, rfl, fun us h => by
            simp only [WStream.display, e] at h; cases h⟩, fun _ => trivial⟩
    · simp only [stream_ok, Panics]
      constructor
      · rintro ⟨_, h1, ts, rfl, h2⟩; exact ⟨ts, h1, h2⟩
      · rintro ⟨ts, h1, h2⟩; exact ⟨_, h1, ts, rfl, h2⟩
  | unwrap i =>
    refine ((piff_span s i).get (Q := fun x => ∃ a, x = .fallback a) fun x _ => ?_).iff ?_
    · refine PanicsIff.map ?_
      cases x with
      | compiler x => exact piff_ok.iff ⟨False.elim, by rintro ⟨_, e⟩; cases e⟩
      | fallback a => exact piff_panic.iff ⟨fun _ => ⟨a, rfl⟩, fun _ => trivial⟩
    · simp only [span_ok, Panics]
      constructor
      · rintro ⟨_, h1, a, rfl⟩; exact ⟨a, h1⟩
      · rintro ⟨a, h1⟩; exact ⟨_, h1, a, rfl⟩
  | identNew x i =>
    refine ((piff_span s i).get fun a _ => (piff_identNew x a).map).iff ?_
    simp only [span_ok, Panics]
    constructor
    · rintro ⟨_, h1, ⟨a, rfl, h2⟩ | ⟨a, rfl, h2⟩⟩
      · exact .inl ⟨a, h1, h2⟩
      · exact .inr ⟨a, h1, h2⟩
    · rintro (⟨a, h1, h2⟩ | ⟨a, h1, h2⟩)
      · exact ⟨_, h1, .inl ⟨a, rfl, h2⟩⟩
      · exact ⟨_, h1, .inr ⟨a, rfl, h2⟩⟩
  | identNewRaw x i =>
    refine ((piff_span s i).get fun a _ => (piff_identNewRaw x a).map).iff ?_
    simp only [span_ok, Panics]
    constructor
    · rintro ⟨_, h1, ⟨a, rfl, h2⟩ | ⟨a, rfl, h2⟩⟩
      · exact .inl ⟨a, h1, h2⟩
      · exact .inr ⟨a, h1, h2⟩
    · rintro (⟨a, h1, h2⟩ | ⟨a, h1, h2⟩)
      · exact ⟨_, h1, .inl ⟨a, rfl, h2⟩⟩
      · exact ⟨_, h1, .inr ⟨a, rfl, h2⟩⟩
  | punctNew ch sp => exact (piff_punctNew inside ch sp).map
  | next i =>
    simp only [Wrap.step, Panics]
    split
    · rename_i e; exact piff_ok.iff (by simp [e])
    · rename_i t ts e
      refine (piff_ofCompilerToken t).map.iff ?_
      rw [e]
      constructor
      · rintro ⟨ch, sp, a, rfl, hn⟩; exact ⟨ch, sp, a, ts, rfl, hn⟩
      · rintro ⟨ch, sp, a, us, e, hn⟩; cases e; exact ⟨ch, sp, a, rfl, hn⟩
    · rename_i e; exact piff_ok.iff (by simp [e])
    · rename_i e; exact piff_ok.iff (by simp [e])
    · rename_i h1 h2 h3 h4
      refine piff_ill.iff ⟨False.elim, ?_⟩
      rintro ⟨ch, sp, a, ts, e, -⟩
      exact h2 _ _ e
  | debug alternate i =>
    refine ((piff_typed s.vars[i]?).get (Q := fun v => ∃ ts ch sp a, v = .iterC ts ∧ .punct ch sp a ∈ ts ∧
      ¬ PunctChar ch) fun v _ => ?_).iff ?_
    · refine PanicsIff.map ?_
      cases v with
      | iterC ts =>
        refine (piff_ofCompilerTokens ts).map.iff ⟨?_, ?_⟩
        · rintro ⟨ch, sp, a, hm, hn⟩; exact ⟨ts, ch, sp, a, rfl, hm, hn⟩
        · rintro ⟨_, ch, sp, a, e, hm, hn⟩; cases e; exact ⟨ch, sp, a, hm, hn⟩
      | _ =>
        first
          | exact piff_ok.iff ⟨False.elim, by rintro ⟨_, _, _, _, e, _⟩; cases e⟩
          | exact piff_ill.iff ⟨False.elim, by rintro ⟨_, _, _, _, e, _⟩; cases e⟩
    · simp only [Panics]
      constructor
      · rintro ⟨_, h1, ts, ch, sp, a, rfl, h2⟩; exact ⟨ts, ch, sp, a, typed_ok h1, h2⟩
      · rintro ⟨ts, ch, sp, a, h1, h2⟩; exact ⟨_, by rw [h1]; rfl, ts, ch, sp, a, rfl, h2⟩
  | literalUnchecked r => exact (piff_literalUnchecked inside r).map
  | byteCharacter b => exact (piff_byteCharacter inside b).map
  | cString bs => exact (piff_cString inside hz).map
  | invalidate =>
    cases inside with
    | true => exact piff_panic.iff (by simp [Panics])
    | false => exact piff_ok.iff (by simp [Panics])
  | join i j =>
    refine (piff_span s i).calm fun a ha => (piff_span s j).calm fun b hb => PanicsIff.map ?_
    cases a <;> cases b <;> try exact piff_ok
    rename_i a b
    obtain ⟨j, e⟩ := (C53_no_panic (ε := Unit) h (hspan ha)).2.2.2.2.2 b (hspan hb)
    simp only [WSpan.join, e, Out.ofRes]
    exact piff_ok
  | byteRange i =>
    refine (piff_span s i).calm fun a ha => PanicsIff.map ?_
    cases a with
    | compiler a => exact piff_ok
    | fallback a =>
      obtain ⟨r, e⟩ := (C53_no_panic (ε := Unit) h (hspan ha)).2.2.1
      simp only [WSpan.byteRange, e, Out.ofRes]
      exact piff_ok
  | sourceText i =>
    refine (piff_span s i).calm fun a ha => PanicsIff.map ?_
    cases a with
    | compiler a => exact piff_ok
    | fallback a =>
      obtain ⟨r, e⟩ := (C53_no_panic (ε := Unit) h (hspan ha)).2.2.2.1
      simp only [WSpan.sourceText, e, Out.ofRes]
      exact piff_ok
  | start i =>
    refine (piff_span s i).calm fun a ha => PanicsIff.map ?_
    cases a with
    | compiler a => exact piff_ok
    | fallback a =>
      obtain ⟨r, e⟩ := (C53_no_panic (ε := Unit) h (hspan ha)).1
      simp only [WSpan.start, e, Out.ofRes]
      exact piff_ok
  | end_ i =>
    refine (piff_span s i).calm fun a ha => PanicsIff.map ?_
    cases a with
    | compiler a => exact piff_ok
    | fallback a =>
      obtain ⟨r, e⟩ := (C53_no_panic (ε := Unit) h (hspan ha)).2.1
      simp only [WSpan.end_, e, Out.ofRes]
      exact piff_ok
  | file i =>
    refine (piff_span s i).calm fun a ha => PanicsIff.map ?_
    cases a with
    | compiler a => exact piff_ok
    | fallback a =>
      obtain ⟨r, e⟩ := (C53_no_panic (ε := Unit) h (hspan ha)).2.2.2.2.1
      simp only [WSpan.file, e, Out.ofRes]
      exact piff_ok
  | fromTree i =>
    refine (piff_tree s i).calm fun t _ => PanicsIff.map ?_
    cases inside
    · exact piff_ok
    · exact (piff_intoCompilerToken t).map
  | collectTrees is =>
    refine (piff_trees s is).calm fun ts _ => PanicsIff.map ?_
    cases inside
    · exact piff_ok
    · exact (piff_intoCompilerTokens ts).map
  | collectStreams is =>
    refine (piff_streams s is).calm fun ss _ => PanicsIff.map ?_
    cases ss with
    | nil => exact piff_ok
    | cons x ss => exact piff_extendStreams x ss
  | extendTrees i js =>
    refine (piff_stream s i).calm fun x _ => (piff_trees s js).calm fun ts _ => PanicsIff.map ?_
    cases x with
    | compiler x => exact (piff_intoCompilerTokens ts).map
    | fallback x => exact piff_ok
  | extendStreams i js =>
    exact (piff_stream s i).calm fun x _ => (piff_streams s js).calm fun ts _ => (piff_extendStreams x ts).map
  | resolvedAt i j =>
    exact (piff_span s i).calm fun a _ => (piff_span s j).calm fun b _ => (piff_resolvedAt a b).map
  | locatedAt i j =>
    exact (piff_span s i).calm fun a _ => (piff_span s j).calm fun b _ => (piff_locatedAt a b).map
  | spanEq i j => exact (piff_span s i).calm fun a _ => (piff_span s j).map
  | setSpan i j =>
    exact (piff_tree s i).calm fun t _ => (piff_span s j).calm fun a _ => (piff_setSpan t a).map
  | identEq i j =>
    exact (piff_tree s i).calm fun t _ => (piff_tree s j).calm fun a _ => (piff_identEq t a).map
  | identEqStr i x => exact (piff_tree s i).calm fun t _ => (piff_identEqStr t x).map
  | subspan i lo hi => exact (piff_tree s i).calm fun t _ => (piff_subspan t lo hi).map
  | value k i =>
    exact (piff_tree s i).calm fun t _ => (piff_typed _).calm fun r _ => (piff_value r k).map
  | identCmp i j => exact (piff_tree s i).calm fun t _ => (piff_tree s j).calm fun u _ => (piff_typed _).map
  | errorSpan i =>
    simp only [Wrap.step]
    split <;> first | exact piff_ok | exact piff_ill
  | errorText i =>
    simp only [Wrap.step]
    split <;> first | exact piff_ok | exact piff_ill
  | sizeHint i =>
    simp only [Wrap.step]
    split <;> first | exact piff_ok | exact piff_ill
  | _ =>
    first
      | exact piff_ok
      | exact (piff_stream _ _).map
      | exact (piff_span _ _).map
      | exact (piff_delim _ _).map
      | exact (piff_tree _ _).map
      | exact (piff_typed _).map
      | exact (piff_tree _ _).calm fun _ _ => (piff_typed _).map

/-- **C95.** A program panics exactly if it comes to a call of `Panics`, and always ends. -/
theorem C95_program {K : Span → Prop} {s : State σ} {texts : List (List Char)} (h : Session s.sm texts K)
    (hk : ∀ sp, HasSpan s sp → K sp) {ops : List (Bool × Op)} (hl : LiveRun s ops) (hz : ∀ x ∈ ops, CText x.2) :
    (Wrap.run s ops = .panic ↔ ∃ before inside op after s', ops = before ++ (inside, op) :: after ∧
      Wrap.run s before = .ok s' ∧ Panics inside (textsOf texts before) s' op) ∧
    Wrap.run s ops ≠ .diverge := by
  induction ops generalizing s texts K with
  | nil => simp [Wrap.run]
  | cons p ops ih =>
    obtain ⟨inside, op⟩ := p
    obtain ⟨h1, h2⟩ := C95_panic h hk hl.1 (hz _ (.head _)) inside
    have hrun : Wrap.run s ((inside, op) :: ops) = (Wrap.step inside s op >>= fun s' => Wrap.run s' ops) := rfl
    have first : ∀ {before i o after s'}, (inside, op) :: ops = before ++ (i, o) :: after →
        Wrap.run s before = .ok s' → Panics i (textsOf texts before) s' o →
        Panics inside texts s op ∨ ∃ before' s1, Wrap.step inside s op = .ok s1 ∧ ops = before' ++ (i, o) :: after ∧
          Wrap.run s1 before' = .ok s' ∧ Panics i (textsOf (textsAfter texts op) before') s' o := by
      intro before i o after s' e hr hp
      cases before with
      | nil => cases e; cases hr; exact .inl hp
      | cons q before =>
        cases e
        simp only [Wrap.run, bind_ok] at hr
        obtain ⟨s1, e1, hr⟩ := hr
        exact .inr ⟨before, s1, e1, rfl, hr, hp⟩
    cases hs : Wrap.step inside s op with
    | ok s1 =>
      rw [hs] at h1
      obtain ⟨K', g1, g2⟩ := C94_step h hk hl.1 hs
      obtain ⟨i1, i2⟩ := ih g1 g2 (hl.2 s1 hs) (fun x hx => hz x (.tail _ hx))
      rw [hrun, hs]
      refine ⟨i1.trans ⟨?_, ?_⟩, i2⟩
      · rintro ⟨before, i, o, after, s', rfl, hr, hp⟩
        refine ⟨(inside, op) :: before, i, o, after, s', rfl, ?_, hp⟩
        simp only [Wrap.run, bind_ok]
        exact ⟨s1, hs, hr⟩
      · rintro ⟨before, i, o, after, s', e, hr, hp⟩
        rcases first e hr hp with hp | ⟨before', s2, e1, e2, hr, hp⟩
        · cases h1.mpr hp
        · rw [hs] at e1; cases e1
          exact ⟨before', i, o, after, s', e2, hr, hp⟩
    | panic =>
      rw [hrun, hs]
      exact ⟨⟨fun _ => ⟨[], inside, op, ops, s, rfl, rfl, h1.mp hs⟩, fun _ => rfl⟩, fun e => by cases e⟩
    | diverge => exact (h2 hs).elim
    | mismatch =>
      rw [hs] at h1
      rw [hrun, hs]
      refine ⟨⟨fun e => (by cases e), ?_⟩, fun e => by cases e⟩
      rintro ⟨before, i, o, after, s', e, hr, hp⟩
      rcases first e hr hp with hp | ⟨_, _, e1, _⟩
      · cases h1.mpr hp
      · rw [hs] at e1; cases e1
    | ill =>
      rw [hs] at h1
      rw [hrun, hs]
      refine ⟨⟨fun e => (by cases e), ?_⟩, fun e => by cases e⟩
      rintro ⟨before, i, o, after, s', e, hr, hp⟩
      rcases first e hr hp with hp | ⟨_, _, e1, _⟩
      · cases h1.mpr hp
      · rw [hs] at e1; cases e1

end

/-! ## Concrete cases -/

section examples

attribute [local instance] sampleCompiler sampleTables sampleTables_lawful

private def panics {σ : Type} : Out (State σ) → Bool
  | .panic => true
  | _ => false

private def runs {σ : Type} : Out (State σ) → Bool
  | .ok _ => true
  | _ => false

/-- C95: a program that comes to `Span::unwrap` outside of a macro. -/
private def program : List (Bool × Op) :=
  [(false, .fromStr "a (b)".toList), (false, .intoIter 0), (false, .next 1), (false, .span 2), (false, .unwrap 3)]

example : LiveRun (State.init : State Deferred) program ∧ (∀ x ∈ program, CText x.2) ∧
    panics (Wrap.run (State.init : State Deferred) program) = true ∧
    ∃ s, Wrap.run (State.init : State Deferred) (program.take 4) = .ok s ∧
      Panics false (textsOf [] (program.take 4)) s (.unwrap 3) := by
  refine ⟨liveRun_of ?_ _, ?_, by decide +kernel, _, rfl, ⟨⟨1, 2⟩, ?_⟩⟩
  · intro x hx s
    simp only [program, List.mem_cons, List.not_mem_nil, or_false] at hx
    rcases hx with rfl | rfl | rfl | rfl | rfl <;> first | trivial | (show List.length _ < _; decide +kernel)
  · simp [program, CText]
  · with_unfolding_all rfl

/-- C95: other calls that panic, and the same calls with other arguments. -/
example : panics (Wrap.run (State.init : State Deferred) [(false, .punctNew 'a' .alone)]) = true ∧
    runs (Wrap.run (State.init : State Deferred) [(false, .punctNew '\'' .alone)]) = true ∧
    panics (Wrap.run (State.init : State Deferred) [(false, .callSite), (false, .identNewRaw "self".toList 0)]) = true ∧
    runs (Wrap.run (State.init : State Deferred) [(false, .callSite), (false, .identNew "self".toList 0)]) = true ∧
    panics (Wrap.run (State.init : State Deferred) [(true, .invalidate)]) = true ∧
    runs (Wrap.run (State.init : State Deferred) [(false, .invalidate)]) = true := by
  refine ⟨?_, ?_, ?_, ?_, ?_, ?_⟩ <;> decide +kernel

/-- C95: the condition on invalidation is needed. -/
example : panics (Wrap.run (State.init : State Deferred)
    [(false, .literalFromStr ['1']), (false, .span 0), (false, .invalidate), (false, .start 1)]) = true := by
  decide +kernel

end examples

end PM2.Props
