import Verif.Proof.Reach
import Verif.Proof.History
import Verif.Spec.Context
/-! # The lexer at a position between tokens -/

set_option linter.unusedSectionVars false

namespace PM2
open Spec

section
variable [UnicodeTables]

theorem P.Steps.shift {E : Nat} (k : Nat) {a b : P.St} (h : P.Steps E a b) (hl : a.rest.length ≤ E) :
    P.Steps (E + k) (a.shift k) (b.shift k) := by
  induction h with
  | refl => exact .refl
  | step h _ ih =>
    have h1 := P.step_rest h
    have h2 := P.step_shift k _ hl
    rw [h] at h2
    exact .step h2 (ih (by omega))

theorem closeD_closers {c : Char} : c ∈ closers ↔ ∃ d, P.closeD c = some d := by
  constructor
  · intro h
    simp [closers] at h
    rcases h with rfl | rfl | rfl <;> exact ⟨_, rfl⟩
  · rintro ⟨d, h⟩
    rcases P.closeD_cases h with ⟨rfl, -⟩ | ⟨rfl, -⟩ | ⟨rfl, -⟩ <;> decide

/-- closing delimiters are accepted only if they match the stack -/
theorem P.run_closers {E : Nat} : ∀ {fuel : Nat} {cl : List Char} {toks : List TokenTree}
    {stack : List Frame} {ts : List TokenTree}, (∀ c ∈ cl, c ∈ closers) →
    P.run E fuel ⟨cl, toks, stack⟩ = .ok ts →
    cl.map P.closeD = stack.map fun f => some f.delim := by
  intro fuel
  induction fuel with
  | zero => intro cl toks stack ts _ h; simp [P.run] at h
  | succ fuel ih =>
    intro cl toks stack ts hc h
    cases cl with
    | nil =>
      have hn : P.next [] = .eof := by
        have e : P.skipWs [] = [] := List.eq_nil_of_suffix_nil (P.skipWs_suffix [])
        unfold P.next; rw [e]; rfl
      cases stack with
      | nil => rfl
      | cons f stack => simp [P.run, P.step, hn] at h
    | cons c cl =>
      obtain ⟨d, hd⟩ := closeD_closers.mp (hc c (by simp))
      have hn := P.next_of_close (r := cl) hd
      cases stack with
      | nil => simp [P.run, P.step, hn] at h
      | cons f stack =>
        simp only [P.run, P.step, hn] at h
        by_cases hf : f.delim = d
        · simp only [hf, ne_eq, not_true_eq_false, if_false] at h
          have := ih (fun c hm => hc c (by simp [hm])) h
          simp [this, hd, hf]
        · simp [hf] at h

/-- What a run does with the tokens collected so far. -/
theorem P.Unwind.level {E : Nat} {q : List Char} {ts res : List TokenTree} {stack : List Frame}
    (h : P.Unwind E q ts stack res) : ∃ post, Level (ts ++ post) res := by
  have key : ∀ {q ts stack res}, P.Unwind E q ts stack res → Level ts res := by
    intro q ts stack res h
    induction h with
    | done => exact .top
    | pop hc hl _ ih =>
      generalize hl : _ ++ [TokenTree.group _ _ _] ++ _ = l at ih
      have hm : ∀ {a b : List TokenTree}, Level a b → ∀ {x y z}, .group x y z ∈ a → Level y b := by
        intro a b hab
        induction hab with
        | top => intro x y z hm; exact .inside hm .top
        | inside hm' _ ih => intro x y z hm; exact .inside hm' (ih hm)
      exact hm ih (by rw [← hl]; simp; exact .inr (.inl ⟨rfl, rfl⟩))
  exact ⟨[], by simpa using key h⟩

theorem P.run_level {E fuel : Nat} {s : List Char} {toks res : List TokenTree} {stack : List Frame}
    (h : P.run E fuel ⟨s, toks, stack⟩ = .ok res) : ∃ post, Level (toks ++ post) res := by
  obtain ⟨ts, q, -, h2⟩ := P.run_sound E fuel s toks stack res h
  obtain ⟨post, h3⟩ := h2.level
  exact ⟨ts ++ post, by simpa using h3⟩

/-! ### Runs modulo spans -/

def Frame.erase (f : Frame) : Frame := ⟨0, f.delim, Spec.erase f.outer⟩

theorem erase_append (a b : List TokenTree) : Spec.erase (a ++ b) = Spec.erase a ++ Spec.erase b :=
  mapSpan_append _ a b

theorem erase_doc (content : List Char) (inner : Bool) (s s' : Span) :
    Spec.erase (P.docTokens content inner s) = Spec.erase (P.docTokens content inner s') := by
  cases inner <;> rfl

theorem erase_leaf (l : P.Leaf) (s s' : Span) :
    Spec.erase [l.tok s] = Spec.erase [l.tok s'] := by
  cases l <;> rfl

theorem erase_group (d : Delimiter) {ts ts' : List TokenTree} (h : Spec.erase ts = Spec.erase ts')
    (s s' : Span) : Spec.erase [.group d ts s] = Spec.erase [.group d ts' s'] := by
  simp only [Spec.erase, mapSpan, mapSpanTree] at h ⊢
  rw [h]

theorem P.run_erase {E E' : Nat} : ∀ (fuel : Nat) (s : List Char) (toks toks' : List TokenTree)
    (stack stack' : List Frame), s.length < fuel → Spec.erase toks = Spec.erase toks' →
    stack.map Frame.erase = stack'.map Frame.erase →
    SameRes (P.run E fuel ⟨s, toks, stack⟩) (P.run E' fuel ⟨s, toks', stack'⟩) := by
  intro fuel
  induction fuel with
  | zero => intro s toks toks' stack stack' h; omega
  | succ fuel ih =>
    intro s toks toks' stack stack' hf ht hs
    have hfacts := P.next_facts s
    simp only [P.run, P.step]
    cases hn : P.next s with
    | doc content inner s1 r =>
      rw [hn] at hfacts
      refine ih _ _ _ _ _ (by omega) ?_ hs
      simp only [erase_append, ht]
      rw [erase_doc]
    | eof =>
      cases stack with
      | nil =>
        cases stack' with
        | nil => exact .ok ht
        | cons f' stack' => simp at hs
      | cons f stack =>
        cases stack' with
        | nil => simp at hs
        | cons f' stack' => exact .err
    | opn d s1 r =>
      rw [hn] at hfacts
      refine ih _ _ _ _ _ (by omega) rfl ?_
      simp only [List.map_cons, Frame.erase, ht]
      simpa using hs
    | cls d s1 r =>
      rw [hn] at hfacts
      cases stack with
      | nil =>
        cases stack' with
        | nil => exact .err
        | cons f' stack' => simp at hs
      | cons f stack =>
        cases stack' with
        | nil => simp at hs
        | cons f' stack' =>
          simp only [List.map_cons, List.cons.injEq, Frame.erase, StackEntry.mk.injEq, true_and] at hs
          obtain ⟨⟨h1, h2⟩, h3⟩ := hs
          simp only [h1]
          by_cases hd : f'.delim = d
          · simp only [hd, ne_eq, not_true_eq_false, if_false]
            refine ih _ _ _ _ _ (by omega) ?_ h3
            simp only [erase_append, h2]
            rw [erase_group d ht]
          · simp only [ne_eq, hd, not_false_eq_true, if_true]
            exact .err
    | leaf l s1 r =>
      rw [hn] at hfacts
      refine ih _ _ _ _ _ (by omega) ?_ hs
      simp only [erase_append, ht]
      rw [erase_leaf]
    | bad s1 => exact .err

end

section
variable [UnicodeTables] [LawfulUnicode]

theorem stripBom_append {a w : List Char} (hw : a = [] → ∀ w', w ≠ '\ufeff' :: w') :
    P.stripBom (a ++ w) = P.stripBom a ++ w := by
  cases a with
  | nil =>
    cases w with
    | nil => rfl
    | cons c w =>
      have : c ≠ '\ufeff' := by rintro rfl; exact hw rfl w rfl
      simp [P.stripBom, startsWith, this.symm]
  | cons c a =>
    unfold P.stripBom
    have : startsWith (c :: a ++ w) ['\ufeff'] = startsWith (c :: a) ['\ufeff'] := by
      rw [Bool.eq_iff_iff, startsWith_iff_prefix, startsWith_iff_prefix]
      simp
    rw [this]
    split <;> simp

/-- **Context.** At a position between tokens the lexer is in a fixed state, up to trivia. -/
theorem Spec.Between.reach {a cl : List Char} (h : Between a cl) :
    ∃ (f : List Char) (toks : List TokenTree) (stack : List Frame), (cl.map P.closeD = stack.map fun f => some f.delim) ∧
      ∀ w, P.Sep a w → (a = [] → ∀ w', w ≠ '\ufeff' :: w') → ∀ k,
        Trivia f w ∧
        P.Steps (1 + k + (a ++ w).length) ⟨P.stripBom (a ++ w), [], []⟩
          ⟨f ++ w, shift k toks, stack.map (Frame.shift k)⟩ := by
  obtain ⟨hcl, hroom, ts, inner, span, hok, hsub, hlo⟩ := h
  obtain ⟨e, -, -, -, hb⟩ := History.init.fromStr hroom
  have hbase : base [] ([] : List (List Char)).length = 1 := rfl
  rw [hbase] at e hb
  rw [e] at hok
  have hlex := (fromStrAt_ok_iff hb).mp hok
  have hw1 : P.stripBom (a ++ '(' :: ')' :: cl) = P.stripBom a ++ '(' :: ')' :: cl :=
    stripBom_append (by intro _ w'; simp)
  rw [hw1] at hlex
  obtain ⟨s', toks, stack, s1, r, hsteps, hn, hlo', -⟩ := hlex.reach hsub (by decide) [] []
  have hfacts := P.next_facts s'
  rw [hn] at hfacts
  obtain ⟨hs1, -, -⟩ := hfacts
  have hsuf' := hsteps.suffix
  simp only at hsuf'
  have hsuf : s1 <:+ P.stripBom a ++ '(' :: ')' :: cl := by
    rw [hs1]; exact (P.skipWs_suffix s').trans hsuf'
  have hla : (P.stripBom a).length ≤ a.length := by unfold P.stripBom; split <;> simp
  have hlen : s1.length = ('(' :: ')' :: cl).length := by
    have h1 := hsuf.length_le
    have h2 := (P.next_opn hn).2
    obtain ⟨c, h2, -⟩ := h2
    rw [hlo] at hlo'
    rw [h2] at h1 hlo' ⊢
    simp at h1 hlo' ⊢
    omega
  have es1 : s1 = '(' :: ')' :: cl := by
    obtain ⟨x, hx⟩ := hsuf
    exact (List.append_inj' hx hlen).2
  obtain ⟨f, ef, hft⟩ := P.skipWs_spec s'
  rw [← hs1, es1] at ef hft
  -- the stack
  have hstack : cl.map P.closeD = stack.map fun f => some f.delim := by
    rw [← P.run_ok_iff (fuel := (P.stripBom a ++ '(' :: ')' :: cl).length + 1) (by simp)] at hlex
    obtain ⟨fuel', hf1, hf2⟩ := hsteps.run ((P.stripBom a ++ '(' :: ')' :: cl).length + 1) (by simp)
    rw [hf2] at hlex
    cases fuel' with
    | zero => simp [P.run] at hlex
    | succ fuel' =>
      rw [es1] at hn
      have hr : r = ')' :: cl := by
        obtain ⟨-, c, h2, -⟩ := P.next_opn hn
        simp at h2; exact h2.2.symm
      subst hr
      simp only [P.run, P.step, hn] at hlex
      have := P.run_closers (cl := ')' :: cl) (by
        intro c hc
        rcases List.mem_cons.mp hc with rfl | hc
        · decide
        · exact hcl c hc) hlex
      simp at this
      exact this.2
  refine ⟨f, toks, stack, hstack, ?_⟩
  intro w hsep hbom k
  have hne : ¬ LineEnd ('(' :: ')' :: cl) := by
    rintro (h | ⟨_, h⟩) <;> simp at h
  refine ⟨hft.replace fun h => absurd h hne, ?_⟩
  have hsep1 : P.Sep a ('(' :: ')' :: cl) := by
    refine ⟨?_, by simp, ?_⟩
    · rintro c w' e
      simp at e
      obtain ⟨rfl, -⟩ := e
      refine ⟨?_, by decide, .inl (by decide)⟩
      show xidContinue '(' = false
      rw [LawfulUnicode.continue_ascii _ (by decide)]; decide
    · intro u v e hu hv _ hp
      cases v with
      | nil => exact hv rfl
      | cons d v =>
        simp at hp
        obtain ⟨rfl, -⟩ := hp
        cases u with
        | nil => exact hu rfl
        | cons x u =>
          have : '(' ∈ errorRepr.tail := by rw [e]; simp
          exact absurd this (by decide)
  have hasuf : P.stripBom a <:+ a := by
    unfold P.stripBom
    split
    · exact List.drop_suffix _ _
    · exact List.suffix_refl _
  have hs2 := hsteps.replace (E' := 1 + (a ++ w).length) hsep1 hsep (fun h => absurd h hne)
    (by simp; omega) (s := P.stripBom a) (f := f) rfl ef hasuf
  have hs3 := hs2.shift k (by simp; omega)
  rw [stripBom_append hbom]
  have e3 : 1 + (a ++ w).length + k = 1 + k + (a ++ w).length := by omega
  rw [e3] at hs3
  exact hs3

/-! ### Texts that cannot continue a token -/

theorem errorText_eq : errorText = errorRepr := rfl

theorem continue_false {c : Char} (h : c.toNat < 128) (h' : (c.isAlphanum || c == '_') = false) :
    isIdentContinue c = false := by
  show xidContinue c = false
  rw [LawfulUnicode.continue_ascii _ h, h']

theorem bd_close {c : Char} (h : c ∈ closers) (w : List Char) : P.Bd (c :: w) := by
  rintro d w' e
  simp at e
  obtain ⟨rfl, -⟩ := e
  simp [closers] at h
  rcases h with rfl | rfl | rfl <;>
    exact ⟨continue_false (by decide) (by decide), by decide, .inl (by decide)⟩

theorem bd_comment {w : List Char} (h : ['/', '/'] <+: w ∨ ['/', '*'] <+: w) : P.Bd w := by
  rintro d w' rfl
  have hd : d = '/' := by
    rcases h with h | h <;> simp at h <;> exact h.1.symm
  subst hd
  exact ⟨continue_false (by decide) (by decide), by decide, .inr h⟩

theorem bd_ws {c : Char} (h : isWhitespace c = true) (w : List Char) : P.Bd (c :: w) := by
  rintro d w' e
  simp at e
  obtain ⟨rfl, -⟩ := e
  refine ⟨?_, ?_, .inl ?_⟩
  · show xidContinue c = false
    cases hx : xidContinue c with
    | false => rfl
    | true =>
      have := LawfulUnicode.continue_not_ws c hx
      rw [this] at h; simp at h
  · rintro rfl; exact absurd h (by decide)
  · intro hm
    have : ∀ c ∈ recognizedPunct, isWhitespace c = false := by decide
    rw [this c hm] at h; simp at h

theorem bd_nil : P.Bd [] := by intro c w e; simp at e

/-- Trivia ends every token. -/
theorem bd_trivia {t r : List Char} (h : Trivia t r) (hne : t ≠ []) : P.Bd (t ++ r) := by
  cases h with
  | nil => exact absurd rfl hne
  | ws hc _ => exact bd_ws hc _
  | line => exact bd_comment (.inl ⟨_, by simp; rfl⟩)
  | block hb _ _ =>
    obtain ⟨u, rfl, -⟩ := hb
    exact bd_comment (.inr ⟨_, by simp; rfl⟩)

theorem next_bad_comment {w : List Char} (hw : ['/', '/'] <+: w ∨ ['/', '*'] <+: w)
    (ht : P.triv1 w = none) (hd : P.doc w = none) : P.next w = .bad w := by
  have hsk : P.skipWs w = w := by rw [P.skipWs_eq, ht]
  unfold P.next P.next1
  rw [hsk, hd]
  obtain ⟨u, rfl⟩ : ∃ u, w = '/' :: u := by
    rcases hw with ⟨u, rfl⟩ | ⟨u, rfl⟩ <;> exact ⟨_, rfl⟩
  have hleaf : P.leaf ('/' :: u) = none := by
    cases hl : P.leaf ('/' :: u) with
    | none => rfl
    | some x =>
      obtain ⟨l, r⟩ := x
      obtain ⟨c, v, e, hc⟩ := P.leaf_head hl
      simp at e
      obtain ⟨rfl, rfl⟩ := e
      rcases hc with hc | hc | hc | hc | hc | hc | hc | hc | hc
      · exact absurd hc (by decide)
      · exact absurd hc (by decide)
      · exact absurd hc (by decide)
      · exact absurd hc (by decide)
      · exact absurd hc (by decide)
      · exact absurd rfl (identStart_leaf hc).2.1
      · exact absurd hc (by decide)
      · rcases hw with hw | hw
        · exact absurd hw (startsWith_false_iff.mp hc.2.1)
        · exact absurd hw (startsWith_false_iff.mp hc.2.2)
      · obtain ⟨v, hv⟩ := startsWith_iff.mp hc
        simp [errorRepr] at hv
  simp [P.openD, P.closeD, hleaf]

theorem fromStr_run {sm : SourceMap} {texts : List (List Char)} (h : History sm texts)
    {src : List Char} (hr : Room texts src) : ∃ k, base texts texts.length = 1 + k ∧
    (TokenStream.fromStr sm src).2 =
      P.run (1 + k + src.length) ((P.stripBom src).length + 1) ⟨P.stripBom src, [], []⟩ := by
  obtain ⟨e, -, -, -, hb⟩ := h.fromStr hr
  refine ⟨base texts texts.length - 1, by unfold base; omega, ?_⟩
  rw [e, fromStrAt_eq hb]
  have : base texts texts.length = 1 + (base texts texts.length - 1) := by unfold base; omega
  rw [← this]

theorem P.run_skip {E fuel : Nat} {s : List Char} {toks : List TokenTree} {stack : List Frame} :
    P.run E fuel ⟨P.skipWs s, toks, stack⟩ = P.run E fuel ⟨s, toks, stack⟩ := by
  cases fuel with
  | zero => rfl
  | succ fuel => simp only [P.run, P.step, P.next_skipWs]

theorem P.run_fuel {E : Nat} : ∀ {fuel fuel' : Nat} {st : P.St}, st.rest.length < fuel →
    st.rest.length < fuel' → P.run E fuel st = P.run E fuel' st := by
  intro fuel
  induction fuel with
  | zero => intro fuel' st h; omega
  | succ fuel ih =>
    intro fuel' st h h'
    cases fuel' with
    | zero => omega
    | succ fuel' =>
      simp only [P.run]
      cases hs : P.step E st with
      | ok x =>
        cases x with
        | inl st' =>
          have := P.step_rest hs
          exact ih (by omega) (by omega)
        | inr ts => rfl
      | err e => rfl
      | panic => rfl
      | diverge => rfl

/-- The parse continues from the state at the position. -/
theorem Spec.Between.run {a cl : List Char} (h : Between a cl) :
    ∃ (toks : List TokenTree) (stack : List Frame),
      (cl.map P.closeD = stack.map fun f => some f.delim) ∧
      ∀ w, P.Sep a w → (a = [] → ∀ w', w ≠ '\ufeff' :: w') →
      ∀ {sm : SourceMap} {texts : List (List Char)}, History sm texts → Room texts (a ++ w) →
      ∃ k, base texts texts.length = 1 + k ∧
        (TokenStream.fromStr sm (a ++ w)).2 =
          P.run (1 + k + (a ++ w).length) (w.length + 1)
            ⟨P.skipWs w, shift k toks, stack.map (Frame.shift k)⟩ := by
  obtain ⟨f, toks, stack, hst, hall⟩ := h.reach
  refine ⟨toks, stack, hst, ?_⟩
  intro w hsep hbom sm texts hh hr
  obtain ⟨k, hk, e⟩ := fromStr_run hh hr
  obtain ⟨ht, hs⟩ := hall w hsep hbom k
  obtain ⟨fuel, h1, h2⟩ := hs.run ((P.stripBom (a ++ w)).length + 1) (by simp)
  refine ⟨k, hk, ?_⟩
  have hl := (P.skipWs_suffix w).length_le
  have hl' := (P.skipWs_suffix (f ++ w)).length_le
  rw [e, h2, ← P.run_skip, P.skipWs_trivia ht] at *
  exact P.run_fuel (by simp only at h1 ⊢; omega) (by simp only; omega)

end
end PM2
