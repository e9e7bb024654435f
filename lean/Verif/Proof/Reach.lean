import Verif.Proof.Trivia
import Verif.Proof.Shift
/-!
# The state of the lexer at a position of the text

The state in which the lexer reaches a position does not depend on the text after the position, as long
as that text does not continue the last token.
-/

set_option linter.unusedSectionVars false

namespace PM2
open Spec

section
variable [UnicodeTables] [LawfulUnicode]

/-! ### Truncation -/

theorem P.literal_trunc {s w r : List Char} (h : P.Bd w) (hl : P.literal (s ++ w) = some (r ++ w)) :
    P.literal s = some r := by
  rcases literal_shape' hl with ⟨x, m, e, hq, e2⟩ | ⟨d, u, e, hd⟩
  · obtain ⟨suf, h1, -⟩ := literalSuffix_spec m
    rw [← e2] at h1
    have e3 : s = x ++ (suf ++ r) := by
      apply List.append_cancel_right (bs := w)
      rw [e, h1]; simp
    have h4 : P.literalSuffix (suf ++ r) = r := by
      apply List.append_cancel_right (bs := w)
      rw [← P.literalSuffix_ext h.lit, e2, h1, List.append_assoc]
    rw [e3, literal_quoted hq, h4]
  · cases s with
    | nil =>
      simp at e
      subst e
      have := h.head.2.2.1
      have h1 := charLe.mp hd.1; have h2 := charLe.mp hd.2
      exact absurd ⟨h1, h2⟩ this
    | cons c s =>
      simp at e
      obtain ⟨rfl, rfl⟩ := e
      rw [P.literal_digit hd]
      rw [List.cons_append, P.literal_digit hd, ← List.cons_append, P.float_ext h.lit, P.int_ext h.lit] at hl
      cases hf : P.float (c :: s) with
      | some y => rw [hf] at hl; simp at hl; subst hl; rfl
      | none =>
        rw [hf] at hl
        simp at hl
        rw [hl]; rfl

theorem P.leaf_trunc {s w r : List Char} {l : P.Leaf} (h : P.Bd w)
    (hs : s.getLast? = some '/' → ∀ w', w ≠ '/' :: w') (hl : P.leaf (s ++ w) = some (l, r ++ w)) :
    P.leaf s = some (l, r) := by
  have hnone : P.literal (s ++ w) = none → P.literal s = none := by
    intro h1
    cases h2 : P.literal s with
    | none => rfl
    | some y => rw [P.literal_ext h.lit h2] at h1; simp at h1
  unfold P.leaf at hl ⊢
  cases h1 : P.literal (s ++ w) with
  | some r1 =>
    rw [h1] at hl
    simp at hl
    obtain ⟨rfl, rfl⟩ := hl
    rw [P.literal_trunc h h1]
    have hsuf := (P.literal_suffix (P.literal_trunc h h1)).1
    obtain ⟨x, rfl⟩ := hsuf
    simp only [List.append_assoc, P.eaten_append]
  | none =>
    rw [h1] at hl
    simp only at hl
    rw [hnone h1]
    simp only
    rw [P.punct_ext h hs] at hl
    cases h2 : P.punct s with
    | some y =>
      obtain ⟨c, sp, r2⟩ := y
      rw [h2] at hl
      simp at hl
      obtain ⟨rfl, rfl⟩ := hl
      rfl
    | none =>
      rw [h2] at hl
      simp only [Option.map_none] at hl
      rw [P.ident_ext h] at hl
      cases h3 : P.ident s with
      | some y =>
        obtain ⟨sym, raw, r2⟩ := y
        rw [h3] at hl
        simp at hl
        obtain ⟨rfl, rfl⟩ := hl
        rfl
      | none =>
        rw [h3] at hl
        simp only [Option.map_none] at hl
        split at hl
        · rename_i he
          obtain ⟨v, hv⟩ := startsWith_iff.mp he
          simp at hl
          obtain ⟨rfl, h4⟩ := hl
          have hv' : v = r ++ w := by
            have : List.drop errorRepr.length (s ++ w) = v := by rw [hv]; simp
            rw [← this]
            simpa using h4
          have e : s = errorRepr ++ r := by
            apply List.append_cancel_right (bs := w)
            rw [hv, hv']; simp
          subst e
          simp only
          rw [if_pos (startsWith_iff.mpr ⟨r, rfl⟩)]
          simp
        · simp at hl

/-! ### The next item, with a different continuation -/

/-- The text `w` after `a` does not continue the last token of `a`. -/
structure P.Sep (a w : List Char) : Prop where
  bd : P.Bd w
  slash : a.getLast? = some '/' → ∀ w', w ≠ '/' :: w'
  err : ∀ u v, errorRepr = u ++ v → u ≠ [] → v ≠ [] → u <:+ a → ¬ v <+: w

theorem P.Sep.suffix {a s w : List Char} (h : P.Sep a w) (hs : s <:+ a) : P.Sep s w := by
  refine ⟨h.bd, ?_, fun u v e hu hv hus => h.err u v e hu hv (hus.trans hs)⟩
  intro hl
  obtain ⟨b, rfl⟩ := hs
  exact h.slash (by rw [List.getLast?_append, hl]; rfl)

/-- line comments that end before `w1` also end before `w` -/
def P.LineOk (w1 w : List Char) : Prop := LineEnd w1 → LineEnd w ∧ (w = [] → w1 = [])

theorem P.next_of_open {c : Char} {d : Delimiter} {r : List Char} (h : P.openD (c :: r) c = some d) :
    P.next (c :: r) = .opn d (c :: r) r := by
  have : isWhitespace c = false ∧ c ≠ '/' := by
    rcases P.openD_cases h with ⟨rfl, -⟩ | ⟨rfl, -⟩ | ⟨rfl, -⟩ <;> exact ⟨by decide, by decide⟩
  obtain ⟨h1, h2⟩ := this
  obtain ⟨-, g2, g3⟩ := P.no_trivia (r := r) h1 h2
  unfold P.next P.next1
  rw [g3, g2]
  simp only [h]

theorem P.next_of_doc {x r content : List Char} {inner : Bool} (h : DocText x r inner content)
    (hb : NoBareCr content) : P.next (x ++ r) = .doc content inner (x ++ r) r := by
  have h1 := triv1_isDoc (DocText.isDoc' h)
  have h2 : P.skipWs (x ++ r) = x ++ r := by rw [P.skipWs_eq, h1]
  unfold P.next P.next1 P.doc
  rw [h2, DocText.contents h]
  simp only [P.noBareCr_complete hb, if_true]

theorem P.openD_replace {c : Char} {r w1 w : List Char} {d : Delimiter} (h : P.Sep (c :: r) w)
    (ho : P.openD (c :: r ++ w1) c = some d) : P.openD (c :: r ++ w) c = some d := by
  unfold P.openD at ho ⊢
  split at ho
  · rename_i hc
    simp at hc
    obtain ⟨rfl, hc⟩ := hc
    rw [if_pos]
    · exact ho
    · simp only [decide_true, Bool.true_and, Bool.not_eq_true', startsWith_false_iff]
      intro hp
      rw [← List.cons_append, startsWith_false_iff] at hc
      have hpre : '(' :: r <+: errorRepr ∨ errorRepr <+: '(' :: r := by
        exact List.prefix_or_prefix_of_prefix (List.prefix_append _ _) hp
      rcases hpre with ⟨v, hv⟩ | hpre
      · by_cases hv' : v = []
        · subst hv'
          simp at hv
          exact hc (by rw [← hv]; exact List.prefix_append _ _)
        · refine h.err ('(' :: r) v hv.symm (by simp) hv' (List.suffix_refl _) ?_
          rw [← hv] at hp
          exact (List.prefix_append_right_inj _).mp hp
      · exact hc (hpre.trans (List.prefix_append _ _))
  · rename_i hc
    have hc' : c ≠ '(' := by
      rintro rfl
      simp at ho
    rw [if_neg (by simp [hc'])]
    exact ho

/-- suffixes of `s ++ w` at least as long as `w` -/
theorem suffix_split {s w r : List Char} (h : r <:+ s ++ w) (hl : w.length ≤ r.length) :
    ∃ r0, r = r0 ++ w ∧ r0 <:+ s := by
  obtain ⟨a, e⟩ := h
  have := List.append_eq_append_iff.mp e
  rcases this with ⟨b, h1, h2⟩ | ⟨b, h1, h2⟩
  · exact ⟨b, h2, ⟨a, h1.symm⟩⟩
  · subst h2
    have hb : b = [] := by
      apply List.eq_nil_of_length_eq_zero
      simp at hl; omega
    subst hb
    exact ⟨[], by simp, List.nil_suffix⟩

/-- the item at the head of a text, moved to another continuation -/
def P.Next.map (f : List Char → List Char) : P.Next → P.Next
  | .doc c i s r => .doc c i (f s) (f r)
  | .opn d s r => .opn d (f s) (f r)
  | .cls d s r => .cls d (f s) (f r)
  | .leaf l s r => .leaf l (f s) (f r)
  | .eof => .eof
  | .bad s => .bad (f s)

theorem P.next_replace {s w1 w : List Char} (h1 : P.Sep s w1) (h2 : P.Sep s w)
    (hl : P.LineOk w1 w) :
    (∀ {content inner s1 r}, P.next (s ++ w1) = .doc content inner (s1 ++ w1) (r ++ w1) →
      P.next (s ++ w) = .doc content inner (s1 ++ w) (r ++ w)) ∧
    (∀ {d s1 r}, P.next (s ++ w1) = .opn d (s1 ++ w1) (r ++ w1) →
      P.next (s ++ w) = .opn d (s1 ++ w) (r ++ w)) ∧
    (∀ {d s1 r}, P.next (s ++ w1) = .cls d (s1 ++ w1) (r ++ w1) →
      P.next (s ++ w) = .cls d (s1 ++ w) (r ++ w)) ∧
    (∀ {l s1 r}, P.next (s ++ w1) = .leaf l (s1 ++ w1) (r ++ w1) →
      P.next (s ++ w) = .leaf l (s1 ++ w) (r ++ w)) := by
  -- trivia before the item
  have htriv : ∀ {s1}, s1 ++ w1 = P.skipWs (s ++ w1) → s1 ≠ [] →
      s1 <:+ s ∧ P.next (s ++ w) = P.next (s1 ++ w) := by
    intro s1 e hne
    obtain ⟨t, e1, ht⟩ := P.skipWs_spec (s ++ w1)
    rw [← e] at e1 ht
    have e2 : s = t ++ s1 := by
      apply List.append_cancel_right (bs := w1)
      rw [e1]; simp
    refine ⟨⟨t, e2.symm⟩, ?_⟩
    have ht' : Trivia t (s1 ++ w) := by
      refine ht.replace ?_
      cases s1 with
      | nil => exact absurd rfl hne
      | cons c s1 =>
        rintro (h | ⟨_, h⟩)
        · simp at h
        · simp at h; exact .inr ⟨s1 ++ w, by simp [h.1]⟩
    rw [← P.next_skipWs (s ++ w), e2, List.append_assoc, P.skipWs_trivia ht', P.next_skipWs]
  have hne : ∀ {s1 r : List Char}, (r ++ w1).length < (s1 ++ w1).length → s1 ≠ [] := by
    intro s1 r h; rintro rfl; simp at h; omega
  refine ⟨?_, ?_, ?_, ?_⟩
  · intro content inner s1 r hn
    have hf := P.next1_suffix (P.skipWs (s ++ w1))
    have hd := P.next_doc hn
    unfold P.next at hn
    rw [hn] at hf
    obtain ⟨e, -, hlt⟩ := hf
    obtain ⟨hs, en⟩ := htriv e (by rw [← e] at hlt; exact hne hlt)
    have ht1 : P.triv1 (s1 ++ w1) = none := by rw [e]; exact P.triv1_skipWs _
    obtain ⟨x, e1, hdt, hcr⟩ := P.doc_spec (P.triv1_none_doc ht1) hd
    have e2 : s1 = x ++ r := by
      apply List.append_cancel_right (bs := w1)
      rw [e1]; simp
    subst e2
    have hdt' : DocText x (r ++ w) inner content := by
      refine DocText.replace hdt hcr ?_
      cases r with
      | nil => exact hl
      | cons c r =>
        rintro (h | ⟨_, h⟩)
        · simp at h
        · simp at h; exact ⟨.inr ⟨r ++ w, by simp [h.1]⟩, by simp⟩
    rw [en, List.append_assoc]
    exact P.next_of_doc hdt' hcr
  · intro d s1 r hn
    have hf := P.next1_suffix (P.skipWs (s ++ w1))
    obtain ⟨-, c, e1, ho⟩ := P.next_opn hn
    unfold P.next at hn
    rw [hn] at hf
    obtain ⟨e, -, hlt⟩ := hf
    obtain ⟨hs, en⟩ := htriv e (by rw [← e] at hlt; exact hne hlt)
    have e2 : s1 = c :: r := by
      apply List.append_cancel_right (bs := w1)
      rw [e1]; simp
    subst e2
    rw [en]
    exact P.next_of_open (P.openD_replace (h2.suffix hs) ho)
  · intro d s1 r hn
    have hf := P.next1_suffix (P.skipWs (s ++ w1))
    obtain ⟨c, e1, ho⟩ := P.next_cls hn
    unfold P.next at hn
    rw [hn] at hf
    obtain ⟨e, -, hlt⟩ := hf
    obtain ⟨hs, en⟩ := htriv e (by rw [← e] at hlt; exact hne hlt)
    have e2 : s1 = c :: r := by
      apply List.append_cancel_right (bs := w1)
      rw [e1]; simp
    subst e2
    rw [en]
    exact P.next_of_close ho
  · intro l s1 r hn
    have hf := P.next1_suffix (P.skipWs (s ++ w1))
    obtain ⟨ho, -⟩ := P.next_leaf hn
    unfold P.next at hn
    rw [hn] at hf
    obtain ⟨e, -, hlt⟩ := hf
    obtain ⟨hs, en⟩ := htriv e (by rw [← e] at hlt; exact hne hlt)
    rw [en]
    have hs1 := h1.suffix hs
    have hs2 := h2.suffix hs
    exact P.next_of_leaf (P.leaf_ext hs2.bd hs2.slash (P.leaf_trunc hs1.bd hs1.slash ho))

end

section
variable [UnicodeTables]

/-! ### Runs -/

inductive P.Steps (E : Nat) : P.St → P.St → Prop
  | refl {st} : Steps E st st
  | step {st st' st''} : P.step E st = .ok (.inl st') → Steps E st' st'' → Steps E st st''

theorem P.Steps.trans {E : Nat} {a b c : P.St} (h : P.Steps E a b) (h' : P.Steps E b c) :
    P.Steps E a c := by
  induction h with
  | refl => exact h'
  | step h _ ih => exact .step h (ih h')

theorem P.Steps.suffix {E : Nat} {a b : P.St} (h : P.Steps E a b) : b.rest <:+ a.rest := by
  induction h with
  | refl => exact List.suffix_refl _
  | step h _ ih => exact ih.trans (P.step_lt h).1

theorem P.Steps.run {E : Nat} {a b : P.St} (h : P.Steps E a b) : ∀ fuel, a.rest.length < fuel →
    ∃ fuel', b.rest.length < fuel' ∧ P.run E fuel a = P.run E fuel' b := by
  induction h with
  | refl => exact fun fuel hf => ⟨fuel, hf, rfl⟩
  | step h _ ih =>
    intro fuel hf
    cases fuel with
    | zero => omega
    | succ fuel =>
      obtain ⟨f', h1, h2⟩ := ih fuel (by have := (P.step_lt h).2; omega)
      exact ⟨f', h1, by rw [← h2]; simp only [P.run, h]⟩

/-- The lexer runs through the whole of a big-step derivation. -/
theorem P.Lex.steps {E : Nat} {s q : List Char} {ts : List TokenTree} (h : P.Lex E s ts q) :
    ∀ (toks : List TokenTree) (stack : List Frame),
      ∃ q', P.Steps E ⟨s, toks, stack⟩ ⟨q', toks ++ ts, stack⟩ ∧ P.skipWs q' = q := by
  induction h with
  | @eof s hn =>
    intro toks stack
    refine ⟨s, by simp; exact .refl, ?_⟩
    have := P.next_facts s
    rw [hn] at this
    exact this
  | @cls s d s1 r hn =>
    intro toks stack
    refine ⟨s, by simp; exact .refl, ?_⟩
    have := P.next_facts s
    rw [hn] at this
    exact this.1.symm
  | doc hn _ ih =>
    intro toks stack
    obtain ⟨q', h1, h2⟩ := ih (toks ++ P.docTokens _ _ _) stack
    refine ⟨q', .step ?_ (by rw [← List.append_assoc]; exact h1), h2⟩
    simp only [P.step, hn]
  | leaf hn _ ih =>
    intro toks stack
    obtain ⟨q', h1, h2⟩ := ih (toks ++ [P.Leaf.tok _ _]) stack
    refine ⟨q', .step ?_ (by simpa using h1), h2⟩
    simp only [P.step, hn]
  | @group s d s1 r inner c r1 ts q hn _ hc _ ih1 ih2 =>
    intro toks stack
    obtain ⟨q1, h1, h2⟩ := ih1 [] (⟨E - s1.length, d, toks⟩ :: stack)
    obtain ⟨q2, h3, h4⟩ := ih2 (toks ++ [.group d inner ⟨E - s1.length, E - r1.length⟩]) stack
    refine ⟨q2, .step (st' := ⟨r, [], ⟨E - s1.length, d, toks⟩ :: stack⟩) ?_ (h1.trans (.step (st' := ⟨r1, toks ++ [.group d inner ⟨E - s1.length, E - r1.length⟩], stack⟩) ?_ (by simpa using h3))), h4⟩
    · simp only [P.step, hn]
    · have : P.next q1 = .cls d (c :: r1) r1 := by
        rw [← P.next_skipWs, h2]; exact P.next_of_close hc
      simp [P.step, this]

/-- The lexer reaches every group of the result (other than doc attributes) at its opening
delimiter. -/
theorem P.Lex.reach {E : Nat} {s q : List Char} {ts : List TokenTree} (h : P.Lex E s ts q)
    {d : Delimiter} {inner : List TokenTree} {span : Span} (ht : Sub (.group d inner span) ts)
    (hd : d ≠ .bracket) : ∀ (toks : List TokenTree) (stack : List Frame),
      ∃ s' toks' stack' s1 r, P.Steps E ⟨s, toks, stack⟩ ⟨s', toks', stack'⟩ ∧
        P.next s' = .opn d s1 r ∧ span.lo = E - s1.length ∧
        ∃ c r1, P.Lex E r inner (c :: r1) ∧ P.closeD c = some d := by
  have hnil : ∀ {tok}, ¬ Sub tok ([] : List TokenTree) := by
    intro tok h
    cases h with
    | here h => simp at h
    | inside h _ => simp at h
  have hdoc : ∀ content inner' sp rest, Sub (.group d inner span) (P.docTokens content inner' sp ++ rest) →
      Sub (.group d inner span) rest := by
    intro content inner' sp rest hs
    cases hs with
    | here hm =>
      rcases List.mem_append.mp hm with hm | hm
      · exfalso
        unfold P.docTokens at hm
        cases inner' <;> simp at hm <;> exact hd hm.1
      · exact .here hm
    | inside hm hi =>
      rcases List.mem_append.mp hm with hm | hm
      · exfalso
        unfold P.docTokens at hm
        have : ∀ {l}, Sub (.group d inner span) l → (∀ x ∈ l, ∀ d i s, x ≠ .group d i s) → False := by
          intro l hl hall
          cases hl with
          | here h => exact hall _ h _ _ _ rfl
          | inside h _ => exact hall _ h _ _ _ rfl
        cases inner' <;> simp at hm <;> (obtain ⟨rfl, rfl, rfl⟩ := hm) <;>
          exact this hi (by simp)
      · exact .inside hm hi
  induction h with
  | eof => exact absurd ht hnil
  | cls => exact absurd ht hnil
  | @doc s content inner s0 r0 ts q hn _ ih =>
    intro toks stack
    obtain ⟨s', toks', stack', s1, r, h1, h2⟩ := ih (hdoc _ _ _ _ ht)
      (toks ++ P.docTokens content inner ⟨E - s0.length, E - r0.length⟩) stack
    exact ⟨s', toks', stack', s1, r, .step (by simp only [P.step, hn]) h1, h2⟩
  | @leaf s l s0 r0 ts q hn _ ih =>
    intro toks stack
    have ht' : Sub (.group d inner span) ts := by
      cases ht with
      | here hm =>
        rcases List.mem_cons.mp hm with hm | hm
        · cases l <;> simp [P.Leaf.tok] at hm
        · exact .here hm
      | inside hm hi =>
        rcases List.mem_cons.mp hm with hm | hm
        · cases l <;> simp [P.Leaf.tok] at hm
        · exact .inside hm hi
    obtain ⟨s', toks', stack', s1, r, h1, h2⟩ := ih ht'
      (toks ++ [P.Leaf.tok ⟨E - s0.length, E - r0.length⟩ l]) stack
    exact ⟨s', toks', stack', s1, r, .step (by simp only [P.step, hn]) h1, h2⟩
  | @group s d' s1 r inner' c r1 ts q hn hin hc hrest ih1 ih2 =>
    intro toks stack
    have later : Sub (.group d inner span) ts →
        ∃ s' toks' stack' s1 r, P.Steps E ⟨s, toks, stack⟩ ⟨s', toks', stack'⟩ ∧
        P.next s' = .opn d s1 r ∧ span.lo = E - s1.length ∧
        ∃ c r1, P.Lex E r inner (c :: r1) ∧ P.closeD c = some d := by
      intro ht
      obtain ⟨s', toks', stack', s1', r', h1, h2⟩ := ih2 ht
        (toks ++ [.group d' inner' ⟨E - s1.length, E - r1.length⟩]) stack
      obtain ⟨q1, h3, h4⟩ := hin.steps [] (⟨E - s1.length, d', toks⟩ :: stack)
      refine ⟨s', toks', stack', s1', r', .step (by simp only [P.step, hn]) (h3.trans (.step ?_ h1)), h2⟩
      have : P.next q1 = .cls d' (c :: r1) r1 := by
        rw [← P.next_skipWs, h4]; exact P.next_of_close hc
      simp [P.step, this]
    have insd : Sub (.group d inner span) inner' →
        ∃ s' toks' stack' s1 r, P.Steps E ⟨s, toks, stack⟩ ⟨s', toks', stack'⟩ ∧
        P.next s' = .opn d s1 r ∧ span.lo = E - s1.length ∧
        ∃ c r1, P.Lex E r inner (c :: r1) ∧ P.closeD c = some d := by
      intro ht
      obtain ⟨s', toks', stack', s1', r', h1, h2⟩ := ih1 ht [] (⟨E - s1.length, d', toks⟩ :: stack)
      exact ⟨s', toks', stack', s1', r', .step (by simp only [P.step, hn]) h1, h2⟩
    cases ht with
    | here hm =>
      rcases List.mem_cons.mp hm with hm | hm
      · simp at hm
        obtain ⟨rfl, rfl, rfl⟩ := hm
        exact ⟨s, toks, stack, s1, r, .refl, hn, rfl, c, r1, hin, hc⟩
      · exact later (.here hm)
    | inside hm hi =>
      rcases List.mem_cons.mp hm with hm | hm
      · simp at hm
        obtain ⟨rfl, rfl, rfl⟩ := hm
        exact insd hi
      · exact later (.inside hm hi)

end

section
variable [UnicodeTables] [LawfulUnicode]

/-- The run to a position is the same whatever follows. -/
theorem P.Steps.replace {a w1 w : List Char} {E E' : Nat} (h1 : P.Sep a w1) (h2 : P.Sep a w)
    (hl : P.LineOk w1 w) (hE : E + w.length = E' + w1.length) {st st' : P.St}
    (h : P.Steps E st st') : ∀ {s f : List Char}, st.rest = s ++ w1 → st'.rest = f ++ w1 → s <:+ a →
    P.Steps E' ⟨s ++ w, st.tokens, st.stack⟩ ⟨f ++ w, st'.tokens, st'.stack⟩ := by
  have pos : ∀ x : List Char, E - (x ++ w1).length = E' - (x ++ w).length := by
    intro x; simp; omega
  induction h with
  | @refl st =>
    intro s f e1 e2 _
    have : s = f := List.append_cancel_right (e1.symm.trans e2)
    subst this
    exact .refl
  | @step st st1 st2 hstep hrest ih =>
    intro s f e1 e2 hs
    obtain ⟨hsuf, -⟩ := P.step_lt hstep
    have hsuf2 := hrest.suffix
    rw [e1] at hsuf
    have hlen : w1.length ≤ st1.rest.length := by
      have := hsuf2.length_le; rw [e2] at this; simp at this; omega
    obtain ⟨r, er, hr⟩ := suffix_split hsuf hlen
    have ih' := ih er e2 (hr.trans hs)
    obtain ⟨g1, g2, g3, g4⟩ := P.next_replace (h1.suffix hs) (h2.suffix hs) hl
    have hf := P.next_facts st.rest
    have hsk : ∀ {s1 : List Char}, s1 = P.skipWs st.rest → st1.rest <:+ st.rest →
        st1.rest.length ≤ s1.length → ∃ s2, s1 = s2 ++ w1 := by
      intro s1 he _ hlt
      have hx := P.skipWs_suffix st.rest
      rw [← he, e1] at hx
      obtain ⟨s2, h, -⟩ := suffix_split hx (by omega)
      exact ⟨s2, h⟩
    unfold P.step at hstep
    cases hn : P.next st.rest with
    | doc content inner s1 r' =>
      have hn1 := P.next1_suffix (P.skipWs st.rest)
      have hn2 := hn
      unfold P.next at hn2
      rw [hn2] at hn1
      obtain ⟨e, -, hlt⟩ := hn1
      rw [hn] at hstep hf
      simp at hstep
      subst hstep
      simp only at er ih' hsk
      subst er
      obtain ⟨s2, rfl⟩ := hsk e hf.2.1 (by rw [e]; omega)
      rw [e1] at hn
      refine .step ?_ ih'
      simp only [P.step, g1 hn, pos]
    | eof =>
      rw [hn] at hstep
      cases hst : st.stack <;> rw [hst] at hstep <;> simp at hstep
    | opn d s1 r' =>
      have hn1 := P.next1_suffix (P.skipWs st.rest)
      have hn2 := hn
      unfold P.next at hn2
      rw [hn2] at hn1
      obtain ⟨e, -, hlt⟩ := hn1
      rw [hn] at hstep hf
      simp at hstep
      subst hstep
      simp only at er ih' hsk
      subst er
      obtain ⟨s2, rfl⟩ := hsk e hf.2.1 (by rw [e]; omega)
      rw [e1] at hn
      refine .step ?_ ih'
      simp only [P.step, g2 hn, pos]
    | cls d s1 r' =>
      have hn1 := P.next1_suffix (P.skipWs st.rest)
      have hn2 := hn
      unfold P.next at hn2
      rw [hn2] at hn1
      obtain ⟨e, -, hlt⟩ := hn1
      rw [hn] at hstep hf
      cases hst : st.stack with
      | nil => rw [hst] at hstep; simp at hstep
      | cons fr stk =>
        rw [hst] at hstep
        simp only at hstep
        split at hstep
        · simp at hstep
        · rename_i hd
          simp at hstep
          subst hstep
          simp only at er ih' hsk
          subst er
          obtain ⟨s2, rfl⟩ := hsk e hf.2.1 (by rw [e]; omega)
          rw [e1] at hn
          refine .step ?_ ih'
          simp only [P.step, g3 hn, if_neg hd, pos]
    | leaf l s1 r' =>
      have hn1 := P.next1_suffix (P.skipWs st.rest)
      have hn2 := hn
      unfold P.next at hn2
      rw [hn2] at hn1
      obtain ⟨e, -, hlt⟩ := hn1
      rw [hn] at hstep hf
      simp at hstep
      subst hstep
      simp only at er ih' hsk
      subst er
      obtain ⟨s2, rfl⟩ := hsk e hf.2.1 (by rw [e]; omega)
      rw [e1] at hn
      refine .step ?_ ih'
      simp only [P.step, g4 hn, pos]
    | bad s1 => rw [hn] at hstep; simp at hstep

end
end PM2
