import Verif.Proof.Refine6
import Verif.Spec.Lexical
/-! # Big-step semantics of the token stream machine -/

set_option linter.unusedSectionVars false

namespace PM2

section
variable [UnicodeTables]

/-- `Lex E s ts q`: from the remaining text `s`, the tokens `ts` are produced up to the closing
delimiter or end of text at `q`. `E` is the position of the end of the source. -/
inductive P.Lex (E : Nat) : List Char → List TokenTree → List Char → Prop
  | eof {s} : P.next s = .eof → Lex E s [] []
  | cls {s d s1 r} : P.next s = .cls d s1 r → Lex E s [] s1
  | doc {s content inner s1 r ts q} : P.next s = .doc content inner s1 r → Lex E r ts q →
      Lex E s (P.docTokens content inner ⟨E - s1.length, E - r.length⟩ ++ ts) q
  | leaf {s l s1 r ts q} : P.next s = .leaf l s1 r → Lex E r ts q →
      Lex E s (l.tok ⟨E - s1.length, E - r.length⟩ :: ts) q
  | group {s d s1 r inner c r1 ts q} : P.next s = .opn d s1 r → Lex E r inner (c :: r1) →
      P.closeD c = some d → Lex E r1 ts q →
      Lex E s (.group d inner ⟨E - s1.length, E - r1.length⟩ :: ts) q

theorem P.skipWs_idem (s : List Char) : P.skipWs (P.skipWs s) = P.skipWs s := by
  rw [P.skipWs_eq (P.skipWs s), P.triv1_skipWs]

theorem P.next_skipWs (s : List Char) : P.next (P.skipWs s) = P.next s := by
  unfold P.next; rw [P.skipWs_idem]

/-- the facts about `next`, seen from the text before the trivia -/
theorem P.next_facts (s : List Char) :
    match P.next s with
    | .doc _ _ s1 r => s1 = P.skipWs s ∧ r <:+ s ∧ r.length < s.length
    | .opn _ s1 r => s1 = P.skipWs s ∧ r <:+ s ∧ r.length < s.length
    | .cls _ s1 r => s1 = P.skipWs s ∧ r <:+ s ∧ r.length < s.length
    | .leaf _ s1 r => s1 = P.skipWs s ∧ r <:+ s ∧ r.length < s.length
    | .eof => P.skipWs s = []
    | .bad s1 => s1 = P.skipWs s := by
  have h := P.next1_suffix (P.skipWs s)
  have hs := P.skipWs_suffix s
  have hl := hs.length_le
  unfold P.next
  cases hn : P.next1 (P.skipWs s) with
  | doc content inner s1 r => rw [hn] at h; exact ⟨h.1, h.2.1.trans hs, by have := h.2.2; omega⟩
  | opn d s1 r => rw [hn] at h; exact ⟨h.1, h.2.1.trans hs, by have := h.2.2; omega⟩
  | cls d s1 r => rw [hn] at h; exact ⟨h.1, h.2.1.trans hs, by have := h.2.2; omega⟩
  | leaf l s1 r => rw [hn] at h; exact ⟨h.1, h.2.1.trans hs, by have := h.2.2; omega⟩
  | eof => rw [hn] at h; exact h
  | bad s1 => rw [hn] at h; exact h

theorem P.next_cls {s : List Char} {d : Delimiter} {s1 r : List Char}
    (h : P.next s = .cls d s1 r) : ∃ c, s1 = c :: r ∧ P.closeD c = some d := by
  unfold P.next P.next1 at h
  generalize P.skipWs s = s0 at h
  cases hd : P.doc s0 with
  | some x => rw [hd] at h; simp at h
  | none =>
    rw [hd] at h
    cases s0 with
    | nil => simp at h
    | cons c r' =>
      simp only at h
      cases ho : P.openD (c :: r') c with
      | some d' => rw [ho] at h; simp at h
      | none =>
        rw [ho] at h
        simp only at h
        cases hc : P.closeD c with
        | some d' =>
          rw [hc] at h
          simp at h; obtain ⟨rfl, rfl, rfl⟩ := h
          exact ⟨c, rfl, hc⟩
        | none => rw [hc] at h; simp only at h; split at h <;> simp at h

theorem P.next_opn {s : List Char} {d : Delimiter} {s1 r : List Char}
    (h : P.next s = .opn d s1 r) : P.doc s1 = none ∧ ∃ c, s1 = c :: r ∧ P.openD s1 c = some d := by
  unfold P.next P.next1 at h
  generalize P.skipWs s = s0 at h
  cases hd : P.doc s0 with
  | some x => rw [hd] at h; simp at h
  | none =>
    rw [hd] at h
    cases s0 with
    | nil => simp at h
    | cons c r' =>
      simp only at h
      cases ho : P.openD (c :: r') c with
      | some d' =>
        rw [ho] at h
        simp at h; obtain ⟨rfl, rfl, rfl⟩ := h
        exact ⟨hd, c, rfl, ho⟩
      | none =>
        rw [ho] at h
        simp only at h
        cases hc : P.closeD c with
        | some d' => rw [hc] at h; simp at h
        | none => rw [hc] at h; simp only at h; split at h <;> simp at h

theorem P.next_leaf {s : List Char} {l : P.Leaf} {s1 r : List Char}
    (h : P.next s = .leaf l s1 r) : P.leaf s1 = some (l, r) ∧ P.doc s1 = none ∧
      ∃ c s2, s1 = c :: s2 ∧ P.openD s1 c = none ∧ P.closeD c = none := by
  unfold P.next P.next1 at h
  generalize P.skipWs s = s0 at h
  cases hd : P.doc s0 with
  | some x => rw [hd] at h; simp at h
  | none =>
    rw [hd] at h
    cases s0 with
    | nil => simp at h
    | cons c r' =>
      simp only at h
      cases ho : P.openD (c :: r') c with
      | some d' => rw [ho] at h; simp at h
      | none =>
        rw [ho] at h
        simp only at h
        cases hc : P.closeD c with
        | some d' => rw [hc] at h; simp at h
        | none =>
          rw [hc] at h
          simp only at h
          cases hl : P.leaf (c :: r') with
          | none => rw [hl] at h; simp at h
          | some x =>
            obtain ⟨l', r''⟩ := x
            rw [hl] at h
            simp at h; obtain ⟨rfl, rfl, rfl⟩ := h
            exact ⟨hl, hd, c, r', rfl, ho, hc⟩

theorem P.next_doc {s content : List Char} {inner : Bool} {s1 r : List Char}
    (h : P.next s = .doc content inner s1 r) : P.doc s1 = some (content, inner, r) := by
  unfold P.next P.next1 at h
  generalize P.skipWs s = s0 at h
  cases hd : P.doc s0 with
  | some x =>
    obtain ⟨c', i', r'⟩ := x
    rw [hd] at h; simp at h
    obtain ⟨rfl, rfl, rfl, rfl⟩ := h; exact hd
  | none =>
    rw [hd] at h
    simp only at h
    split at h
    · simp at h
    · split at h
      · simp at h
      · split at h
        · simp at h
        · split at h <;> simp at h

theorem P.Lex.suffix {E : Nat} {s q : List Char} {ts : List TokenTree} (h : P.Lex E s ts q) :
    q <:+ s := by
  induction h with
  | @eof s hn => exact List.nil_suffix
  | @cls s d s1 r hn =>
    have := P.next_facts s
    rw [hn] at this
    rw [this.1]; exact P.skipWs_suffix s
  | @doc s content inner s1 r ts q hn _ ih =>
    have := P.next_facts s
    rw [hn] at this
    exact ih.trans this.2.1
  | @leaf s l s1 r ts q hn _ ih =>
    have := P.next_facts s
    rw [hn] at this
    exact ih.trans this.2.1
  | @group s d s1 r inner c r1 ts q hn _ _ _ ih1 ih2 =>
    have := P.next_facts s
    rw [hn] at this
    exact ((ih2.trans (List.suffix_cons _ _)).trans ih1).trans this.2.1

/-- what is left when a stream ends: nothing or a closing delimiter -/
theorem P.Lex.stop {E : Nat} {s q : List Char} {ts : List TokenTree} (h : P.Lex E s ts q) :
    q = [] ∨ ∃ c r d, q = c :: r ∧ P.closeD c = some d := by
  induction h with
  | eof hn => exact .inl rfl
  | cls hn =>
    obtain ⟨c, h1, h2⟩ := P.next_cls hn
    exact .inr ⟨c, _, _, h1, h2⟩
  | doc hn _ ih => exact ih
  | leaf hn _ ih => exact ih
  | group hn _ _ _ ih1 ih2 => exact ih2

theorem P.closeD_cases {c : Char} {d : Delimiter} (h : P.closeD c = some d) :
    (c = ')' ∧ d = .parenthesis) ∨ (c = ']' ∧ d = .bracket) ∨ (c = '}' ∧ d = .brace) := by
  unfold P.closeD at h
  split at h
  · simp at h; exact .inl ⟨‹_›, h.symm⟩
  · split at h
    · simp at h; exact .inr (.inl ⟨‹_›, h.symm⟩)
    · split at h
      · simp at h; exact .inr (.inr ⟨‹_›, h.symm⟩)
      · simp at h

theorem P.openD_cases {s : List Char} {c : Char} {d : Delimiter} (h : P.openD s c = some d) :
    (c = '(' ∧ d = .parenthesis) ∨ (c = '[' ∧ d = .bracket) ∨ (c = '{' ∧ d = .brace) := by
  unfold P.openD at h
  split at h
  · rename_i hc; simp at h hc; exact .inl ⟨hc.1, h.symm⟩
  · split at h
    · simp at h; exact .inr (.inl ⟨‹_›, h.symm⟩)
    · split at h
      · simp at h; exact .inr (.inr ⟨‹_›, h.symm⟩)
      · simp at h

/-- no trivia and no doc comment at a character that is neither whitespace nor a slash -/
theorem P.no_trivia {c : Char} {r : List Char} (h1 : isWhitespace c = false) (h2 : c ≠ '/') :
    P.triv1 (c :: r) = none ∧ P.doc (c :: r) = none ∧ P.skipWs (c :: r) = c :: r := by
  have ht : P.triv1 (c :: r) = none := by
    simp [P.triv1, h1, h2]
  refine ⟨ht, ?_, by rw [P.skipWs_eq, ht]⟩
  simp [P.doc, P.docContents, h2]

theorem P.next_of_close {c : Char} {d : Delimiter} {r : List Char} (h : P.closeD c = some d) :
    P.next (c :: r) = .cls d (c :: r) r := by
  have : isWhitespace c = false ∧ c ≠ '/' ∧ P.openD (c :: r) c = none := by
    rcases P.closeD_cases h with ⟨rfl, -⟩ | ⟨rfl, -⟩ | ⟨rfl, -⟩ <;>
      exact ⟨by decide, by decide, by simp [P.openD]⟩
  obtain ⟨h1, h2, h3⟩ := this
  obtain ⟨-, g2, g3⟩ := P.no_trivia (r := r) h1 h2
  unfold P.next P.next1
  rw [g3, g2]
  simp only [h3, h]

/-! ### The machine computes the big-step relation -/

inductive P.Unwind (E : Nat) : List Char → List TokenTree → List Frame → List TokenTree → Prop
  | done {ts} : Unwind E [] ts [] ts
  | pop {c r f ts ts' q stack res} : P.closeD c = some f.delim → Lex E r ts' q →
      Unwind E q (f.outer ++ [.group f.delim ts ⟨f.lo, E - r.length⟩] ++ ts') stack res →
      Unwind E (c :: r) ts (f :: stack) res

theorem P.run_sound (E : Nat) : ∀ (fuel : Nat) (s : List Char) (toks : List TokenTree)
    (stack : List Frame) (res : List TokenTree), P.run E fuel ⟨s, toks, stack⟩ = .ok res →
    ∃ ts q, P.Lex E s ts q ∧ P.Unwind E q (toks ++ ts) stack res := by
  intro fuel
  induction fuel with
  | zero => intro s toks stack res h; simp [P.run] at h
  | succ fuel ih =>
    intro s toks stack res h
    unfold P.run P.step at h
    cases hn : P.next s with
    | doc content inner s1 r =>
      simp only [hn] at h
      obtain ⟨ts, q, h1, h2⟩ := ih _ _ _ _ h
      exact ⟨_, q, .doc hn h1, by rw [← List.append_assoc]; exact h2⟩
    | eof =>
      simp only [hn] at h
      cases stack with
      | nil =>
        simp at h; subst h
        exact ⟨[], [], .eof hn, by simp; exact .done⟩
      | cons f stack => simp at h
    | opn d s1 r =>
      simp only [hn] at h
      obtain ⟨ts, q, h1, h2⟩ := ih _ _ _ _ h
      cases h2 with
      | pop hc hl hu =>
        refine ⟨_, _, .group hn h1 hc hl, ?_⟩
        simpa using hu
    | cls d s1 r =>
      simp only [hn] at h
      obtain ⟨c, e, hc⟩ := P.next_cls hn
      cases stack with
      | nil => simp at h
      | cons f stack =>
        simp only at h
        split at h
        · rename_i hcond; split at hcond <;> simp at hcond
          rename_i hd
          obtain ⟨ts, q, h1, h2⟩ := ih _ _ _ _ (by rw [hcond]; exact h)
          refine ⟨[], s1, .cls hn, ?_⟩
          rw [e]
          have : d = f.delim := by rw [Decidable.not_not] at hd; exact hd.symm
          subst this
          exact .pop hc h1 (by simpa using h2)
        · rename_i hcond; split at hcond <;> simp at hcond
        · simp at h
        · simp at h
        · simp at h
    | leaf l s1 r =>
      simp only [hn] at h
      obtain ⟨ts, q, h1, h2⟩ := ih _ _ _ _ h
      exact ⟨_, q, .leaf hn h1, by simpa using h2⟩
    | bad s1 => simp [hn] at h

theorem P.run_complete {E : Nat} {s q : List Char} {ts : List TokenTree} (h : P.Lex E s ts q) :
    ∀ (toks : List TokenTree) (stack : List Frame) (fuel : Nat), s.length < fuel →
      ∃ fuel', q.length < fuel' ∧
        P.run E fuel ⟨s, toks, stack⟩ = P.run E fuel' ⟨q, toks ++ ts, stack⟩ := by
  induction h with
  | @eof s hn =>
    intro toks stack fuel hf
    refine ⟨fuel, by simp; omega, ?_⟩
    cases fuel with
    | zero => omega
    | succ fuel =>
      have hn' : P.next [] = .eof := by
        have h := P.next_facts s
        rw [hn] at h
        rw [← h, P.next_skipWs, hn]
      simp only [P.run, P.step, hn, hn', List.append_nil]
  | @cls s d s1 r hn =>
    intro toks stack fuel hf
    have h := P.next_facts s
    rw [hn] at h
    have hl := (P.skipWs_suffix s).length_le
    refine ⟨fuel, by rw [h.1]; omega, ?_⟩
    cases fuel with
    | zero => omega
    | succ fuel =>
      have hn' : P.next s1 = .cls d s1 r := by rw [h.1, P.next_skipWs, hn, h.1]
      simp only [P.run, P.step, hn, hn', List.append_nil]
  | @doc s content inner s1 r ts q hn _ ih =>
    intro toks stack fuel hf
    have h := P.next_facts s
    rw [hn] at h
    cases fuel with
    | zero => omega
    | succ fuel =>
      obtain ⟨fuel', h1, h2⟩ := ih (toks ++ P.docTokens content inner ⟨E - s1.length, E - r.length⟩)
        stack fuel (by omega)
      refine ⟨fuel', h1, ?_⟩
      simp only [P.run, P.step, hn]
      rw [h2, List.append_assoc]
  | @leaf s l s1 r ts q hn _ ih =>
    intro toks stack fuel hf
    have h := P.next_facts s
    rw [hn] at h
    cases fuel with
    | zero => omega
    | succ fuel =>
      obtain ⟨fuel', h1, h2⟩ := ih (toks ++ [l.tok ⟨E - s1.length, E - r.length⟩])
        stack fuel (by omega)
      refine ⟨fuel', h1, ?_⟩
      simp only [P.run, P.step, hn]
      rw [h2, List.append_assoc]
      rfl
  | @group s d s1 r inner c r1 ts q hn hin hc _ ih1 ih2 =>
    intro toks stack fuel hf
    have h := P.next_facts s
    rw [hn] at h
    cases fuel with
    | zero => omega
    | succ fuel =>
      obtain ⟨f1, g1, g2⟩ := ih1 [] (⟨E - s1.length, d, toks⟩ :: stack) fuel (by omega)
      cases f1 with
      | zero => omega
      | succ f1 =>
        simp at g1
        obtain ⟨f2, g3, g4⟩ := ih2 (toks ++ [.group d inner ⟨E - s1.length, E - r1.length⟩]) stack f1
          (by omega)
        refine ⟨f2, g3, ?_⟩
        have hcn := P.next_of_close (r := r1) hc
        simp only [P.run, P.step, hn]
        rw [g2]
        simp only [P.run, P.step, hcn]
        simp only [ne_eq, not_true_eq_false, if_false, List.nil_append]
        rw [g4, List.append_assoc]
        rfl

/-- The machine accepts exactly the texts with a complete big-step derivation. -/
theorem P.run_ok_iff {E fuel : Nat} {s : List Char} {ts : List TokenTree} (hf : s.length < fuel) :
    P.run E fuel ⟨s, [], []⟩ = .ok ts ↔ P.Lex E s ts [] := by
  constructor
  · intro h
    obtain ⟨ts', q, h1, h2⟩ := P.run_sound E fuel s [] [] ts h
    cases h2
    exact h1
  · intro h
    obtain ⟨fuel', h1, h2⟩ := P.run_complete h [] [] fuel hf
    rw [h2]
    cases fuel' with
    | zero => simp at h1
    | succ fuel' =>
      have hn : P.next [] = .eof := by
        have e : P.skipWs [] = [] := List.eq_nil_of_suffix_nil (P.skipWs_suffix [])
        unfold P.next
        rw [e]
        rfl
      simp [P.run, P.step, hn]

theorem fromStrAt_ok_iff {src : List Char} {off : Nat} (hb : off + src.length < u32Size)
    {ts : List TokenTree} :
    fromStrAt src off = .ok ts ↔ P.Lex (off + src.length) (P.stripBom src) ts [] := by
  rw [fromStrAt_eq hb, P.run_ok_iff (by omega)]

end
end PM2
