import Verif.Proof.Lexed
import Verif.Spec.ErrorAt
/-! # Where the lexer stops -/

set_option linter.unusedSectionVars false

namespace PM2
open Spec

section
variable [UnicodeTables] [LawfulUnicode]

/-! ### The run from a state, without fuel -/

/-- The outcome from a state. -/
def P.out (E : Nat) (s : List Char) (toks : List TokenTree) (stk : List Frame) : Res Span (List TokenTree) :=
  P.run E (s.length + 1) ⟨s, toks, stk⟩

theorem P.out_next {E : Nat} {s s' : List Char} (h : P.next s = P.next s') (toks : List TokenTree)
    (stk : List Frame) : P.out E s toks stk = P.out E s' toks stk := by
  have hs : P.step E ⟨s, toks, stk⟩ = P.step E ⟨s', toks, stk⟩ := by
    unfold P.step
    simp only [h]
  unfold P.out P.run
  rw [hs]
  cases hs' : P.step E ⟨s', toks, stk⟩ with
  | ok x =>
    cases x with
    | inl st' =>
      have h1 := P.step_rest hs'
      have h2 := P.step_rest (hs.trans hs')
      exact P.run_fuel h2 h1
    | inr ts => rfl
  | err e => rfl
  | panic => rfl
  | diverge => rfl

theorem P.out_trivia {E : Nat} {t s : List Char} (h : Trivia t s) (toks : List TokenTree) (stk : List Frame) :
    P.out E (t ++ s) toks stk = P.out E s toks stk := P.out_next (P.next_trivia h) toks stk

theorem P.out_step {E : Nat} {s : List Char} {toks : List TokenTree} {stk : List Frame} {st' : P.St}
    (h : P.step E ⟨s, toks, stk⟩ = .ok (.inl st')) : P.out E s toks stk = P.out E st'.rest st'.tokens st'.stack := by
  have := P.step_rest h
  show P.run E (s.length + 1) ⟨s, toks, stk⟩ = _
  rw [P.run, h]
  exact P.run_fuel this (Nat.lt_succ_self _)

theorem P.out_lexed {p : Nat} {s r : List Char} {ts : List TokenTree} (h : Lexed p s ts r) {E : Nat}
    (hE : E = p + (s.length + r.length)) (toks : List TokenTree) (stk : List Frame) :
    P.out E (s ++ r) toks stk = P.out E r (toks ++ ts) stk := by
  induction h generalizing E toks stk with
  | @nil p t r ht => rw [P.out_trivia ht, List.append_nil]
  | @leaf p t x s r tok ts ht hx hsp _ ih =>
    obtain ⟨l, hl, htok⟩ := P.leaf_iff.mpr ⟨x, rfl, hx⟩
    simp only [List.length_append] at hE
    have hn : P.next (x ++ (s ++ r)) = .leaf l (x ++ (s ++ r)) (s ++ r) := P.next_of_leaf hl
    have e1 : E - (x ++ (s ++ r)).length = p + t.length := by simp only [List.length_append]; omega
    have e2 : E - (s ++ r).length = p + t.length + x.length := by simp only [List.length_append]; omega
    have hs : P.step E ⟨x ++ (s ++ r), toks, stk⟩ = .ok (.inl ⟨s ++ r, toks ++ [tok], stk⟩) := by
      unfold P.step
      simp only [hn, e1, e2]
      rw [htok, hsp]
    rw [show t ++ x ++ s ++ r = t ++ (x ++ (s ++ r)) by simp, P.out_trivia (by simpa using ht), P.out_step hs]
    show P.out E (s ++ r) (toks ++ [tok]) stk = _
    rw [ih (by omega)]
    simp
  | @doc p t x s r inner content ts ht hx hb _ ih =>
    simp only [List.length_append] at hE
    have hn : P.next (x ++ (s ++ r)) = .doc content inner (x ++ (s ++ r)) (s ++ r) := P.next_of_doc hx hb
    have e1 : E - (x ++ (s ++ r)).length = p + t.length := by simp only [List.length_append]; omega
    have e2 : E - (s ++ r).length = p + t.length + x.length := by simp only [List.length_append]; omega
    have hs : P.step E ⟨x ++ (s ++ r), toks, stk⟩ = .ok (.inl ⟨s ++ r, toks ++
        docAttr content inner ⟨p + t.length, p + t.length + x.length⟩, stk⟩) := by
      unfold P.step
      simp only [hn, e1, e2, P.docTokens_eq]
    rw [show t ++ x ++ s ++ r = t ++ (x ++ (s ++ r)) by simp, P.out_trivia (by simpa using ht), P.out_step hs]
    show P.out E (s ++ r) _ stk = _
    rw [ih (by omega)]
    simp
  | @group p t o c body s r d inner ts ht hd he _ _ ih1 ih2 =>
    simp only [List.length_append, List.length_cons] at hE
    have hn : P.next (o :: (body ++ (c :: (s ++ r)))) =
        .opn d (o :: (body ++ (c :: (s ++ r)))) (body ++ (c :: (s ++ r))) :=
      P.next_of_open (openD_of hd (by simpa using he))
    have e1 : E - (o :: (body ++ (c :: (s ++ r)))).length = p + t.length := by
      simp only [List.length_append, List.length_cons]; omega
    have e2 : E - (s ++ r).length = p + t.length + 1 + body.length + 1 := by
      simp only [List.length_append]; omega
    have hs : P.step E ⟨o :: (body ++ (c :: (s ++ r))), toks, stk⟩ =
        .ok (.inl ⟨body ++ (c :: (s ++ r)), [], ⟨p + t.length, d, toks⟩ :: stk⟩) := by
      unfold P.step
      simp only [hn, e1]
    have hc : P.step E ⟨c :: (s ++ r), inner, ⟨p + t.length, d, toks⟩ :: stk⟩ =
        .ok (.inl ⟨s ++ r, toks ++ [.group d inner ⟨p + t.length, p + t.length + 1 + body.length + 1⟩], stk⟩) := by
      unfold P.step
      simp only [P.next_of_close (closeD_of hd), e2]
      simp
    rw [show t ++ o :: body ++ c :: s ++ r = t ++ o :: (body ++ (c :: (s ++ r))) by simp,
      P.out_trivia (by simpa using ht), P.out_step hs]
    show P.out E (body ++ (c :: (s ++ r))) [] _ = _
    have h1 := ih1 (E := E) (by simp only [List.length_append, List.length_cons]; omega) []
      (⟨p + t.length, d, toks⟩ :: stk)
    rw [show body ++ (c :: s ++ r) = body ++ (c :: (s ++ r)) by simp] at h1
    rw [h1]
    show P.out E (c :: (s ++ r)) ([] ++ inner) _ = _
    rw [List.nil_append, P.out_step hc]
    show P.out E (s ++ r) _ stk = _
    rw [ih2 (by omega)]
    simp

theorem P.out_opened {p : Nat} {s r : List Char} {opens : List (Delimiter × Nat)} (h : Opened p s opens r) {E : Nat}
    (hE : E = p + (s.length + r.length)) (toks : List TokenTree) (stk : List Frame) :
    ∃ toks' frames, frames.map (fun f => (f.delim, f.lo)) = opens ∧
      P.out E (s ++ r) toks stk = P.out E r toks' (frames ++ stk) := by
  induction h generalizing E toks stk with
  | none hl => exact ⟨_, [], rfl, P.out_lexed hl hE toks stk⟩
  | @opn p a ts o c b r d opens hl hd he _ ih =>
    simp only [List.length_append, List.length_cons] at hE
    have hn : P.next (o :: (b ++ r)) = .opn d (o :: (b ++ r)) (b ++ r) :=
      P.next_of_open (openD_of hd (by simpa using he))
    have e1 : E - (o :: (b ++ r)).length = p + a.length := by
      simp only [List.length_append, List.length_cons]; omega
    have hs : P.step E ⟨o :: (b ++ r), toks ++ ts, stk⟩ =
        .ok (.inl ⟨b ++ r, [], ⟨p + a.length, d, toks ++ ts⟩ :: stk⟩) := by
      unfold P.step
      simp only [hn, e1]
    obtain ⟨toks', frames, e, h⟩ := ih (E := E) (by omega) [] (⟨p + a.length, d, toks ++ ts⟩ :: stk)
    refine ⟨toks', frames ++ [⟨p + a.length, d, toks ++ ts⟩], by simp [e], ?_⟩
    have h1 := P.out_lexed hl (E := E) (by simp only [List.length_append, List.length_cons]; omega) toks stk
    rw [show a ++ o :: b ++ r = a ++ (o :: b ++ r) by simp, h1]
    rw [show o :: b ++ r = o :: (b ++ r) by simp, P.out_step hs]
    show P.out E (b ++ r) [] _ = _
    rw [h]
    simp

/-! ### Stopping -/

theorem P.skipWs_nothing {r : List Char} (h : NothingAt r) : P.skipWs r = r := by
  obtain ⟨t, e, ht⟩ := P.skipWs_spec r
  have := h.trivia t _ e ht
  subst this
  exact e.symm

theorem openD_delim {s : List Char} {o : Char} {d : Delimiter} (h : P.openD s o = some d) :
    ∃ c, delimChars d = some (o, c) := by
  rcases P.openD_cases h with ⟨rfl, rfl⟩ | ⟨rfl, rfl⟩ | ⟨rfl, rfl⟩ <;> exact ⟨_, rfl⟩

theorem closeD_delim {c : Char} {d : Delimiter} (h : P.closeD c = some d) : ∃ o, delimChars d = some (o, c) := by
  rcases P.closeD_cases h with ⟨rfl, rfl⟩ | ⟨rfl, rfl⟩ | ⟨rfl, rfl⟩ <;> exact ⟨_, rfl⟩

/-- Nothing is read exactly where the lexer fails. -/
theorem P.next_bad_iff {r : List Char} : P.next r = .bad r ↔ NothingAt r := by
  constructor
  · intro h
    have hf := P.next_facts r
    rw [h] at hf
    have hf : r = P.skipWs r := hf
    refine ⟨?_, ?_, ?_, ?_, ?_⟩
    · rintro rfl
      rw [P.next_nil] at h
      cases h
    · intro t r' e ht
      have h1 := P.skipWs_trivia ht
      rw [← e, ← hf] at h1
      have h2 := (P.skipWs_suffix r').length_le
      rw [← h1, e] at h2
      simp only [List.length_append] at h2
      exact List.eq_nil_of_length_eq_zero (by omega)
    · intro x r' inner content e hx hb
      rw [e, P.next_of_doc hx hb] at h
      cases h
    · intro tok x r' e hx
      obtain ⟨l, hl, -⟩ := P.leaf_iff.mpr ⟨x, rfl, hx⟩
      rw [e, P.next_of_leaf hl] at h
      cases h
    · intro d o c hd
      constructor
      · intro ho
        cases r with
        | nil => cases ho
        | cons o' r =>
          cases ho
          by_cases he : errorText <+: o :: r
          · obtain ⟨v, hv⟩ := he
            have : P.leaf (errorText ++ v) = some (.literal errorText, v) := leaf_error
            rw [← hv, P.next_of_leaf this] at h
            cases h
          · rw [P.next_of_open (openD_of hd he)] at h
            cases h
      · intro hc
        cases r with
        | nil => cases hc
        | cons c' r =>
          cases hc
          rw [P.next_of_close (closeD_of hd)] at h
          cases h
  · intro h
    have hw := P.skipWs_nothing h
    have hf := P.next_facts r
    have ht := P.triv1_skipWs r
    rw [hw] at ht hf
    cases hn : P.next r with
    | doc content inner s1 r1 =>
      rw [hn] at hf
      obtain ⟨rfl, -, -⟩ := hf
      obtain ⟨x, e, hx, hcr⟩ := P.doc_spec (P.triv1_none_doc ht) (P.next_doc hn)
      exact absurd hcr (h.doc _ _ _ _ e hx)
    | opn d s1 r1 =>
      rw [hn] at hf
      obtain ⟨rfl, -, -⟩ := hf
      obtain ⟨-, o, e, ho⟩ := P.next_opn hn
      obtain ⟨c, hd⟩ := openD_delim ho
      exact absurd (by rw [e]; rfl) (h.delim _ _ _ hd).1
    | cls d s1 r1 =>
      rw [hn] at hf
      obtain ⟨rfl, -, -⟩ := hf
      obtain ⟨c, e, hc⟩ := P.next_cls hn
      obtain ⟨o, hd⟩ := closeD_delim hc
      exact absurd (by rw [e]; rfl) (h.delim _ _ _ hd).2
    | leaf l s1 r1 =>
      rw [hn] at hf
      obtain ⟨rfl, -, -⟩ := hf
      obtain ⟨x, e, hx⟩ := P.leaf_iff.mp ⟨l, (P.next_leaf hn).1, (show l.tok ⟨0, 0⟩ =
        l.tok (l.tok ⟨0, 0⟩).span by cases l <;> rfl)⟩
      exact absurd hx (h.token _ _ _ e)
    | eof =>
      rw [hn] at hf
      exact absurd hf h.more
    | bad s1 =>
      rw [hn] at hf
      rw [show s1 = r from hf]

/-! ### Reading on -/

theorem Spec.Lexed.trivia {p : Nat} {t u r : List Char} {ts : List TokenTree} (h : Lexed (p + t.length) u ts r)
    (ht : Trivia t (u ++ r)) : Lexed p (t ++ u) ts r := by
  generalize hp : p + t.length = p' at h
  cases h with
  | nil h' => exact .nil (ht.append h')
  | @leaf _ v x s _ tok ts h1 h2 h3 h4 =>
    subst hp
    have a : p + t.length + v.length = p + (t ++ v).length := by rw [List.length_append]; omega
    rw [a] at h3 h4
    rw [show t ++ (v ++ x ++ s) = (t ++ v) ++ x ++ s by simp]
    exact .leaf (Trivia.append (by simpa using ht) h1) h2 h3 h4
  | @doc _ v x s _ inner content ts h1 h2 h3 h4 =>
    subst hp
    have a : p + t.length + v.length = p + (t ++ v).length := by rw [List.length_append]; omega
    rw [a] at h4 ⊢
    rw [show t ++ (v ++ x ++ s) = (t ++ v) ++ x ++ s by simp]
    exact .doc (Trivia.append (by simpa using ht) h1) h2 h3 h4
  | @group _ v o c body s _ d inner ts h1 h2 h3 h4 h5 =>
    subst hp
    have a : p + t.length + v.length = p + (t ++ v).length := by rw [List.length_append]; omega
    rw [a] at h4 h5 ⊢
    rw [show t ++ (v ++ o :: body ++ c :: s) = (t ++ v) ++ o :: body ++ c :: s by simp]
    exact .group (Trivia.append (by simpa using ht) h1) h2 h3 h4 h5

theorem Spec.Lexed.append {p : Nat} {s u r : List Char} {ts us : List TokenTree} (h : Lexed p s ts (u ++ r))
    (h' : Lexed (p + s.length) u us r) : Lexed p (s ++ u) (ts ++ us) r := by
  generalize e : u ++ r = w at h
  induction h with
  | nil ht => subst e; exact h'.trivia ht
  | @leaf p t x s r' tok ts h1 h2 h3 h4 ih =>
    subst e
    rw [show t ++ x ++ s ++ u = t ++ x ++ (s ++ u) by simp]
    refine .leaf (by simpa using h1) (by simpa using h2) h3 (ih ?_ rfl)
    rw [show p + t.length + x.length + s.length = p + (t ++ x ++ s).length by simp only [List.length_append]; omega]
    exact h'
  | @doc p t x s r' inner content ts h1 h2 h3 h4 ih =>
    subst e
    rw [show t ++ x ++ s ++ u = t ++ x ++ (s ++ u) by simp, List.append_assoc (docAttr _ _ _)]
    refine .doc (by simpa using h1) (by simpa using h2) h3 (ih ?_ rfl)
    rw [show p + t.length + x.length + s.length = p + (t ++ x ++ s).length by simp only [List.length_append]; omega]
    exact h'
  | @group p t o c body s r' d inner ts h1 h2 h3 h4 h5 _ ih =>
    subst e
    rw [show t ++ o :: body ++ c :: s ++ u = t ++ o :: body ++ c :: (s ++ u) by simp]
    refine .group (by simpa using h1) h2 (by simpa using h3) (by simpa using h4) (ih ?_ rfl)
    rw [show p + t.length + 1 + body.length + 1 + s.length = p + (t ++ o :: body ++ c :: s).length by
      simp only [List.length_append, List.length_cons]; omega]
    exact h'

theorem Spec.Opened.lexed {p : Nat} {s r u : List Char} {opens : List (Delimiter × Nat)} {us : List TokenTree}
    (h : Opened p s opens (u ++ r)) (h' : Lexed (p + s.length) u us r) : Opened p (s ++ u) opens r := by
  generalize e : u ++ r = w at h
  induction h with
  | none hl => subst e; exact .none (hl.append h')
  | @opn p a ts o c b r' d opens hl hd he _ ih =>
    subst e
    rw [show a ++ o :: b ++ u = a ++ o :: (b ++ u) by simp]
    refine .opn (by simpa using hl) hd (by simpa using he) (ih ?_ rfl)
    rw [show p + a.length + 1 + b.length = p + (a ++ o :: b).length by
      simp only [List.length_append, List.length_cons]; omega]
    exact h'

theorem Spec.Opened.opens {p : Nat} {s r : List Char} {o c : Char} {d : Delimiter} {opens : List (Delimiter × Nat)}
    (h : Opened p s opens (o :: r)) (hd : delimChars d = some (o, c)) (he : ¬ errorText <+: o :: r) :
    Opened p (s ++ [o]) ((d, p + s.length) :: opens) r := by
  generalize e : o :: r = w at h
  induction h with
  | none hl =>
    subst e
    exact .opn (opens := []) (by simpa using hl) hd (by simpa using he) (.none (.nil .nil))
  | @opn p a ts o' c' b r' d' opens hl hd' he' _ ih =>
    subst e
    have := ih rfl
    rw [show a ++ o' :: b ++ [o] = a ++ o' :: (b ++ [o]) by simp]
    rw [show p + (a ++ o' :: b).length = p + a.length + 1 + b.length by
      simp only [List.length_append, List.length_cons]; omega]
    rw [show ∀ x : Delimiter × Nat, x :: (opens ++ [(d', p + a.length)]) = (x :: opens) ++ [(d', p + a.length)] from
      fun _ => rfl]
    exact .opn (by simpa using hl) hd' (by simpa using he') this

theorem Spec.Opened.nil {p : Nat} {s r : List Char} (h : Opened p s [] r) : ∃ ts, Lexed p s ts r := by
  generalize e : ([] : List (Delimiter × Nat)) = l at h
  cases h with
  | none hl => exact ⟨_, hl⟩
  | opn _ _ _ _ => simp at e

theorem Spec.Opened.closes {p : Nat} {s r : List Char} {o c : Char} {d : Delimiter} {lo : Nat}
    {opens : List (Delimiter × Nat)} (h : Opened p s ((d, lo) :: opens) (c :: r)) (hd : delimChars d = some (o, c)) :
    Opened p (s ++ [c]) opens r := by
  generalize e : c :: r = w at h
  generalize e' : (d, lo) :: opens = l at h
  induction h generalizing opens with
  | none hl => cases e'
  | @opn p a ts o' c' b r' d' opens' hl hd' he' ho ih =>
    subst e
    cases opens' with
    | nil =>
      simp only [List.nil_append] at e'
      cases e'
      rw [hd] at hd'
      cases hd'
      obtain ⟨inner, hb⟩ := ho.nil
      refine .none (ts := ts ++ [.group d inner ⟨p + a.length, p + a.length + 1 + b.length + 1⟩]) ?_
      rw [show a ++ o :: b ++ [c] = a ++ (o :: b ++ [c]) by simp]
      refine Lexed.append (by simpa using hl) ?_
      have := Lexed.group (p := p + a.length) (t := []) (o := o) (c := c) (body := b) (s := []) (r := r) (d := d)
        (inner := inner) (ts := []) .nil hd (by simpa using he') (by simpa using hb) (.nil .nil)
      simpa using this
    | cons x opens' =>
      simp only [List.cons_append, List.cons.injEq] at e'
      obtain ⟨rfl, rfl⟩ := e'
      rw [show a ++ o' :: b ++ [c] = a ++ o' :: (b ++ [c]) by simp]
      exact .opn (by simpa using hl) hd' (by simpa using he') (ih rfl rfl)

/-! ### The error -/

/-- What `ErrorAt` says of the rest of the text, when the text before it has been read. -/
def StopsAt (opens : List (Delimiter × Nat)) (p : Nat) (r : List Char) (q : Nat) : Prop :=
  r = [] ∧ opens.head?.map (·.2) = some q ∨ q = p ∧ (NothingAt r ∨ WrongClose opens r)

theorem P.out_stops {E : Nat} {r : List Char} {toks : List TokenTree} {stk : List Frame} {q : Nat}
    (h : StopsAt (stk.map fun f => (f.delim, f.lo)) (E - r.length) r q) : P.out E r toks stk = .err ⟨q, q⟩ := by
  have hs : P.step E ⟨r, toks, stk⟩ = .err ⟨q, q⟩ := by
    rcases h with ⟨rfl, hq⟩ | ⟨rfl, h | ⟨d, o, c, r', rfl, hd, hne⟩⟩
    · unfold P.step
      simp only [P.next_nil]
      cases stk with
      | nil => cases hq
      | cons f stk => cases hq; rfl
    · unfold P.step
      simp only [P.next_bad_iff.mpr h]
    · unfold P.step
      simp only [P.next_of_close (closeD_of hd)]
      cases stk with
      | nil => rfl
      | cons f stk =>
        have : f.delim ≠ d := fun e => hne (by rw [← e]; rfl)
        simp only [if_pos this]
  unfold P.out P.run
  rw [hs]

/-- A run that fails, fails where the text cannot be read on. -/
theorem P.run_stops {E p : Nat} : ∀ (fuel : Nat) (a s : List Char) (toks : List TokenTree) (stk : List Frame) (e : Span),
    E = p + (a.length + s.length) → Opened p a (stk.map fun f => (f.delim, f.lo)) s →
    P.run E fuel ⟨s, toks, stk⟩ = .err e →
    e.lo = e.hi ∧ ∃ b r opens, a ++ s = b ++ r ∧ Opened p b opens r ∧ StopsAt opens (p + b.length) r e.lo := by
  intro fuel
  induction fuel with
  | zero => intro a s toks stk e _ _ h; simp [P.run] at h
  | succ fuel ih =>
    intro a s toks stk e hE ho h
    have hf := P.next_facts s
    obtain ⟨t, et, ht⟩ := P.skipWs_spec s
    have hne := P.triv1_none_doc (P.triv1_skipWs s)
    have ho' : Opened p (a ++ t) (stk.map fun f => (f.delim, f.lo)) (P.skipWs s) := by
      refine Opened.lexed (u := t) (us := []) ?_ (.nil ht)
      rwa [← et]
    unfold P.run at h
    cases hn : P.next s with
    | doc content inner s1 r =>
      rw [hn] at hf
      obtain ⟨rfl, -, -⟩ := hf
      obtain ⟨x, e2, hx, hcr⟩ := P.doc_spec hne (P.next_doc hn)
      unfold P.step at h
      simp only [hn] at h
      rw [e2] at ho' ht et
      have hl : Opened p (a ++ t ++ x) (stk.map fun f => (f.delim, f.lo)) r := by
        refine ho'.lexed (us := docAttr content inner ⟨p + (a ++ t).length, p + (a ++ t).length + x.length⟩) ?_
        have := Lexed.doc (p := p + (a ++ t).length) (t := []) (x := x) (s := []) (r := r) (inner := inner)
          (content := content) (ts := []) .nil (by simpa using hx) hcr (.nil .nil)
        simpa using this
      obtain ⟨h1, b, r2, opens, h2, h3⟩ := ih _ _ _ _ _ (by
        rw [hE, et]; simp only [List.length_append]; omega) hl h
      refine ⟨h1, b, r2, opens, ?_, h3⟩
      rw [← h2, et]; simp
    | leaf l s1 r =>
      rw [hn] at hf
      obtain ⟨rfl, -, -⟩ := hf
      unfold P.step at h
      simp only [hn] at h
      obtain ⟨x, e2, hx⟩ := P.leaf_iff.mp ⟨l, (P.next_leaf hn).1, (show l.tok ⟨p + (a ++ t).length, p + (a ++ t).length + (P.eaten (P.skipWs s) r).length⟩ =
        l.tok (l.tok ⟨p + (a ++ t).length, p + (a ++ t).length + (P.eaten (P.skipWs s) r).length⟩).span by cases l <;> rfl)⟩
      rw [e2, P.eaten_append] at hx
      rw [e2] at ho' ht et
      have hl : Opened p (a ++ t ++ x) (stk.map fun f => (f.delim, f.lo)) r := by
        refine ho'.lexed (us := [l.tok ⟨p + (a ++ t).length, p + (a ++ t).length + x.length⟩]) ?_
        have := Lexed.leaf (p := p + (a ++ t).length) (t := []) (x := x) (s := []) (r := r)
          (ts := []) (tok := l.tok ⟨p + (a ++ t).length, p + (a ++ t).length + x.length⟩) .nil (by simpa using hx)
          (by cases l <;> rfl) (.nil .nil)
        simpa using this
      obtain ⟨h1, b, r2, opens, h2, h3⟩ := ih _ _ _ _ _ (by
        rw [hE, et]; simp only [List.length_append]; omega) hl h
      refine ⟨h1, b, r2, opens, ?_, h3⟩
      rw [← h2, et]; simp
    | opn d s1 r =>
      rw [hn] at hf
      obtain ⟨rfl, -, -⟩ := hf
      obtain ⟨-, o, e2, hop⟩ := P.next_opn hn
      unfold P.step at h
      simp only [hn] at h
      obtain ⟨c, hd⟩ := openD_delim hop
      have he : ¬ errorText <+: o :: r := by
        intro hp
        rw [e2] at hop
        have : startsWith (o :: r) errorRepr = true := startsWith_iff_prefix.mpr hp
        unfold P.openD at hop
        rw [this] at hop
        have : o = '(' := by
          obtain ⟨v, hv⟩ := hp
          simp [errorText] at hv
          exact hv.1.symm
        subst this
        simp at hop
      rw [e2] at ho' ht et h
      have hl := ho'.opens hd he
      have e1 : E - (o :: r).length = p + (a ++ t).length := by
        rw [hE, et]; simp only [List.length_append, List.length_cons]; omega
      rw [e1] at h
      obtain ⟨h1, b, r2, opens, h2, h3⟩ := ih (a ++ t ++ [o]) r [] (⟨p + (a ++ t).length, d, toks⟩ :: stk) e (by
        rw [hE, et]; simp only [List.length_append, List.length_cons, List.length_nil]; omega) hl h
      refine ⟨h1, b, r2, opens, ?_, h3⟩
      rw [← h2, et]; simp
    | cls d s1 r =>
      rw [hn] at hf
      obtain ⟨rfl, -, -⟩ := hf
      obtain ⟨c, e2, hc⟩ := P.next_cls hn
      obtain ⟨o, hd⟩ := closeD_delim hc
      unfold P.step at h
      simp only [hn] at h
      rw [e2] at ho' ht et h
      have e1 : E - (c :: r).length = p + (a ++ t).length := by
        rw [hE, et]; simp only [List.length_append, List.length_cons]; omega
      rw [e1] at h
      cases stk with
      | nil =>
        simp only [Res.err.injEq] at h
        subst h
        exact ⟨rfl, a ++ t, c :: r, [], by rw [et]; simp, ho', .inr ⟨rfl, .inr ⟨d, o, c, r, rfl, hd, by simp⟩⟩⟩
      | cons f stk =>
        by_cases hfd : f.delim = d
        · have hfd' : ¬ f.delim ≠ d := fun h => h hfd
          simp only [if_neg hfd'] at h
          subst hfd
          have hl := Opened.closes ho' hd
          obtain ⟨h1, b, r2, opens, h2, h3⟩ := ih (a ++ t ++ [c]) _ _ _ _ (by
            rw [hE, et]; simp only [List.length_append, List.length_cons, List.length_nil]; omega) hl h
          refine ⟨h1, b, r2, opens, ?_, h3⟩
          rw [← h2, et]; simp
        · simp only [if_pos hfd] at h
          simp only [Res.err.injEq] at h
          subst h
          refine ⟨rfl, a ++ t, c :: r, _, by rw [et]; simp, ho', .inr ⟨rfl, .inr ⟨d, o, c, r, rfl, hd, ?_⟩⟩⟩
          simpa using hfd
    | eof =>
      rw [hn] at hf
      unfold P.step at h
      simp only [hn] at h
      rw [show P.skipWs s = [] from hf] at ho' et
      cases stk with
      | nil => simp at h
      | cons f stk =>
        simp only [Res.err.injEq] at h
        subst h
        exact ⟨rfl, a ++ t, [], _, by rw [et]; simp, ho', .inl ⟨rfl, rfl⟩⟩
    | bad s1 =>
      rw [hn] at hf
      have hf : s1 = P.skipWs s := hf
      subst hf
      unfold P.step at h
      simp only [hn, Res.err.injEq] at h
      have e1 : E - (P.skipWs s).length = p + (a ++ t).length := by
        have := congrArg List.length et
        simp only [List.length_append] at this ⊢
        omega
      rw [e1] at h
      subst h
      refine ⟨rfl, a ++ t, P.skipWs s, _, by rw [List.append_assoc, ← et], ho', .inr ⟨rfl, .inl ?_⟩⟩
      apply P.next_bad_iff.mp
      rw [P.next_skipWs, hn]

theorem P.stripBom_spec (src : List Char) : ∃ bom, src = bom ++ P.stripBom src ∧
    (bom = ['﻿'] ∨ bom = [] ∧ src.head? ≠ some '﻿') := by
  unfold P.stripBom
  split
  · rename_i h
    obtain ⟨u, rfl⟩ := startsWith_iff.mp h
    exact ⟨['﻿'], rfl, .inl rfl⟩
  · rename_i h
    refine ⟨[], rfl, .inr ⟨rfl, ?_⟩⟩
    intro hh
    apply h
    cases src with
    | nil => simp at hh
    | cons c s => simp at hh; subst hh; rfl

/-- The pure machine fails exactly where the text cannot be read on. -/
theorem P.err_iff {src : List Char} {off fuel : Nat} (hf : (P.stripBom src).length < fuel) {e : Span} :
    P.run (off + src.length) fuel ⟨P.stripBom src, [], []⟩ = .err e ↔ e.lo = e.hi ∧ ErrorAt off src e.lo := by
  obtain ⟨bom, ebom, hbom⟩ := P.stripBom_spec src
  have hlen : src.length = bom.length + (P.stripBom src).length := by
    rw [← List.length_append, ← ebom]
  constructor
  · intro h
    obtain ⟨h1, b, r, opens, h2, h3, h4⟩ := P.run_stops (p := off + bom.length) fuel [] _ _ _ _
      (by simp; omega) (.none (.nil .nil)) h
    refine ⟨h1, bom, b, r, opens, ?_, hbom, h3, h4⟩
    rw [List.append_assoc, ← h2]
    exact ebom
  · rintro ⟨h1, bom', b, r, opens, e2, hbom', h3, h4⟩
    have : bom' = bom ∧ b ++ r = P.stripBom src := by
      rw [List.append_assoc] at e2
      rcases hbom with rfl | ⟨rfl, hn⟩
      · rcases hbom' with rfl | ⟨rfl, hn'⟩
        · exact ⟨rfl, List.append_cancel_left (e2.symm.trans ebom)⟩
        · rw [ebom] at hn'; exact absurd rfl hn'
      · rcases hbom' with rfl | ⟨rfl, hn'⟩
        · rw [e2] at hn; exact absurd rfl hn
        · exact ⟨rfl, by rw [ebom] at e2; simpa using e2.symm⟩
    obtain ⟨rfl, e3⟩ := this
    rw [← e3] at hf hlen ⊢
    simp only [List.length_append] at hlen
    obtain ⟨toks', frames, e4, h5⟩ := P.out_opened h3 (E := off + src.length) (by omega) [] []
    rw [P.run_fuel (fuel' := (b ++ r).length + 1) (st := ⟨b ++ r, [], []⟩) hf (Nat.lt_succ_self _)]
    show P.out _ _ _ _ = _
    rw [h5, List.append_nil]
    obtain ⟨lo, hi⟩ := e
    cases h1
    apply P.out_stops
    rw [e4, show off + src.length - r.length = off + bom'.length + b.length by omega]
    exact h4

end
end PM2
