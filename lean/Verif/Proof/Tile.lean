import Verif.Proof.Big
/-! # An accepted text is tiled by its tokens -/

set_option linter.unusedSectionVars false

namespace PM2
open Spec

theorem startsWith_iff_prefix {s p : List Char} : startsWith s p = true ↔ p <+: s := by
  simp [startsWith, List.isPrefixOf_iff_prefix]

theorem startsWith_false_iff {s p : List Char} : startsWith s p = false ↔ ¬ p <+: s := by
  rw [← startsWith_iff_prefix]; simp

/-! ### Comments -/

theorem P.takeUntil_spec (s : List Char) :
    ∃ cr, s = (P.takeUntil s).1 ++ cr ++ (P.takeUntil s).2 ∧ '\n' ∉ (P.takeUntil s).1 ∧
      LineEnd (P.takeUntil s).2 ∧
      (cr = [] ∧ ((P.takeUntil s).2 ≠ [] → (P.takeUntil s).1.getLast? ≠ some '\r') ∨
        cr = ['\r'] ∧ (P.takeUntil s).2 ≠ []) := by
  induction s with
  | nil => exact ⟨[], rfl, by simp [P.takeUntil], .inl rfl, .inl ⟨rfl, by simp [P.takeUntil]⟩⟩
  | cons c s ih =>
    simp only [P.takeUntil]
    by_cases h1 : c = '\n'
    · rw [if_pos h1]
      exact ⟨[], by simp, by simp, .inr ⟨s, by rw [h1]⟩, .inl ⟨rfl, by simp⟩⟩
    · rw [if_neg h1]
      by_cases h2 : c = '\r' ∧ startsWithChar s '\n' = true
      · rw [if_pos h2]
        obtain ⟨rfl, h2⟩ := h2
        cases s with
        | nil => simp [startsWithChar] at h2
        | cons d s =>
          simp [startsWithChar] at h2
          subst h2
          exact ⟨['\r'], by simp, by simp, .inr ⟨s, rfl⟩, .inr ⟨rfl, by simp⟩⟩
      · rw [if_neg h2]
        obtain ⟨cr, e, h3, h4, h5⟩ := ih
        refine ⟨cr, by simp only [List.cons_append]; rw [← e], ?_, h4, ?_⟩
        · simp only [List.mem_cons, not_or]
          exact ⟨fun h => h1 h.symm, h3⟩
        · rcases h5 with ⟨rfl, h5⟩ | ⟨rfl, h5⟩
          · left
            refine ⟨rfl, ?_⟩
            intro hr
            have h6 := h5 hr
            cases ht : (P.takeUntil s).1 with
            | nil =>
              simp only [List.getLast?_singleton]
              intro hc
              simp at hc
              apply h2
              refine ⟨hc, ?_⟩
              rw [e, ht]
              rcases h4 with h4 | ⟨r', h4⟩
              · exact absurd h4 hr
              · rw [h4]; rfl
            | cons a l =>
              rw [ht] at h6
              rw [List.getLast?_cons_cons]
              exact h6
          · exact .inr ⟨rfl, h5⟩

theorem P.block_spec {s r : List Char} {d : Nat} (hd : 1 ≤ d) (h : P.block s d = some r) :
    ∃ t, s = t ++ r ∧ InComment d t := by
  fun_induction P.block s d with
  | case1 c0 c1 s d hc ih =>
    obtain ⟨t, rfl, ht⟩ := ih (by omega) h
    obtain ⟨rfl, rfl⟩ := hc
    exact ⟨'/' :: '*' :: t, rfl, .opn ht⟩
  | case2 c0 c1 s d hc1 hc2 hd' =>
    simp at h; subst h
    obtain ⟨rfl, rfl⟩ := hc2
    have : d = 1 := by omega
    subst this
    exact ⟨['*', '/'], rfl, .last⟩
  | case3 c0 c1 s d hc1 hc2 hd' ih =>
    obtain ⟨t, rfl, ht⟩ := ih (by omega) h
    obtain ⟨rfl, rfl⟩ := hc2
    have : d = (d - 2) + 2 := by omega
    rw [this]
    rw [show d - 1 = (d - 2) + 1 by omega] at ht
    exact ⟨'*' :: '/' :: t, rfl, .close ht⟩
  | case4 c0 c1 s d hc1 hc2 ih =>
    obtain ⟨t, e, ht⟩ := ih hd h
    refine ⟨c0 :: t, by simp [e], .char ?_ ?_ ht⟩
    · intro hp
      have : ['/', '*'] <+: c0 :: c1 :: s := by
        rw [e]; exact hp.trans ⟨r, rfl⟩
      simp at this
      exact hc1 ⟨this.1.symm, this.2.symm⟩
    · intro hp
      have : ['*', '/'] <+: c0 :: c1 :: s := by
        rw [e]; exact hp.trans ⟨r, rfl⟩
      simp at this
      exact hc2 ⟨this.1.symm, this.2.symm⟩
  | case5 => simp at h

theorem InComment.ne_nil {d : Nat} {t : List Char} (h : InComment d t) : t ≠ [] := by
  cases h <;> simp

theorem P.block_complete {d : Nat} {t : List Char} (h : InComment d t) (r : List Char) :
    P.block (t ++ r) d = some r := by
  induction h with
  | last => simp [P.block]
  | @close d t _ ih => simp [P.block, ih]
  | opn _ ih => simp [P.block, ih]
  | @char d c t h1 h2 ht ih =>
    cases t with
    | nil => exact absurd rfl (InComment.ne_nil ht)
    | cons c1 t =>
      simp only [List.cons_append, P.block]
      rw [if_neg, if_neg]
      · exact ih
      · rintro ⟨rfl, rfl⟩; exact h2 ⟨t, rfl⟩
      · rintro ⟨rfl, rfl⟩; exact h1 ⟨t, rfl⟩

section
variable [UnicodeTables]

theorem P.blockComment_spec {s r : List Char} (h : P.blockComment s = some r) :
    ∃ b, s = b ++ r ∧ IsBlockComment b := by
  obtain ⟨t, e, hb⟩ := P.blockComment_open h
  obtain ⟨u, e2, hu⟩ := P.block_spec (by omega) hb
  refine ⟨'/' :: '*' :: u, ?_, u, rfl, hu⟩
  rw [e, e2]; rfl

theorem P.blockComment_complete {b : List Char} (h : IsBlockComment b) (r : List Char) :
    P.blockComment (b ++ r) = some r := by
  obtain ⟨u, rfl, hu⟩ := h
  unfold P.blockComment
  rw [if_pos (by simp)]
  simp only [List.cons_append, P.block, and_self, if_true]
  exact P.block_complete hu r

/-! ### Trivia -/

theorem P.triv1_spec {s r : List Char} (h : P.triv1 s = some r) :
    ∃ i, s = i ++ r ∧ ∀ t q, r = t ++ q → Trivia t q → Trivia (i ++ t) q := by
  unfold P.triv1 at h
  cases s with
  | nil => simp at h
  | cons c s0 =>
    simp only at h
    split at h
    · rename_i hc
      simp only [Bool.and_eq_true, Bool.or_eq_true, Bool.not_eq_true', startsWith_iff_prefix,
        startsWith_false_iff] at hc
      simp at h
      obtain ⟨⟨h1, h2⟩, h3⟩ := hc
      have h1 := startsWith_iff.mp (startsWith_iff_prefix.mpr h1)
      obtain ⟨x, hx⟩ := h1
      rw [hx] at h h2 h3 ⊢
      have e : (P.takeUntil (['/', '/'] ++ x)).2 = (P.takeUntil x).2 := by simp [P.takeUntil]
      rw [e] at h; subst h
      obtain ⟨cr, ex, g1, g2, g3⟩ := P.takeUntil_spec x
      refine ⟨['/', '/'] ++ ((P.takeUntil x).1 ++ cr), ?_, ?_⟩
      · rw [List.append_assoc, ← ex]
      · intro t q htq ht
        have hx2 : ['/', '/'] ++ x = '/' :: '/' :: ((P.takeUntil x).1 ++ cr) ++ t ++ q := by
          rw [List.append_assoc, ← htq]
          show _ = '/' :: '/' :: (P.takeUntil x).1 ++ cr ++ _
          conv => lhs; rw [ex]
          simp
        refine Trivia.line (u := (P.takeUntil x).1 ++ cr) ?_ ?_ ?_ ht
        · rw [List.mem_append]
          rintro (h | h)
          · exact g1 h
          · rcases g3 with ⟨rfl, -⟩ | ⟨rfl, -⟩ <;> simp at h
        · rw [← hx2]
          rintro (h | ⟨h, h'⟩)
          · exact h3 h
          · rcases h2 with h2 | h2
            · exact h2 h
            · exact h' h2
        · rw [← htq]; exact g2
    · split at h
      · rename_i hc
        obtain ⟨x, hx⟩ := startsWith_iff.mp hc
        rw [hx] at h ⊢
        simp at h; subst h
        refine ⟨['/', '*', '*', '/'], rfl, ?_⟩
        intro t q htq ht
        refine .block (b := ['/', '*', '*', '/']) ⟨['*', '/'], rfl, .last⟩ ?_ ht
        rintro (h | ⟨-, -, h⟩)
        · simp at h
        · exact h ⟨t ++ q, by simp⟩
      · split at h
        · rename_i hc0 hc
          simp only [Bool.and_eq_true, Bool.or_eq_true, Bool.not_eq_true', startsWith_iff_prefix,
            startsWith_false_iff] at hc
          obtain ⟨⟨h1, h2⟩, h3⟩ := hc
          obtain ⟨b, e, hb⟩ := P.blockComment_spec h
          refine ⟨b, e, ?_⟩
          intro t q htq ht
          refine .block hb ?_ ht
          rw [List.append_assoc, ← htq, ← e]
          rintro (h | ⟨h, h', -⟩)
          · exact h3 h
          · rcases h2 with h2 | h2
            · exact h2 h
            · exact h' h2
        · split at h
          · rename_i hw
            simp at h; subst h
            exact ⟨[c], rfl, fun t q _ ht => .ws hw ht⟩
          · simp at h

theorem P.skipWs_spec (s : List Char) : ∃ t, s = t ++ P.skipWs s ∧ Trivia t (P.skipWs s) := by
  induction hn : s.length using Nat.strongRecOn generalizing s with
  | _ n ih =>
    cases h : P.triv1 s with
    | none =>
      have : P.skipWs s = s := by rw [P.skipWs_eq, h]
      exact ⟨[], by simp [this], .nil⟩
    | some r =>
      have : P.skipWs s = P.skipWs r := by rw [P.skipWs_eq, h]
      rw [this]
      obtain ⟨i, e, hi⟩ := P.triv1_spec h
      have hlt := (P.triv1_suffix h).2
      obtain ⟨t, e', ht⟩ := ih r.length (by omega) r rfl
      exact ⟨i ++ t, by rw [List.append_assoc, ← e', ← e], hi t _ e' ht⟩

/-! ### Doc comments -/

theorem P.noBareCr_spec {s : List Char} (h : P.noBareCr s = true) : NoBareCr s := by
  intro a b e
  induction a generalizing s with
  | nil =>
    simp at e; subst e
    simp only [P.noBareCr, if_true, Bool.and_eq_true] at h
    cases b with
    | nil => simp [startsWithChar] at h
    | cons c b => simp [startsWithChar] at h; exact ⟨b, by rw [h.1]⟩
  | cons c a ih =>
    subst e
    simp only [List.cons_append, P.noBareCr] at h
    split at h
    · simp only [Bool.and_eq_true] at h
      exact ih h.2 rfl
    · exact ih h rfl

theorem P.noBareCr_complete {s : List Char} (h : NoBareCr s) : P.noBareCr s = true := by
  induction s with
  | nil => rfl
  | cons c s ih =>
    have hs : NoBareCr s := fun a b e => h (c :: a) b (by simp [e])
    simp only [P.noBareCr]
    split
    · rename_i hc
      subst hc
      obtain ⟨b', e⟩ := h [] s rfl
      rw [ih hs, e]; rfl
    · exact ih hs

theorem startsWithChar_iff {s : List Char} {c : Char} :
    startsWithChar s c = true ↔ s.head? = some c := by
  cases s <;> simp [startsWithChar]

theorem P.docContents_spec {s content r : List Char} {inner : Bool}
    (hne : startsWith s ['/', '*', '*', '/'] = false)
    (h : P.docContents s = some (content, inner, r)) :
    ∃ x, s = x ++ r ∧ DocText x r inner content := by
  unfold P.docContents at h
  split at h
  · rename_i hp
    obtain ⟨u, rfl⟩ := startsWith_iff.mp hp
    simp at h
    obtain ⟨rfl, rfl, rfl⟩ := h
    obtain ⟨cr, e, g1, g2, g3⟩ := P.takeUntil_spec u
    refine ⟨'/' :: '/' :: '!' :: (P.takeUntil u).1 ++ cr, ?_, .innerLine g1 g2 g3⟩
    conv => lhs; rw [e]
    simp
  · split at h
    · rename_i hp
      obtain ⟨u, hu⟩ := startsWith_iff.mp hp
      cases hb : P.blockComment s with
      | none => rw [hb] at h; simp at h
      | some r' =>
        rw [hb] at h
        obtain ⟨t, h1, h2, h3⟩ := P.docBlock (c := '!') (u := u) hu (fun h => absurd h (by decide)) hb
        simp at h
        obtain ⟨rfl, rfl, rfl⟩ := h
        obtain ⟨b, e, hbc⟩ := P.blockComment_spec hb
        have hb2 : b = '/' :: '*' :: '!' :: t ++ ['*', '/'] := by
          apply List.append_cancel_right (bs := r')
          rw [← e, h1]; simp
        rw [h2]
        refine ⟨'/' :: '*' :: '!' :: t ++ ['*', '/'], by rw [h1]; simp, ?_⟩
        obtain ⟨u', e', hu'⟩ := hbc
        rw [e'] at hb2
        simp only [List.cons_append, List.cons.injEq, true_and] at hb2
        subst hb2
        exact .innerBlock hu'
    · split at h
      · rename_i hp
        obtain ⟨u, rfl⟩ := startsWith_iff.mp hp
        split at h
        · simp at h
        · rename_i hsl
          simp at h hsl
          obtain ⟨rfl, rfl, rfl⟩ := h
          obtain ⟨cr, e, g1, g2, g3⟩ := P.takeUntil_spec u
          refine ⟨'/' :: '/' :: '/' :: (P.takeUntil u).1 ++ cr, ?_, .outerLine g1 g2 ?_ g3⟩
          · conv => lhs; rw [e]
            simp
          · intro hh
            cases ht : (P.takeUntil u).1 with
            | nil => rw [ht] at hh; simp at hh
            | cons a l =>
              rw [ht] at hh e; simp at hh; subst hh
              rw [e] at hsl; simp [startsWithChar] at hsl
      · split at h
        · rename_i hp
          obtain ⟨u, hu⟩ := startsWith_iff.mp hp
          split at h
          · simp at h
          · rename_i hsl
            cases hb : P.blockComment s with
            | none => rw [hb] at h; simp at h
            | some r' =>
              rw [hb] at h
              have hus : startsWithChar u '/' = false := by
                rw [hu] at hne
                cases u with
                | nil => rfl
                | cons x u => simpa [startsWithChar] using hne
              obtain ⟨t, h1, h2, h3⟩ := P.docBlock (c := '*') (u := u) hu (fun _ => hus) hb
              simp at h
              obtain ⟨rfl, rfl, rfl⟩ := h
              obtain ⟨b, e, hbc⟩ := P.blockComment_spec hb
              have hb2 : b = '/' :: '*' :: '*' :: t ++ ['*', '/'] := by
                apply List.append_cancel_right (bs := r')
                rw [← e, h1]; simp
              rw [h2]
              refine ⟨'/' :: '*' :: '*' :: t ++ ['*', '/'], by rw [h1]; simp, ?_⟩
              obtain ⟨u', e', hu'⟩ := hbc
              rw [e'] at hb2
              simp only [List.cons_append, List.cons.injEq, true_and] at hb2
              subst hb2
              have hut : u = t ++ ['*', '/'] ++ r' := by
                have : s = '/' :: '*' :: '*' :: u := hu
                rw [h1] at this
                simpa using this.symm
              refine .outerBlock hu' ?_ ?_
              · intro hh
                apply hsl
                rw [h1, startsWithChar_iff]
                cases t <;> simpa using hh
              · intro hh
                have : startsWithChar u '/' = true := by
                  rw [hut, startsWithChar_iff]
                  cases t <;> simpa using hh
                rw [this] at hus; simp at hus
        · simp at h

theorem P.doc_spec {s content r : List Char} {inner : Bool}
    (hne : startsWith s ['/', '*', '*', '/'] = false)
    (h : P.doc s = some (content, inner, r)) :
    ∃ x, s = x ++ r ∧ DocText x r inner content ∧ NoBareCr content := by
  unfold P.doc at h
  cases hd : P.docContents s with
  | none => rw [hd] at h; simp at h
  | some v =>
    obtain ⟨c, i, r'⟩ := v
    rw [hd] at h
    simp only at h
    split at h
    · rename_i hcr
      simp at h
      obtain ⟨rfl, rfl, rfl⟩ := h
      obtain ⟨x, e, hx⟩ := P.docContents_spec hne hd
      exact ⟨x, e, hx, P.noBareCr_spec hcr⟩
    · simp at h

theorem P.docTokens_eq (content : List Char) (inner : Bool) (span : Span) :
    P.docTokens content inner span = docAttr content inner span := by
  cases inner <;> rfl

/-! ### Leaves -/

theorem P.identNotRaw_spec {s sym r : List Char} (h : P.identNotRaw s = some (sym, r)) :
    s = sym ++ r := by
  unfold P.identNotRaw at h
  cases s with
  | nil => simp at h
  | cons c s =>
    simp only at h
    split at h
    · simp at h
      obtain ⟨rfl, rfl⟩ := h
      simp
    · simp at h

theorem P.identAny_spec {s sym r : List Char} {raw : Bool} (h : P.identAny s = some (sym, raw, r)) :
    s = (if raw then ['r', '#'] else []) ++ sym ++ r := by
  unfold P.identAny at h
  split at h
  · rename_i hp
    obtain ⟨u, rfl⟩ := startsWith_iff.mp hp
    cases hi : P.identNotRaw u with
    | none => simp [hi] at h
    | some v =>
      obtain ⟨a, b⟩ := v
      simp [hi] at h
      obtain ⟨-, rfl, rfl, rfl⟩ := h
      simp [P.identNotRaw_spec hi]
  · cases hi : P.identNotRaw s with
    | none => simp [hi] at h
    | some v =>
      obtain ⟨a, b⟩ := v
      simp [hi] at h
      obtain ⟨rfl, rfl, rfl⟩ := h
      simp [P.identNotRaw_spec hi]

theorem P.eaten_append (x r : List Char) : P.eaten (x ++ r) r = x := by
  simp [P.eaten]

theorem P.leaf_spec {s r : List Char} {l : P.Leaf} (h : P.leaf s = some (l, r)) (sp : Span) :
    ∃ x, s = x ++ r ∧ LeafText (l.tok sp) x := by
  have hs := (P.leaf_suffix h).1
  unfold P.leaf at h
  cases h1 : P.literal s with
  | some v =>
    simp [h1] at h
    obtain ⟨rfl, rfl⟩ := h
    obtain ⟨x, rfl⟩ := hs
    rw [P.eaten_append]
    exact ⟨x, rfl, .literal⟩
  | none =>
    cases h2 : P.punct s with
    | some v =>
      obtain ⟨c, spc, r'⟩ := v
      simp [h1, h2] at h
      obtain ⟨rfl, rfl⟩ := h
      exact ⟨[c], by rw [(P.punct_some h2).1]; rfl, .punct⟩
    | none =>
      cases h3 : P.ident s with
      | some v =>
        obtain ⟨sym, raw, r'⟩ := v
        simp [h1, h2, h3] at h
        obtain ⟨rfl, rfl⟩ := h
        unfold P.ident at h3
        split at h3
        · simp at h3
        · have := P.identAny_spec h3
          cases raw
          · exact ⟨sym, by simpa using this, .ident⟩
          · exact ⟨'r' :: '#' :: sym, by simpa using this, .raw⟩
      | none =>
        simp [h1, h2, h3] at h
        obtain ⟨h4, rfl, rfl⟩ := h
        obtain ⟨u, rfl⟩ := startsWith_iff.mp h4
        exact ⟨errorRepr, by simp, .literal⟩

/-! ### Token streams -/

theorem P.Lex.tile {E : Nat} {s q : List Char} {ts : List TokenTree} (h : P.Lex E s ts q)
    (hE : s.length ≤ E) : ∃ body, s = body ++ q ∧ Tile (E - s.length) body ts q := by
  induction h with
  | @eof s hn =>
    have hf := P.next_facts s
    rw [hn] at hf
    obtain ⟨t, e, ht⟩ := P.skipWs_spec s
    rw [show P.skipWs s = [] from hf] at e ht
    exact ⟨t, e, .nil ht⟩
  | @cls s d s1 r hn =>
    have hf := P.next_facts s
    rw [hn] at hf
    obtain ⟨t, e, ht⟩ := P.skipWs_spec s
    rw [← hf.1] at e ht
    exact ⟨t, e, .nil ht⟩
  | @doc s content inner s1 r ts q hn _ ih =>
    have hf := P.next_facts s
    rw [hn] at hf
    obtain ⟨t, e, ht⟩ := P.skipWs_spec s
    have hne := P.triv1_none_doc (P.triv1_skipWs s)
    rw [← hf.1] at e ht hne
    obtain ⟨x, e2, hx, hcr⟩ := P.doc_spec hne (P.next_doc hn)
    obtain ⟨body, e3, hb⟩ := ih (by have := hf.2.2; omega)
    subst e3 e2 e
    refine ⟨t ++ x ++ body, by simp, ?_⟩
    rw [P.docTokens_eq]
    have key := Tile.doc (p := E - (t ++ (x ++ (body ++ q))).length) (t := t) (x := x) (s := body)
      (r := q) (inner := inner) (content := content) (ts := ts) (by simpa using ht) hx hcr
    simp only [List.length_append] at hE hb key ⊢
    have a1 : E - (t.length + (x.length + (body.length + q.length))) + t.length =
      E - (x.length + (body.length + q.length)) := by omega
    have a2 : E - (x.length + (body.length + q.length)) + x.length =
      E - (body.length + q.length) := by omega
    rw [a1, a2] at key
    exact key hb
  | @leaf s l s1 r ts q hn _ ih =>
    have hf := P.next_facts s
    rw [hn] at hf
    obtain ⟨t, e, ht⟩ := P.skipWs_spec s
    rw [← hf.1] at e ht
    have hl := (P.next_leaf hn).1
    obtain ⟨x, e2, hx⟩ := P.leaf_spec hl ⟨E - s1.length, E - r.length⟩
    have hlt := (P.leaf_suffix hl).2
    obtain ⟨body, e3, hb⟩ := ih (by have := hf.2.2; omega)
    subst e3 e2 e
    refine ⟨t ++ x ++ body, by simp, ?_⟩
    have hne : x ≠ [] := by
      rintro rfl; simp at hlt
    have key := Tile.leaf (p := E - (t ++ (x ++ (body ++ q))).length) (t := t) (x := x) (s := body)
      (r := q) (ts := ts) (by simpa using ht) hne hx
    simp only [List.length_append] at hE hb key ⊢
    have a1 : E - (t.length + (x.length + (body.length + q.length))) + t.length =
      E - (x.length + (body.length + q.length)) := by omega
    have a2 : E - (x.length + (body.length + q.length)) + x.length =
      E - (body.length + q.length) := by omega
    rw [a1, a2] at key
    exact key (by cases l <;> rfl) hb
  | @group s d s1 r inner c r1 ts q hn h1 hc h2 ih1 ih2 =>
    have hf := P.next_facts s
    rw [hn] at hf
    obtain ⟨t, e, ht⟩ := P.skipWs_spec s
    rw [← hf.1] at e ht
    obtain ⟨-, o, e2, ho⟩ := P.next_opn hn
    have hs1 := h1.suffix.length_le
    obtain ⟨body, e3, hb⟩ := ih1 (by have := hf.2.2; omega)
    obtain ⟨rest, e4, hr⟩ := ih2 (by have := hf.2.2; simp at hs1; omega)
    subst e4 e3 e2 e
    refine ⟨t ++ o :: body ++ c :: rest, by simp, ?_⟩
    have hd : delimChars d = some (o, c) := by
      rcases P.openD_cases ho with ⟨rfl, rfl⟩ | ⟨rfl, rfl⟩ | ⟨rfl, rfl⟩ <;>
      rcases P.closeD_cases hc with ⟨rfl, h⟩ | ⟨rfl, h⟩ | ⟨rfl, h⟩ <;>
      first
        | rfl
        | simp at h
    have key := Tile.group (p := E - (t ++ (o :: (body ++ (c :: (rest ++ q))))).length) (t := t)
      (o := o) (c := c) (body := body) (s := rest) (r := q) (d := d) (inner := inner) (ts := ts)
      (by simpa using ht) hd
    simp only [List.length_append, List.length_cons] at hE hb hr key ⊢
    have a1 : E - (t.length + (body.length + (rest.length + q.length + 1) + 1)) + t.length =
      E - (body.length + (rest.length + q.length + 1) + 1) := by omega
    have a2 : E - (body.length + (rest.length + q.length + 1) + 1) + 1 =
      E - (body.length + (rest.length + q.length + 1)) := by omega
    have a3 : E - (body.length + (rest.length + q.length + 1)) + body.length + 1 =
      E - (rest.length + q.length) := by omega
    rw [a1, a2, a3] at key
    exact key (by simpa using hb) hr

end
end PM2
