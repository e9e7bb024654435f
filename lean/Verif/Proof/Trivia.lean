import Verif.Proof.Ext
/-! # Completeness for trivia and doc comments -/

set_option linter.unusedSectionVars false

namespace PM2
open Spec

section
variable [UnicodeTables]

theorem takeUntil_rest {u m : List Char} (hu : '\n' ∉ u) (hm : LineEnd m) :
    (P.takeUntil (u ++ m)).2 = m := by
  induction u with
  | nil =>
    rcases hm with rfl | ⟨m', rfl⟩
    · rfl
    · simp [P.takeUntil]
  | cons c u ih =>
    have hc : c ≠ '\n' := by rintro rfl; simp at hu
    have hu' : '\n' ∉ u := fun h => hu (by simp [h])
    simp only [List.cons_append, P.takeUntil, if_neg hc]
    split
    · rename_i h
      cases u with
      | nil => rfl
      | cons d u =>
        have := h.2
        simp [startsWithChar] at this
        exact absurd (by simp [this]) hu'
    · exact ih hu'

/-- content of a line comment: up to the optional carriage return before the line feed -/
theorem takeUntil_content {u cr m : List Char} (hu : '\n' ∉ u) (hm : LineEnd m)
    (hcr : cr = [] ∧ (m ≠ [] → u.getLast? ≠ some '\r') ∨ cr = ['\r'] ∧ m ≠ []) :
    P.takeUntil (u ++ cr ++ m) = (u, m) := by
  induction u with
  | nil =>
    rcases hcr with ⟨rfl, -⟩ | ⟨rfl, hne⟩
    · rcases hm with rfl | ⟨m', rfl⟩
      · rfl
      · simp [P.takeUntil]
    · rcases hm with rfl | ⟨m', rfl⟩
      · exact absurd rfl hne
      · simp [P.takeUntil, startsWithChar]
  | cons c u ih =>
    have hc : c ≠ '\n' := by rintro rfl; simp at hu
    have hu' : '\n' ∉ u := fun h => hu (by simp [h])
    have hnot : ¬ (c = '\r' ∧ startsWithChar (u ++ cr ++ m) '\n' = true) := by
      rintro ⟨rfl, h⟩
      rw [startsWithChar_iff] at h
      cases u with
      | cons d u => simp at h; exact hu' (by simp [h])
      | nil =>
        rcases hcr with ⟨rfl, h1⟩ | ⟨rfl, -⟩
        · cases m with
          | nil => simp at h
          | cons d m => exact h1 (by simp) (by simp)
        · simp at h
    simp only [List.cons_append, P.takeUntil, if_neg hc, if_neg hnot]
    have := ih hu' (by
      rcases hcr with ⟨rfl, h1⟩ | h
      · left
        refine ⟨rfl, fun h2 h3 => h1 h2 ?_⟩
        cases u with
        | nil => simp at h3
        | cons d u => simp [List.getLast?_cons_cons] at h3 ⊢; exact h3
      · exact .inr h)
    rw [this]

/-- Block comments have a unique end. -/
theorem IsBlockComment.unique {b b' r r' : List Char} (h : IsBlockComment b) (h' : IsBlockComment b')
    (e : b ++ r = b' ++ r') : b = b' ∧ r = r' := by
  have h1 := P.blockComment_complete h r
  have h2 := P.blockComment_complete h' r'
  rw [e, h2] at h1
  simp at h1
  subst h1
  exact ⟨List.append_cancel_right e, rfl⟩

theorem P.triv1_ws {c : Char} {s : List Char} (h : isWhitespace c = true) :
    P.triv1 (c :: s) = some s := by
  have hc : c ≠ '/' := by rintro rfl; exact absurd h (by decide)
  simp [P.triv1, hc, h]

theorem P.triv1_line {u m : List Char} (hu : '\n' ∉ u) (hm : LineEnd m)
    (hd : ¬ DocLineStart ('/' :: '/' :: u ++ m)) : P.triv1 ('/' :: '/' :: u ++ m) = some m := by
  have hc : (startsWith ('/' :: '/' :: u ++ m) ['/', '/'] &&
      (!startsWith ('/' :: '/' :: u ++ m) ['/', '/', '/'] ||
        startsWith ('/' :: '/' :: u ++ m) ['/', '/', '/', '/']) &&
      !startsWith ('/' :: '/' :: u ++ m) ['/', '/', '!']) = true := by
    simp only [Bool.and_eq_true, Bool.or_eq_true, Bool.not_eq_true', startsWith_iff_prefix,
      startsWith_false_iff]
    refine ⟨⟨⟨u ++ m, by simp⟩, ?_⟩, fun h => hd (.inl h)⟩
    by_cases h1 : ['/', '/', '/'] <+: '/' :: '/' :: u ++ m
    · right
      by_cases h2 : ['/', '/', '/', '/'] <+: '/' :: '/' :: u ++ m
      · exact h2
      · exact absurd (.inr ⟨h1, h2⟩) hd
    · exact .inl h1
  show P.triv1 ('/' :: ('/' :: u ++ m)) = _
  unfold P.triv1
  simp only
  refine (if_pos hc).trans ?_
  have hn : '\n' ∉ '/' :: '/' :: u := by simp [hu]
  show some (P.takeUntil ('/' :: '/' :: u ++ m)).2 = _
  rw [takeUntil_rest hn hm]

theorem P.triv1_block {b m : List Char} (hb : IsBlockComment b) (hd : ¬ DocBlockStart (b ++ m)) :
    P.triv1 (b ++ m) = some m := by
  have hbc := P.blockComment_complete hb m
  obtain ⟨u, rfl, hu⟩ := hb
  show P.triv1 ('/' :: ('*' :: u ++ m)) = _
  unfold P.triv1
  simp only
  rw [if_neg (by simp)]
  split
  · rename_i h
    obtain ⟨v, hv⟩ := startsWith_iff.mp h
    have hv' : '/' :: '*' :: u ++ m = ['/', '*', '*', '/'] ++ v := hv
    have := IsBlockComment.unique (b' := ['/', '*', '*', '/']) ⟨u, rfl, hu⟩ ⟨_, rfl, .last⟩ hv'
    obtain ⟨h1, rfl⟩ := this
    rw [hv]; rfl
  · rename_i h4
    rw [Bool.not_eq_true, startsWith_false_iff] at h4
    have hc : (startsWith ('/' :: '*' :: u ++ m) ['/', '*'] &&
        (!startsWith ('/' :: '*' :: u ++ m) ['/', '*', '*'] ||
          startsWith ('/' :: '*' :: u ++ m) ['/', '*', '*', '*']) &&
        !startsWith ('/' :: '*' :: u ++ m) ['/', '*', '!']) = true := by
      simp only [Bool.and_eq_true, Bool.or_eq_true, Bool.not_eq_true', startsWith_iff_prefix,
        startsWith_false_iff]
      refine ⟨⟨⟨u ++ m, by simp⟩, ?_⟩, fun h => hd (.inl h)⟩
      by_cases h1 : ['/', '*', '*'] <+: '/' :: '*' :: u ++ m
      · right
        by_cases h2 : ['/', '*', '*', '*'] <+: '/' :: '*' :: u ++ m
        · exact h2
        · exact absurd (.inr ⟨h1, h2, h4⟩) hd
      · exact .inl h1
    exact (if_pos hc).trans hbc

/-- Trivia is skipped. -/
theorem P.skipWs_trivia {t r : List Char} (h : Trivia t r) : P.skipWs (t ++ r) = P.skipWs r := by
  induction h with
  | nil => rfl
  | @ws c t r hc _ ih =>
    rw [List.cons_append, P.skipWs_eq, P.triv1_ws hc]; exact ih
  | @line u t r hu hd hm _ ih =>
    rw [List.append_assoc] at hd ⊢
    rw [P.skipWs_eq, P.triv1_line hu hm hd]; exact ih
  | @block b t r hb hd _ ih =>
    rw [List.append_assoc] at hd ⊢
    rw [P.skipWs_eq, P.triv1_block hb hd]; exact ih

theorem Spec.Trivia.append {t1 t2 r : List Char} (h1 : Trivia t1 (t2 ++ r)) (h2 : Trivia t2 r) :
    Trivia (t1 ++ t2) r := by
  generalize hm : t2 ++ r = m at h1
  induction h1 with
  | nil => exact h2
  | ws hc _ ih => exact .ws hc (ih hm)
  | @line u t r' hu hd hl _ ih =>
    subst hm
    simp only [List.append_assoc, List.cons_append] at *
    exact .line hu (by simpa using hd) (by simpa using hl) (ih trivial)
  | @block b t r' hb hd _ ih =>
    subst hm
    simp only [List.append_assoc] at *
    exact .block hb (by simpa using hd) (ih trivial)

/-- Trivia does not depend on what follows, except that a line comment must be ended. -/
theorem Spec.Trivia.replace {t r r' : List Char} (h : Trivia t r) (hl : LineEnd r → LineEnd r') :
    Trivia t r' := by
  induction h with
  | nil => exact .nil
  | ws hc _ ih => exact .ws hc (ih hl)
  | @line u t r hu hd hm ht ih =>
    have hm' : LineEnd (t ++ r') := by
      cases t with
      | nil => exact hl hm
      | cons c t =>
        rcases hm with hm | ⟨m', hm⟩
        · simp at hm
        · simp at hm; exact .inr ⟨t ++ r', by simp [hm.1]⟩
    refine .line hu ?_ hm' (ih hl)
    have key : ∀ (m : List Char) (p : List Char), LineEnd m → '\n' ∉ p →
        (p <+: '/' :: '/' :: u ++ m ↔ p <+: '/' :: '/' :: u) := by
      intro m p hm hp
      refine prefix_ext ?_
      rintro c w rfl
      rcases hm with hm | ⟨_, hm⟩
      · simp at hm
      · simp at hm; rw [hm.1]; exact hp
    rw [List.append_assoc] at hd ⊢
    unfold DocLineStart at hd ⊢
    rw [key _ _ hm (by decide), key _ _ hm (by decide), key _ _ hm (by decide)] at hd
    rw [key _ _ hm' (by decide), key _ _ hm' (by decide), key _ _ hm' (by decide)]
    exact hd
  | @block b t r hb hd ht ih =>
    refine .block hb ?_ (ih hl)
    have hlen : 4 ≤ b.length := by
      obtain ⟨u, rfl, hu⟩ := hb
      cases hu with
      | last => simp
      | opn h => simp
      | @char d c t h1 h2 h3 =>
        have := InComment.ne_nil h3
        cases t with
        | nil => simp at this
        | cons _ _ => simp
    have key : ∀ (m : List Char) (p : List Char), p.length ≤ 4 → (p <+: b ++ m ↔ p <+: b) := by
      intro m p hp
      constructor
      · intro h
        exact List.prefix_of_prefix_length_le h (List.prefix_append _ _) (by omega)
      · intro h; exact h.trans (List.prefix_append _ _)
    rw [List.append_assoc] at hd ⊢
    unfold DocBlockStart at hd ⊢
    rw [key _ _ (by decide), key _ _ (by decide), key _ _ (by decide), key _ _ (by decide)] at hd
    rw [key _ _ (by decide), key _ _ (by decide), key _ _ (by decide), key _ _ (by decide)]
    exact hd

/-! ### Doc comments -/

theorem DocText.contents {x r content : List Char} {inner : Bool} (h : DocText x r inner content) :
    P.docContents (x ++ r) = some (content, inner, r) := by
  have hblock : ∀ {c : Char} {u r : List Char}, (c = '*' → (u ++ ['*', '/']).head? ≠ some '/') →
      InComment 1 (c :: u ++ ['*', '/']) →
      (P.blockComment ('/' :: '*' :: c :: u ++ ['*', '/'] ++ r) = some r ∧
      ((P.eaten ('/' :: '*' :: c :: u ++ ['*', '/'] ++ r) r).drop 3).dropLast.dropLast = u) := by
    intro c u r _ hic
    refine ⟨P.blockComment_complete ⟨_, rfl, hic⟩ r, ?_⟩
    rw [P.eaten_append]
    simp
  cases h with
  | @innerLine u cr r hu hl hcr =>
    unfold P.docContents
    have e : '/' :: '/' :: '!' :: content ++ cr ++ r = ['/', '/', '!'] ++ (content ++ cr ++ r) := by simp
    rw [e, if_pos (startsWith_iff.mpr ⟨_, rfl⟩)]
    simp only [List.cons_append, List.nil_append, List.drop_succ_cons, List.drop_zero]
    rw [takeUntil_content hu hl hcr]
  | @outerLine u cr r hu hl hh hcr =>
    unfold P.docContents
    have e : '/' :: '/' :: '/' :: content ++ cr ++ r = ['/', '/', '/'] ++ (content ++ cr ++ r) := by simp
    rw [e, if_neg (by simp), if_neg (by simp), if_pos (startsWith_iff.mpr ⟨_, rfl⟩)]
    simp only [List.cons_append, List.nil_append, List.drop_succ_cons, List.drop_zero]
    rw [takeUntil_content hu hl hcr, if_neg]
    rw [startsWithChar_iff]
    cases content with
    | cons c u => simpa using hh
    | nil =>
      rcases hcr with ⟨rfl, -⟩ | ⟨rfl, -⟩
      · rcases hl with rfl | ⟨_, rfl⟩ <;> simp
      · simp
  | @innerBlock u r hic =>
    obtain ⟨h1, h2⟩ := hblock (r := r) (fun h => absurd h (by decide)) hic
    unfold P.docContents
    rw [if_neg (by simp), if_pos (by simp), h1]
    simp only [Option.map_some, h2]
  | @outerBlock u r hic hs1 hs2 =>
    obtain ⟨h1, h2⟩ := hblock (r := r) (fun _ => hs2) hic
    unfold P.docContents
    rw [if_neg (by simp), if_neg (by simp), if_neg (by simp), if_pos (by simp), if_neg, h1]
    · simp only [Option.map_some, h2]
    · rw [startsWithChar_iff]
      simp only [List.cons_append, List.drop_succ_cons, List.drop_zero]
      cases content with
      | nil => simp at hs1
      | cons c u => simpa using hs1

/-- no trivia at a doc comment -/
theorem triv1_isDoc {s : List Char} (h : IsDoc s) : P.triv1 s = none := by
  have h1 : ∀ {p q : List Char}, p <+: s → q <+: s → p <+: q ∨ q <+: p := fun a b =>
    List.prefix_or_prefix_of_prefix a b
  cases hs : s with
  | nil =>
    subst hs
    rcases h with (h | ⟨h, -⟩) | (h | ⟨h, -⟩) <;> simp at h
  | cons c t =>
    rw [← hs]
    have hc : c = '/' := by
      subst hs
      rcases h with (h | ⟨h, -⟩) | (h | ⟨h, -⟩) <;> simp at h <;> exact h.1.symm
    have hw : isWhitespace c = false := by rw [hc]; decide
    have g1 : (startsWith s ['/', '/'] && (!startsWith s ['/', '/', '/'] ||
        startsWith s ['/', '/', '/', '/']) && !startsWith s ['/', '/', '!']) = false := by
      rw [← Bool.not_eq_true]
      simp only [Bool.and_eq_true, Bool.or_eq_true, Bool.not_eq_true', startsWith_iff_prefix,
        startsWith_false_iff]
      rintro ⟨⟨a1, a2⟩, a3⟩
      rcases h with (h | ⟨h, h'⟩) | (h | ⟨h, -⟩)
      · exact a3 h
      · rcases a2 with a2 | a2
        · exact a2 h
        · exact h' a2
      · rcases h1 a1 h with b | b <;> simp at b
      · rcases h1 a1 h with b | b <;> simp at b
    have g2 : startsWith s ['/', '*', '*', '/'] = false := by
      rw [startsWith_false_iff]
      intro a1
      rcases h with (h | ⟨h, h'⟩) | (h | ⟨h, _, h'⟩)
      · rcases h1 a1 h with b | b <;> simp at b
      · rcases h1 a1 h with b | b <;> simp at b
      · rcases h1 a1 h with b | b <;> simp at b
      · exact h' a1
    have g3 : (startsWith s ['/', '*'] && (!startsWith s ['/', '*', '*'] ||
        startsWith s ['/', '*', '*', '*']) && !startsWith s ['/', '*', '!']) = false := by
      rw [← Bool.not_eq_true]
      simp only [Bool.and_eq_true, Bool.or_eq_true, Bool.not_eq_true', startsWith_iff_prefix,
        startsWith_false_iff]
      rintro ⟨⟨a1, a2⟩, a3⟩
      rcases h with (h | ⟨h, h'⟩) | (h | ⟨h, h', -⟩)
      · rcases h1 a1 h with b | b <;> simp at b
      · rcases h1 a1 h with b | b <;> simp at b
      · exact a3 h
      · rcases a2 with a2 | a2
        · exact a2 h
        · exact h' a2
    rw [hs] at g1 g2 g3 ⊢
    unfold P.triv1
    simp only [g1, g2, g3, hw, Bool.false_eq_true, if_false]

theorem DocText.isDoc' {x r content : List Char} {inner : Bool} (h : DocText x r inner content) :
    IsDoc (x ++ r) := by
  have key : ∀ {c : Char} {u : List Char}, c ≠ '\n' → '\n' ∉ u → ∀ {cr r : List Char}, LineEnd r →
      (cr = [] ∨ cr = ['\r']) → u.head? ≠ some '/' → ¬ ['/'] <+: u ++ cr ++ r := by
    intro c u _ _ cr r hl hcr hh hp
    cases u with
    | cons d u => simp at hp hh; exact hh hp.symm
    | nil =>
      rcases hcr with rfl | rfl
      · rcases hl with rfl | ⟨_, rfl⟩ <;> simp at hp
      · simp at hp
  cases h with
  | innerLine => exact .inl (.inl ⟨_, by simp; rfl⟩)
  | @outerLine u cr r hu hl hh hcr =>
    refine .inl (.inr ⟨⟨_, by simp; rfl⟩, fun hp => ?_⟩)
    simp only [List.cons_append, List.cons_prefix_cons, true_and] at hp
    exact key (c := 'x') (by decide) hu hl (hcr.imp (·.1) (·.1)) hh hp
  | innerBlock => exact .inr (.inl ⟨_, by simp; rfl⟩)
  | @outerBlock u r hic h1 h2 =>
    refine .inr (.inr ⟨⟨_, by simp; rfl⟩, fun hp => ?_, fun hp => ?_⟩)
    · cases content with
      | nil => simp at h1
      | cons c u => simp at hp h1; exact h1 hp.symm
    · cases content with
      | nil => simp at h1
      | cons c u => simp at hp h2; exact h2 hp.symm

/-- Doc comments do not depend on what follows, except that a line comment must be ended. -/
theorem DocText.replace {x r r' content : List Char} {inner : Bool} (h : DocText x r inner content)
    (hb : NoBareCr content) (hl : LineEnd r → LineEnd r' ∧ (r' = [] → r = [])) :
    DocText x r' inner content := by
  have hcr : ∀ {u cr r : List Char}, NoBareCr u → LineEnd r →
      (LineEnd r → LineEnd r' ∧ (r' = [] → r = [])) →
      (cr = [] ∧ (r ≠ [] → u.getLast? ≠ some '\r') ∨ cr = ['\r'] ∧ r ≠ []) →
      (cr = [] ∧ (r' ≠ [] → u.getLast? ≠ some '\r') ∨ cr = ['\r'] ∧ r' ≠ []) := by
    intro u cr r hu hle hl h
    rcases h with ⟨rfl, h⟩ | ⟨rfl, h⟩
    · refine .inl ⟨rfl, fun _ hlast => ?_⟩
      obtain ⟨a, rfl⟩ := List.getLast?_eq_some_iff.mp hlast
      obtain ⟨b', hb⟩ := hu a [] rfl
      simp at hb
    · exact .inr ⟨rfl, fun h' => h ((hl hle).2 h')⟩
  cases h with
  | innerLine h1 h2 h3 => exact .innerLine h1 (hl h2).1 (hcr hb h2 hl h3)
  | outerLine h1 h2 h3 h4 => exact .outerLine h1 (hl h2).1 h3 (hcr hb h2 hl h4)
  | innerBlock h1 => exact .innerBlock h1
  | outerBlock h1 h2 h3 => exact .outerBlock h1 h2 h3

end
end PM2
