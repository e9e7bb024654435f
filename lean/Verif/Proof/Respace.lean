import Verif.Proof.Print
import Verif.Spec.Respace
/-!
# Printed streams with careless spacing write the stream with the spacing mended
-/

set_option linter.unusedSectionVars false

namespace PM2
open Spec

theorem respace_nil_iff {ts : List TokenTree} : respace ts = [] ↔ ts = [] := by
  cases ts <;> simp [respace]

/-- mending the spacing keeps what a stream begins with -/
theorem beginsJoinable_respace (ts : List TokenTree) : beginsJoinable (respace ts) = beginsJoinable ts := by
  cases ts with
  | nil => rfl
  | cons t ts =>
    cases t with
    | punct c sp span =>
      cases sp with
      | alone => rfl
      | joint => simp only [respace, respaceTree, loosen]; split <;> rfl
    | _ => rfl

theorem quoteJoins_respace {ts : List TokenTree} (h : QuoteJoins ts) : QuoteJoins (respace ts) := by
  rcases h with ⟨sym, raw, span, ts', rfl⟩ | ⟨x, span, ts', p, rfl, h⟩
  · exact .inl ⟨sym, raw, span, respace ts', rfl⟩
  · exact .inr ⟨x, span, respace ts', p, rfl, h⟩

theorem joinsWith_respace {c : Char} {ts : List TokenTree} (hb : beginsJoinable ts = true)
    (h : c = '/' → ∀ c' sp' span' ts', ts = .punct c' sp' span' :: ts' → c' ≠ '/' ∧ c' ≠ '*') :
    JoinsWith c (respace ts) := by
  cases ts with
  | nil => simp [beginsJoinable] at hb
  | cons t ts =>
    cases t with
    | punct c' sp span =>
      have hno : ¬ (c = '/' ∧ (c' = '/' ∨ c' = '*')) := by
        rintro ⟨rfl, h'⟩
        have := h rfl _ _ _ _ rfl
        rcases h' with h' | h'
        · exact this.1 h'
        · exact this.2 h'
      cases sp with
      | alone => exact .inl ⟨_, _, _, _, rfl, hno⟩
      | joint =>
        simp only [respace, respaceTree, loosen]
        split
        · exact .inl ⟨_, _, _, _, rfl, hno⟩
        · exact .inl ⟨_, _, _, _, rfl, hno⟩
    | literal x span => exact .inr ⟨x, span, respace ts, rfl, by simpa [beginsJoinable] using hb⟩
    | ident => simp [beginsJoinable] at hb
    | group => simp [beginsJoinable] at hb

section
variable [UnicodeTables] [LawfulUnicode]

theorem wf_respace {ts : List TokenTree} (h : Printable ts) : WF (respace ts) := by
  unfold WF
  induction h with
  | nil => exact .nil
  | ident h1 h2 _ ih => exact .ident h1 h2 ih
  | literal h1 _ ih => exact .literal h1 ih
  | group h1 _ _ ih1 ih2 => exact .group h1 ih1 ih2
  | @punct c sp span ts h1 h2 h3 _ ih =>
    cases sp with
    | alone => exact .punct h1 h2 (by simp) ih
    | joint =>
      simp only [respace, respaceTree, loosen]
      split
      · rename_i hb
        exact .punct h1 h2 (fun _ => joinsWith_respace (hb.resolve_left h2) (h3 rfl)) ih
      · exact .punct h1 h2 (by simp) ih
  | quote h1 _ ih =>
    simp only [respace, respaceTree, loosen]
    exact .quote (quoteJoins_respace h1) ih

theorem mayTouch_loose {c : Char} {sp : Spacing} {span : Span} {ts us : List TokenTree} {u : TokenTree}
    (hb : ¬ beginsJoinable ts = true) (e : respace ts = u :: us) : MayTouch (.punct c sp span) u := by
  rw [← beginsJoinable_respace, e] at hb
  cases u with
  | group => exact .beforeGroup
  | ident => exact .punctIdent
  | punct => simp [beginsJoinable] at hb
  | literal x s => exact .punctLiteral (by simpa [beginsJoinable] using hb)

/-- Printing writes the tokens with the spacing mended. -/
theorem spaced_respace {ts : List TokenTree} (h : Printable ts)
    (hwf : ∀ {ts}, Printable ts → WFL (respace ts)) : ∀ tr r,
    (tr = [] ∨ (tr = [' '] ∧ ts ≠ [])) → Spaced (respace ts) (displayLoop ts true false ++ tr) r := by
  have step : ∀ {tok tok' : TokenTree} {x : List Char} {ts : List TokenTree}, LeafText tok' x →
      displayTree tok = x → (IsJoint tok' → IsJoint tok ∧ ts ≠ []) →
      (IsJoint tok → ¬ IsJoint tok' → ∀ u us, respace ts = u :: us → MayTouch tok' u) →
      (∀ tr r, (tr = [] ∨ (tr = [' '] ∧ ts ≠ [])) → Spaced (respace ts) (displayLoop ts true false ++ tr) r) →
      ∀ tr r, (tr = [] ∨ (tr = [' '] ∧ tok :: ts ≠ [])) →
        Spaced (tok' :: respace ts) (displayLoop (tok :: ts) true false ++ tr) r := by
    intro tok tok' x ts hx hd hj hm ih tr r htr
    rw [displayLoop_cons, hd]
    by_cases hts : ts = []
    · subst hts
      have : x ++ ((if ([] : List TokenTree) = [] ∨ jointAfter tok = true then [] else [' ']) ++
          displayLoop [] true false) ++ tr = x ++ (tr ++ []) := by simp [displayLoop]
      rw [this]
      refine .leaf hx ⟨?_, fun hh => absurd rfl (hj hh).2, fun _ _ _ e => by simp [respace] at e⟩ ?_ .nil
      · rintro - - -
        rcases htr with rfl | ⟨rfl, -⟩ <;> simp
      · rcases htr with rfl | ⟨rfl, -⟩
        · exact .nil
        · exact trivia_space _
    · have hs := ih tr r (by rcases htr with h | h; exact .inl h; exact .inr ⟨h.1, hts⟩)
      generalize hgap : (if ts = [] ∨ jointAfter tok = true then [] else [' ']) = g
      have hg : (IsJoint tok ∧ g = []) ∨ (¬ IsJoint tok ∧ g = [' ']) := by
        by_cases hjt : IsJoint tok
        · left; rw [← hgap, if_pos (.inr (jointAfter_iff.mpr hjt))]; exact ⟨hjt, rfl⟩
        · right
          rw [← hgap, if_neg]
          · exact ⟨hjt, rfl⟩
          · rintro (h | h)
            · exact hts h
            · exact hjt (jointAfter_iff.mp h)
      have e : x ++ (g ++ displayLoop ts true false) ++ tr = x ++ (g ++ (displayLoop ts true false ++ tr)) := by
        simp
      rw [e]
      refine .leaf hx ⟨?_, ?_, ?_⟩ ?_ hs
      · rintro - - -
        rcases hg with ⟨-, rfl⟩ | ⟨-, rfl⟩ <;> simp
      · intro hh
        rcases hg with ⟨-, rfl⟩ | ⟨h', -⟩
        · rfl
        · exact absurd (hj hh).1 h'
      · intro hh u us e'
        rcases hg with ⟨h', -⟩ | ⟨-, rfl⟩
        · exact .inr (hm h' hh u us e')
        · exact .inl (by simp)
      · rcases hg with ⟨-, rfl⟩ | ⟨-, rfl⟩
        · exact .nil
        · exact trivia_space _
  induction h with
  | nil =>
    intro tr r htr
    rcases htr with rfl | ⟨-, h⟩
    · simpa [displayLoop, respace] using Spaced.nil
    · exact absurd rfl h
  | @ident sym raw span ts h1 h2 _ ih =>
    cases raw with
    | false => exact step (tok' := .ident sym false span) .ident rfl (by simp [IsJoint]) (by simp [IsJoint]) ih
    | true => exact step (tok' := .ident sym true span) .raw rfl (by simp [IsJoint]) (by simp [IsJoint]) ih
  | @literal x span ts h1 _ ih =>
    exact step (tok' := .literal x span) .literal rfl (by simp [IsJoint]) (by simp [IsJoint]) ih
  | @punct c sp span ts h1 h2 h3 _ ih =>
    cases sp with
    | alone => exact step (tok' := .punct c .alone span) .punct rfl (by simp [IsJoint]) (by simp [IsJoint]) ih
    | joint =>
      simp only [respace, respaceTree, loosen]
      split
      · rename_i hb
        refine step .punct rfl (fun _ => ⟨trivial, ?_⟩) (by simp [IsJoint]) ih
        rintro rfl
        simp [beginsJoinable, h2] at hb
      · rename_i hb
        refine step .punct rfl (by simp [IsJoint]) (fun _ _ u us e => ?_) ih
        exact mayTouch_loose (fun hh => hb (.inr hh)) e
  | @quote span ts h1 _ ih =>
    simp only [respace, respaceTree, loosen]
    refine step .punct rfl (fun _ => ⟨trivial, ?_⟩) (by simp [IsJoint]) ih
    rcases h1 with ⟨_, _, _, _, rfl⟩ | ⟨_, _, _, _, rfl, -⟩ <;> simp
  | @group d inner span ts hd hwin hwt ihin ih =>
    intro tr r htr
    have egrp : respace (.group d inner span :: ts) = .group d (respace inner) span :: respace ts := rfl
    rw [egrp]
    -- the gap behind the group, and the rest
    obtain ⟨g, s, e, hg, ht, hs⟩ : ∃ g s, (if ts = [] then [] else [' ']) ++ displayLoop ts true false ++ tr =
        g ++ s ∧ Gap (.group d (respace inner) span) g (respace ts) ∧ Trivia g (s ++ r) ∧
        Spaced (respace ts) s r := by
      by_cases hts : ts = []
      · subst hts
        refine ⟨tr, [], by simp [displayLoop], ⟨?_, by simp [IsJoint], fun _ _ _ e => by simp [respace] at e⟩,
          ?_, .nil⟩
        · rintro - - -
          rcases htr with rfl | ⟨rfl, -⟩ <;> simp
        · rcases htr with rfl | ⟨rfl, -⟩
          · exact .nil
          · exact trivia_space _
      · refine ⟨[' '], displayLoop ts true false ++ tr, by simp [hts], ⟨by simp, by simp [IsJoint], ?_⟩,
          trivia_space _, ih tr r (by rcases htr with h | h; exact .inl h; exact .inr ⟨h.1, hts⟩)⟩
        exact fun _ _ _ _ => .inl (by simp)
    have edisp : displayLoop (.group d inner span :: ts) true false ++ tr =
        displayTree (.group d inner span) ++ (g ++ s) := by
      rw [displayLoop_cons, ← e]
      simp [jointAfter]
    rw [edisp]
    cases d with
    | none => exact absurd rfl hd
    | parenthesis =>
      have hin := ihin [] (')' :: (g ++ s ++ r)) (.inl rfl)
      have ed : displayTree (.group .parenthesis inner span) ++ (g ++ s) =
          '(' :: ([] ++ (displayLoop inner true false ++ []) ++ ')' :: (g ++ s)) := by
        simp [displayTree, displayOpen, displayClose]
      rw [ed]
      refine .group (by rfl) .nil hin (fun _ hpre => ?_) hg ht hs
      have hno := (ihin [] [')'] (.inl rfl)).no_comment (hwf hwin) (.inr ⟨')', [], rfl, by decide⟩)
      obtain ⟨v, hv⟩ := hpre
      simp [errorText] at hv
      apply hno
      refine ⟨'E' :: 'R' :: 'R' :: 'O' :: 'R' :: '*' :: '/' :: ')' :: v, ?_⟩
      rw [List.append_nil, ← hv]
      rfl
    | bracket =>
      have hin := ihin [] (']' :: (g ++ s ++ r)) (.inl rfl)
      have ed : displayTree (.group .bracket inner span) ++ (g ++ s) =
          '[' :: ([] ++ (displayLoop inner true false ++ []) ++ ']' :: (g ++ s)) := by
        simp [displayTree, displayOpen, displayClose]
      rw [ed]
      exact .group (by rfl) .nil hin (by simp) hg ht hs
    | brace =>
      have hin := ihin (if inner = [] then [] else [' ']) ('}' :: (g ++ s ++ r)) (by
        by_cases h : inner = []
        · simp [h]
        · simp [h])
      have ed : displayTree (.group .brace inner span) ++ (g ++ s) =
          '{' :: ([' '] ++ (displayLoop inner true false ++ (if inner = [] then [] else [' '])) ++
            '}' :: (g ++ s)) := by
        cases inner <;> simp [displayTree, displayOpen, displayClose]
      rw [ed]
      exact .group (by rfl) (trivia_space _) hin (by simp) hg ht hs

end
end PM2
