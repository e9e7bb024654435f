import Verif.Proof.Layout
import Verif.Proof.Escape
import Verif.Model.Display
/-!
# Printed streams are written streams, and lexed streams are well-formed
-/

set_option linter.unusedSectionVars false

namespace PM2
open Spec

/-! ### Printing -/

theorem displayLoop_gap (ts : List TokenTree) (j : Bool) : displayLoop ts false j =
    (if ts = [] ∨ j = true then [] else [' ']) ++ displayLoop ts true false := by
  cases ts with
  | nil => simp [displayLoop]
  | cons tok ts => cases j <;> simp [displayLoop]

theorem displayLoop_cons (tok : TokenTree) (ts : List TokenTree) : displayLoop (tok :: ts) true false =
    displayTree tok ++ ((if ts = [] ∨ jointAfter tok = true then [] else [' ']) ++
      displayLoop ts true false) := by
  rw [← displayLoop_gap]
  simp [displayLoop]

theorem jointAfter_iff {tok : TokenTree} : jointAfter tok = true ↔ IsJoint tok := by
  cases tok with
  | punct c sp s => cases sp <;> simp [jointAfter, IsJoint]
  | _ => simp [jointAfter, IsJoint]

section
variable [UnicodeTables] [LawfulUnicode]

theorem trivia_space (r : List Char) : Trivia [' '] r := .ws (by decide) .nil

/-- a text with a leaf token does not begin with a comment -/
theorem P.leaf_no_comment {s r : List Char} {l : P.Leaf} (h : P.leaf s = some (l, r)) :
    ¬ ['/', '*'] <+: s ∧ ¬ ['/', '/'] <+: s := by
  obtain ⟨c, u, rfl, hc⟩ := P.leaf_head h
  have hne : c ≠ '/' → ¬ ['/', '*'] <+: c :: u ∧ ¬ ['/', '/'] <+: c :: u := by
    intro hne
    constructor <;> (rintro ⟨v, hv⟩; simp at hv; exact hne hv.1.symm)
  rcases hc with rfl | rfl | rfl | rfl | hc | hc | rfl | ⟨hc, h1, h2⟩ | hc
  · exact hne (by decide)
  · exact hne (by decide)
  · exact hne (by decide)
  · exact hne (by decide)
  · exact hne (tokStart_digit hc).2
  · exact hne (tokStart_ident hc).2
  · exact hne (by decide)
  · exact ⟨startsWith_false_iff.mp h2, startsWith_false_iff.mp h1⟩
  · obtain ⟨v, hv⟩ := startsWith_iff.mp hc
    simp [errorRepr] at hv
    exact hne (by rw [hv.1]; decide)

theorem Spec.Spaced.no_comment {ts : List TokenTree} {s r : List Char} (h : Spaced ts s r) (hw : WFL ts)
    (hr : Follow r) : ¬ ['/', '*'] <+: s ++ r := by
  rcases h.first with ⟨rfl, rfl⟩ | ⟨d, inner, span, ts', o, s', rfl, rfl, ho⟩ |
    ⟨tok, x, t, s', ts', rfl, rfl, hx, hg, ht, h'⟩
  · rcases hr with rfl | ⟨c, r', rfl, hc⟩
    · simp
    · rintro ⟨v, hv⟩
      simp at hv
      rw [← hv.1] at hc
      exact absurd hc (by decide)
  · rintro ⟨v, hv⟩
    simp at hv
    rw [← hv.1] at ho
    exact absurd ho (by decide)
  · obtain ⟨l, hl, -⟩ := leaf_written hx hw hg ht h' hr
    have := (P.leaf_no_comment hl).1
    simpa using this

/-- Printing writes the tokens. -/
theorem spaced_display {ts : List TokenTree} (h : WFL ts) : ∀ tr r,
    (tr = [] ∨ (tr = [' '] ∧ ts ≠ [])) → Spaced ts (displayLoop ts true false ++ tr) r := by
  have step : ∀ {tok : TokenTree} {x : List Char} {ts : List TokenTree}, LeafText tok x →
      displayTree tok = x → (IsJoint tok → ts ≠ []) →
      (∀ tr r, (tr = [] ∨ (tr = [' '] ∧ ts ≠ [])) → Spaced ts (displayLoop ts true false ++ tr) r) →
      ∀ tr r, (tr = [] ∨ (tr = [' '] ∧ tok :: ts ≠ [])) →
        Spaced (tok :: ts) (displayLoop (tok :: ts) true false ++ tr) r := by
    intro tok x ts hx hd hj ih tr r htr
    rw [displayLoop_cons, hd]
    by_cases hts : ts = []
    · subst hts
      have : x ++ ((if ([] : List TokenTree) = [] ∨ jointAfter tok = true then [] else [' ']) ++
          displayLoop [] true false) ++ tr = x ++ (tr ++ []) := by simp [displayLoop]
      rw [this]
      refine .leaf hx ⟨?_, fun hh => absurd rfl (hj hh), fun _ _ _ e => by simp at e⟩ ?_ .nil
      · rintro - - -
        rcases htr with rfl | ⟨rfl, -⟩ <;> simp
      · rcases htr with rfl | ⟨rfl, -⟩
        · exact .nil
        · exact trivia_space _
    · have hs := ih tr r (by rcases htr with h | h; exact .inl h; exact .inr ⟨h.1, hts⟩)
      generalize hgap : (if ts = [] ∨ jointAfter tok = true then [] else [' ']) = g
      have hg : (IsJoint tok ∧ g = []) ∨ (¬ IsJoint tok ∧ g = [' ']) := by
        by_cases hjt : IsJoint tok
        · left; rw [← hgap, if_pos (.inr (jointAfter_iff.mpr hjt))]; exact ⟨hjt, rfl⟩
        · right
          rw [← hgap, if_neg]
          · exact ⟨hjt, rfl⟩
          · rintro (h | h)
            · exact hts h
            · exact hjt (jointAfter_iff.mp h)
      have e : x ++ (g ++ displayLoop ts true false) ++ tr = x ++ (g ++ (displayLoop ts true false ++ tr)) := by
        simp
      rw [e]
      refine .leaf hx ⟨?_, ?_, ?_⟩ ?_ hs
      · rintro - - -
        rcases hg with ⟨-, rfl⟩ | ⟨-, rfl⟩ <;> simp
      · intro hh
        rcases hg with ⟨-, rfl⟩ | ⟨h', -⟩
        · rfl
        · exact absurd hh h'
      · intro hh _ _ _
        rcases hg with ⟨h', -⟩ | ⟨-, rfl⟩
        · exact absurd h' hh
        · exact .inl (by simp)
      · rcases hg with ⟨-, rfl⟩ | ⟨-, rfl⟩
        · exact .nil
        · exact trivia_space _
  have hjoin : ∀ {c : Char} {sp : Spacing} {span : Span} {ts : List TokenTree},
      (sp = .joint → JoinsWith c ts) → IsJoint (.punct c sp span) → ts ≠ [] := by
    intro c sp span ts h hj
    cases sp with
    | alone => simp [IsJoint] at hj
    | joint => rcases h rfl with ⟨_, _, _, _, rfl, -⟩ | ⟨_, _, _, rfl, -⟩ <;> simp
  induction h with
  | nil =>
    intro tr r htr
    rcases htr with rfl | ⟨-, h⟩
    · simpa [displayLoop] using Spaced.nil
    · exact absurd rfl h
  | @ident sym raw span ts h1 h2 _ ih =>
    cases raw with
    | false => exact step .ident rfl (by simp [IsJoint]) ih
    | true => exact step .raw rfl (by simp [IsJoint]) ih
  | literal h1 _ ih => exact step .literal rfl (by simp [IsJoint]) ih
  | punct h1 h2 h3 _ ih => exact step .punct rfl (hjoin h3) ih
  | quote h1 _ ih =>
    refine step .punct rfl (fun _ => ?_) ih
    rcases h1 with ⟨_, _, _, _, rfl⟩ | ⟨_, _, _, _, rfl, -⟩ <;> simp
  | @group d inner span ts hd hwin hwt ihin ih =>
    intro tr r htr
    -- the gap behind the group, and the rest
    obtain ⟨g, s, e, hg, ht, hs⟩ : ∃ g s, (if ts = [] then [] else [' ']) ++ displayLoop ts true false ++ tr =
        g ++ s ∧ Gap (.group d inner span) g ts ∧ Trivia g (s ++ r) ∧ Spaced ts s r := by
      by_cases hts : ts = []
      · subst hts
        refine ⟨tr, [], by simp [displayLoop], ⟨?_, by simp [IsJoint], fun _ _ _ e => by simp at e⟩, ?_, .nil⟩
        · rintro - - -
          rcases htr with rfl | ⟨rfl, -⟩ <;> simp
        · rcases htr with rfl | ⟨rfl, -⟩
          · exact .nil
          · exact trivia_space _
      · refine ⟨[' '], displayLoop ts true false ++ tr, by simp [hts], ⟨by simp, by simp [IsJoint], ?_⟩,
          trivia_space _, ih tr r (by rcases htr with h | h; exact .inl h; exact .inr ⟨h.1, hts⟩)⟩
        exact fun _ _ _ _ => .inl (by simp)
    have edisp : displayLoop (.group d inner span :: ts) true false ++ tr =
        displayTree (.group d inner span) ++ (g ++ s) := by
      rw [displayLoop_cons, ← e]
      simp [jointAfter]
    rw [edisp]
    cases d with
    | none => exact absurd rfl hd
    | parenthesis =>
      have hin := ihin [] (')' :: (g ++ s ++ r)) (.inl rfl)
      have ed : displayTree (.group .parenthesis inner span) ++ (g ++ s) =
          '(' :: ([] ++ (displayLoop inner true false ++ []) ++ ')' :: (g ++ s)) := by
        simp [displayTree, displayOpen, displayClose]
      rw [ed]
      refine .group (by rfl) .nil hin (fun _ hpre => ?_) hg ht hs
      have hno := (ihin [] [')'] (.inl rfl)).no_comment hwin (.inr ⟨')', [], rfl, by decide⟩)
      obtain ⟨v, hv⟩ := hpre
      simp [errorText] at hv
      apply hno
      refine ⟨'E' :: 'R' :: 'R' :: 'O' :: 'R' :: '*' :: '/' :: ')' :: v, ?_⟩
      rw [List.append_nil, ← hv]
      rfl
    | bracket =>
      have hin := ihin [] (']' :: (g ++ s ++ r)) (.inl rfl)
      have ed : displayTree (.group .bracket inner span) ++ (g ++ s) =
          '[' :: ([] ++ (displayLoop inner true false ++ []) ++ ']' :: (g ++ s)) := by
        simp [displayTree, displayOpen, displayClose]
      rw [ed]
      exact .group (by rfl) .nil hin (by simp) hg ht hs
    | brace =>
      have hin := ihin (if inner = [] then [] else [' ']) ('}' :: (g ++ s ++ r)) (by
        by_cases h : inner = []
        · simp [h]
        · simp [h])
      have ed : displayTree (.group .brace inner span) ++ (g ++ s) =
          '{' :: ([' '] ++ (displayLoop inner true false ++ (if inner = [] then [] else [' '])) ++
            '}' :: (g ++ s)) := by
        cases inner <;> simp [displayTree, displayOpen, displayClose]
      rw [ed]
      exact .group (by rfl) (trivia_space _) hin (by simp) hg ht hs

/-! ### Lexed streams -/

theorem P.Lex.of_leaf {E : Nat} {s q r : List Char} {ts : List TokenTree} {l : P.Leaf}
    (h : P.Lex E s ts q) (hl : P.leaf s = some (l, r)) : ∃ span ts', ts = l.tok span :: ts' := by
  have hn := P.next_of_leaf hl
  cases h with
  | eof h => rw [hn] at h; simp at h
  | cls h => rw [hn] at h; simp at h
  | doc h => rw [hn] at h; simp at h
  | leaf h =>
    rw [hn] at h
    simp at h
    obtain ⟨rfl, rfl, rfl⟩ := h
    exact ⟨_, _, rfl⟩
  | group h => rw [hn] at h; simp at h

/-- where a token must start, there is one -/
theorem P.Lex.leaf_some {E : Nat} {c : Char} {s q : List Char} {ts : List TokenTree}
    (h : P.Lex E (c :: s) ts q) (hc : TokStart c) (hs : c ≠ '/') : ∃ l r, P.leaf (c :: s) = some (l, r) := by
  cases hl : P.leaf (c :: s) with
  | some x => exact ⟨x.1, x.2, rfl⟩
  | none =>
    exfalso
    obtain ⟨g1, g2, -⟩ := P.no_trivia (r := s) hc.1 hs
    have hsk : P.skipWs (c :: s) = c :: s := by rw [P.skipWs_eq, g1]
    have hn : P.next (c :: s) = .bad (c :: s) := by
      unfold P.next P.next1
      rw [hsk, g2]
      simp only
      rw [(P.closeD_none hc).2]
      simp only
      rw [(P.closeD_none hc).1]
      simp only
      rw [hl]
    cases h with
    | eof h => rw [hn] at h; simp at h
    | cls h => rw [hn] at h; simp at h
    | doc h => rw [hn] at h; simp at h
    | leaf h => rw [hn] at h; simp at h
    | group h => rw [hn] at h; simp at h

theorem validIdent_head {sym w : List Char} {raw : Bool} {c : Char} {u : List Char} (h : ValidIdent sym)
    (e : (if raw then ['r', '#'] else []) ++ sym ++ w = c :: u) : isIdentStart c = true := by
  obtain ⟨c', u', e', hc⟩ := identText_head (raw := raw) h w
  rw [e'] at e
  simp at e
  rw [← e.1]
  exact hc

theorem P.leaf_ident_valid {s sym r : List Char} {raw : Bool} (h : P.leaf s = some (.ident sym raw, r)) :
    ValidIdent sym ∧ (raw = true → sym ∉ neverRaw) ∧ s = (if raw then ['r', '#'] else []) ++ sym ++ r := by
  obtain ⟨-, -, hi⟩ := P.leaf_ident h
  unfold P.ident at hi
  split at hi
  · simp at hi
  · obtain ⟨e, h1, -, h2, -⟩ := PM2.identAny_spec hi
    exact ⟨h1, h2, e⟩

theorem P.leaf_literal_valid {s x r : List Char} (h : P.leaf s = some (.literal x, r)) : LitLex x := by
  rcases P.leaf_literal h with ⟨h1, e⟩ | ⟨rfl, -⟩
  · obtain ⟨y, e', h2⟩ := P.literal_whole h1
    rw [e] at e'
    have := List.append_cancel_right e'
    exact .inr (this ▸ h2)
  · exact .inl errorText_eq.symm

theorem punct_joins {E : Nat} {c : Char} {r q : List Char} {ts : List TokenTree} (h : P.Lex E r ts q)
    (hc : ¬ ['/', '/'] <+: c :: r ∧ ¬ ['/', '*'] <+: c :: r) (hr : (P.punctChar r).isSome = true) :
    JoinsWith c ts := by
  obtain ⟨⟨c', r', rfl, hc'⟩, h1, h2⟩ := P.punctChar_isSome.mp hr
  have hno : ¬ (c = '/' ∧ (c' = '/' ∨ c' = '*')) := by
    rintro ⟨rfl, rfl | rfl⟩
    · exact hc.1 ⟨_, rfl⟩
    · exact hc.2 ⟨_, rfl⟩
  have hleaf : ∃ l r2, P.leaf (c' :: r') = some (l, r2) := by
    by_cases hq : c' = '\''
    · subst hq
      exact h.leaf_some (by decide) (by decide)
    · refine ⟨_, _, leaf_written_punct hc' hq ?_⟩
      rintro rfl
      constructor
      · intro hh
        cases r' with
        | nil => simp at hh
        | cons d r' => simp at hh; subst hh; exact h1 ⟨_, rfl⟩
      · intro hh
        cases r' with
        | nil => simp at hh
        | cons d r' => simp at hh; subst hh; exact h2 ⟨_, rfl⟩
  obtain ⟨l, r2, hl⟩ := hleaf
  obtain ⟨span, ts', rfl⟩ := h.of_leaf hl
  cases l with
  | ident sym raw =>
    obtain ⟨hv, -, e⟩ := P.leaf_ident_valid hl
    exact absurd hc' (identStart_not_punct (validIdent_head hv e.symm))
  | punct c'' sp =>
    obtain ⟨-, hp⟩ := P.leaf_punct hl
    obtain ⟨e, -⟩ := P.punct_spec hp
    simp at e
    rw [← e.1] at *
    exact .inl ⟨_, _, _, _, rfl, hno⟩
  | literal x =>
    right
    refine ⟨x, span, ts', rfl, ?_⟩
    obtain ⟨d, u, rfl, hd⟩ := litOk_head (P.leaf_literal_valid hl)
    have he : c' = d := by
      rcases P.leaf_literal hl with ⟨-, e⟩ | ⟨e1, e⟩
      · simp at e; exact e.1
      · rw [← e1] at e; simp at e; exact e.1
    subst he
    rw [hd hc']
    rfl

theorem P.punct_quote {s r : List Char} {sp : Spacing} (h : P.punct s = some ('\'', sp, r)) :
    sp = .joint ∧ ∃ sym raw after, P.identAny r = some (sym, raw, after) ∧
      after.head? ≠ some '\'' ∧ (raw = false → after.head? ≠ some '#') := by
  have hsw : ∀ {l : List Char} {d : Char}, startsWithChar l d = false → l.head? ≠ some d := by
    intro l d hh
    cases l with
    | nil => simp
    | cons a l => simpa [startsWithChar] using hh
  unfold P.punct at h
  split at h
  · simp at h
  · rename_i ch r' hp
    split at h
    · split at h
      · simp at h
      · rename_i sym raw after hi
        split at h
        · simp at h
        · rename_i hcond
          simp only [Option.some.injEq, Prod.mk.injEq, true_and] at h
          obtain ⟨rfl, rfl⟩ := h
          simp only [Bool.or_eq_true, Bool.and_eq_true, not_or, Bool.not_eq_true, not_and,
            Bool.not_eq_true', Bool.not_eq_false] at hcond
          refine ⟨rfl, sym, raw, after, hi, hsw hcond.1, ?_⟩
          rintro rfl
          obtain ⟨-, -, -, -, h5⟩ := PM2.identAny_spec hi
          apply hsw
          cases hh : startsWithChar after '#' with
          | false => rfl
          | true =>
            exact absurd (startsWith_iff_prefix.mp (hcond.2 hh)) (h5 rfl)
    · rename_i hq
      simp at h
      exact absurd h.1 hq

theorem quote_joins {E : Nat} {r q sym after : List Char} {raw : Bool} {ts : List TokenTree}
    (h : P.Lex E r ts q) (hi : P.identAny r = some (sym, raw, after)) (h1 : after.head? ≠ some '\'')
    (h2 : raw = false → after.head? ≠ some '#') : QuoteJoins ts := by
  obtain ⟨e, hv, hst, -, -⟩ := PM2.identAny_spec hi
  obtain ⟨c, u, e', hc⟩ := identText_head (raw := raw) hv after
  rw [e'] at e
  subst e
  obtain ⟨l, r2, hl⟩ := h.leaf_some (tokStart_ident hc).1 (tokStart_ident hc).2
  obtain ⟨span, ts', rfl⟩ := h.of_leaf hl
  cases l with
  | ident sym raw => exact .inl ⟨_, _, _, _, rfl⟩
  | punct c' sp =>
    obtain ⟨-, hp⟩ := P.leaf_punct hl
    obtain ⟨e, hp, -⟩ := P.punct_spec hp
    simp at e
    rw [← e.1] at hp
    exact absurd hp (identStart_not_punct hc)
  | literal x =>
    right
    refine ⟨x, span, ts', ?_⟩
    have hlit : P.literal (c :: u) = some r2 ∧ c :: u = x ++ r2 := by
      rcases P.leaf_literal hl with hh | ⟨-, e⟩
      · exact hh
      · simp [errorRepr] at e
        exact absurd e.1 (tokStart_ident hc).1.2.1
    obtain ⟨hlit, hx⟩ := hlit
    cases raw with
    | true =>
      simp at e'
      rw [← e'.1, ← e'.2, raw_not_literal hv] at hlit
      simp at hlit
    | false =>
      simp at e'
      -- the word before a character that is not part of it is the identifier
      have key : ∀ {p v : List Char} {a : Char}, p ∈ [[], ['r'], ['b'], ['c'], ['b', 'r'], ['c', 'r']] →
          (a = '"' ∨ a = '\'' ∨ a = '#') → p ++ a :: v = c :: u → p ≠ [] ∧ a = '"' := by
        intro p v a hp ha ep
        have hac : isIdentContinue a = false := by
          rcases ha with rfl | rfl | rfl <;> exact continue_not (by decide) (by decide)
        rw [← e'] at ep
        cases after with
        | nil =>
          have : a ∈ sym := by
            have : a ∈ sym ++ [] := by rw [← ep]; simp
            simpa using this
          rw [(ValidIdent.continue hv) a this] at hac
          simp at hac
        | cons b after =>
          obtain ⟨g1, g2, -⟩ := word_unique (letters_continue hp) (ValidIdent.continue hv) hac (hst b after rfl) ep
          refine ⟨?_, ?_⟩
          · rintro rfl
            obtain ⟨c1, t1, e1, -⟩ := hv
            rw [← g1] at e1
            simp at e1
          · subst g2
            rcases ha with rfl | rfl | rfl
            · rfl
            · simp at h1
            · exact absurd rfl (h2 rfl)
      rcases literal_shape hlit with ⟨y, suf, ey, hq, -⟩ | ⟨d, v, ey, hd⟩
      · have exy : x = y ++ suf := by
          rw [hx] at ey
          exact List.append_cancel_right ey
        cases hq with
        | @str k y hy =>
          obtain ⟨p, a, hpre, hp, ha⟩ := strStart_cases (StrText.start hy suf)
          rw [← exy] at hpre
          obtain ⟨v, hv'⟩ := hpre
          obtain ⟨k1, k2⟩ := key (a := a) (v := v ++ r2) hp (by rcases ha with ha | ha <;> simp [ha])
            (by rw [hx, ← hv']; simp)
          refine ⟨p, rfl, ?_, ?_⟩
          · have : ∀ p ∈ [[], ['r'], ['b'], ['c'], ['b', 'r'], ['c', 'r']], p ≠ [] →
              p ∈ [['r'], ['b'], ['c'], ['b', 'r'], ['c', 'r']] := by decide
            exact this p hp k1
          · rw [← k2]
            exact ⟨v, hv'⟩
        | @byte el he =>
          have := key (p := ['b']) (a := '\'') (v := el ++ ['\''] ++ suf ++ r2) (by simp) (by simp)
            (by rw [hx, exy]; simp)
          exact absurd this.2 (by decide)
        | @char el he =>
          have := key (p := []) (a := '\'') (v := el ++ ['\''] ++ suf ++ r2) (by simp) (by simp)
            (by rw [hx, exy]; simp)
          exact absurd rfl this.1
      · simp at ey
        rw [← ey.1] at hd
        exact absurd hd (identStart_not_digit hc)

theorem litString_lex (s : List Char) : LitLex (litString s) := by
  right
  have := literal_quoted (.str (litString_value s).1) []
  simpa [P.literalSuffix, P.identNotRaw] using this

theorem doc_valid : ValidIdent ['d', 'o', 'c'] := by
  refine ⟨'d', ['o', 'c'], rfl, ?_, ?_⟩
  · simp only [isIdentStart, Bool.or_eq_true]
    right
    show xidStart 'd' = true
    rw [LawfulUnicode.start_ascii _ (by decide)]; decide
  · intro d hd
    simp at hd
    rcases hd with rfl | rfl <;> exact continue_of_nat (by decide)

/-- Lexed streams are well-formed. -/
theorem P.Lex.wf {E : Nat} {s q : List Char} {ts : List TokenTree} (h : P.Lex E s ts q) : WFL ts := by
  induction h with
  | eof => exact .nil
  | cls => exact .nil
  | @doc s content inner s1 r ts q hn h ih =>
    have hg : WFL (.group .bracket [.ident ['d', 'o', 'c'] false ⟨E - s1.length, E - r.length⟩,
        .punct '=' .alone ⟨E - s1.length, E - r.length⟩,
        .literal (litString content) ⟨E - s1.length, E - r.length⟩] ⟨E - s1.length, E - r.length⟩ :: ts) :=
      .group (by simp) (.ident doc_valid (by simp) (.punct (by decide +kernel) (by decide) (by simp)
        (.literal (litString_lex content) .nil))) ih
    cases inner with
    | true =>
      exact .punct (by decide +kernel) (by decide) (by simp)
        (.punct (by decide +kernel) (by decide) (by simp) hg)
    | false => exact .punct (by decide +kernel) (by decide) (by simp) hg
  | @leaf s l s1 r ts q hn h ih =>
    obtain ⟨hl, -⟩ := P.next_leaf hn
    cases l with
    | ident sym raw =>
      obtain ⟨h1, h2, -⟩ := P.leaf_ident_valid hl
      exact .ident h1 h2 ih
    | literal x => exact .literal (P.leaf_literal_valid hl) ih
    | punct c sp =>
      obtain ⟨-, hp⟩ := P.leaf_punct hl
      by_cases hc : c = '\''
      · subst hc
        obtain ⟨rfl, sym, raw, after, h1, h2, h3⟩ := P.punct_quote hp
        exact .quote (quote_joins h h1 h2 h3) ih
      · obtain ⟨rfl, h1, h2, -⟩ := P.punct_spec hp
        refine .punct ((punctChars_eq c).mpr h1) hc (fun hj => ?_) ih
        have := P.leaf_no_comment hl
        exact punct_joins h ⟨this.2, this.1⟩ ((h2 hc).mp hj)
  | @group s d s1 r inner c r1 ts q hn h1 hc h2 ih1 ih2 =>
    refine .group ?_ ih1 ih2
    rintro rfl
    rcases P.closeD_cases hc with ⟨-, e⟩ | ⟨-, e⟩ | ⟨-, e⟩ <;> simp at e

/-- no token begins with a byte order mark -/
theorem P.Lex.no_bom {E : Nat} {s q : List Char} {ts : List TokenTree} (h : P.Lex E s ts q) :
    P.stripBom s = s := by
  unfold P.stripBom
  split
  · rename_i hb
    exfalso
    obtain ⟨u, rfl⟩ := startsWith_iff.mp hb
    have hb : isIdentContinue '\ufeff' = false := LawfulUnicode.continue_not_bom
    obtain ⟨l, r, hl⟩ := P.Lex.leaf_some (c := '\ufeff') (s := u) h (by decide) (by decide)
    obtain ⟨c, u', e, hc⟩ := P.leaf_head hl
    simp at e
    obtain ⟨rfl, rfl⟩ := e
    rcases hc with hc | hc | hc | hc | hc | hc | hc | ⟨hc, -⟩ | hc
    · exact absurd hc (by decide)
    · exact absurd hc (by decide)
    · exact absurd hc (by decide)
    · exact absurd hc (by decide)
    · exact absurd hc (by decide)
    · rw [identStart_continue hc] at hb; simp at hb
    · exact absurd hc (by decide)
    · exact absurd hc (by decide)
    · obtain ⟨v, hv⟩ := startsWith_iff.mp hc
      simp [errorRepr] at hv
  · rfl

end
end PM2
