import Verif.Proof.Context
import Verif.Props.Moves
import Verif.Proof.Escape
import Verif.Spec.Decide
/-! # C05, C07–C10: what happens at a position between tokens -/

set_option linter.unusedSectionVars false

namespace PM2.Props
open Spec

section
variable [UnicodeTables] [LawfulUnicode]

theorem sep_comment {a w : List Char} (hw : ['/', '/'] <+: w ∨ ['/', '*'] <+: w)
    (ha : a.getLast? ≠ some '/') (he : ¬ (errorText.drop 1 <+: w)) : P.Sep a w := by
  refine ⟨bd_comment hw, fun h => absurd h ha, ?_⟩
  intro u v e hu hv _ hp
  obtain ⟨n, hn⟩ : ∃ n, n = u.length := ⟨_, rfl⟩
  have hv' : v = errorText.drop n := by rw [hn, errorText_eq, e]; simp
  have hn1 : 1 ≤ n := by
    rw [hn]; cases u with
    | nil => exact absurd rfl hu
    | cons _ _ => simp
  have hn2 : n < 11 := by
    have : errorRepr.length = u.length + v.length := by rw [e]; simp
    have h3 : 0 < v.length := List.length_pos_iff.mpr hv
    simp [errorRepr] at this
    omega
  have hdec : ∀ n < 11, 1 ≤ n → n = 1 ∨ (¬ ['/', '/'] <+: errorText.drop n ∧
      ¬ ['/', '*'] <+: errorText.drop n ∧ 2 ≤ (errorText.drop n).length) ∨
      (errorText.drop n).head? ≠ some '/' := by decide
  rcases hdec n hn2 hn1 with rfl | ⟨h1, h2, h3⟩ | h1
  · exact he (by rw [← hv']; exact hp)
  · rw [← hv'] at h1 h2 h3
    rcases hw with hw | hw
    · exact h1 (List.prefix_of_prefix_length_le hw hp h3)
    · exact h2 (List.prefix_of_prefix_length_le hw hp h3)
  · rw [← hv'] at h1
    cases v with
    | nil => exact hv rfl
    | cons c v =>
      obtain ⟨x, hx⟩ := hp
      apply h1
      rcases hw with ⟨y, hw⟩ | ⟨y, hw⟩ <;> rw [← hw] at hx <;> simp at hx <;> simp [hx.1]

theorem sep_close {a w : List Char} {c : Char} (hc : c ∈ closers)
    (he : ¬ (c = ')' ∧ errorText.dropLast <:+ a)) : P.Sep a (c :: w) := by
  refine ⟨bd_close hc w, ?_, ?_⟩
  · intro _ w' e
    simp at e
    rw [e.1] at hc
    exact absurd hc (by decide)
  · intro u v e hu hv hs hp
    obtain ⟨n, hn⟩ : ∃ n, n = u.length := ⟨_, rfl⟩
    have hv' : v = errorText.drop n := by rw [hn, errorText_eq, e]; simp
    have hu' : u = errorText.take n := by rw [hn, errorText_eq, e]; simp
    have hn1 : 1 ≤ n := by
      rw [hn]; cases u with
      | nil => exact absurd rfl hu
      | cons _ _ => simp
    have hn2 : n < 11 := by
      have : errorRepr.length = u.length + v.length := by rw [e]; simp
      have h3 : 0 < v.length := List.length_pos_iff.mpr hv
      simp [errorRepr] at this
      omega
    have hdec : ∀ n < 11, 1 ≤ n → n = 10 ∨ ∀ c ∈ closers, (errorText.drop n).head? ≠ some c := by
      decide
    have hhead : v.head? = some c := by
      cases v with
      | nil => exact absurd rfl hv
      | cons d v => simp at hp; simp [hp.1]
    rcases hdec n hn2 hn1 with rfl | h1
    · have h2 : errorText.drop 10 = [')'] := rfl
      rw [hv', h2] at hhead
      simp at hhead
      refine he ⟨hhead.symm, ?_⟩
      have h3 : errorText.take 10 = errorText.dropLast := rfl
      rw [← h3, ← hu']; exact hs
    · exact h1 c hc (by rw [← hv']; exact hhead)

theorem sep_nil {a : List Char} : P.Sep a [] := by
  refine ⟨bd_nil, by simp, ?_⟩
  intro u v _ _ hv _ hp
  exact hv (by simpa using hp)

theorem run_bad {E fuel : Nat} {s s1 : List Char} {toks : List TokenTree} {stack : List Frame}
    (h : P.next s = .bad s1) : ∃ e, P.run E (fuel + 1) ⟨P.skipWs s, toks, stack⟩ = .err e := by
  refine ⟨⟨E - s1.length, E - s1.length⟩, ?_⟩
  simp only [P.run, P.step, P.next_skipWs, h]

/-! ### C07, failure -/

/-- **C07.** At a position between tokens, a closing delimiter that is not the one of the innermost
open delimiter makes the parse fail; in particular when no delimiter is open. (`)` after `(/*ERROR*/`
is excluded: it completes the error literal.) -/
theorem C07_mismatch {a cl b : List Char} {c : Char} (hb : Between a cl) (hc : c ∈ closers)
    (hcl : cl.head? ≠ some c) (he : ¬ (c = ')' ∧ errorText.dropLast <:+ a))
    {sm : SourceMap} {texts : List (List Char)} (h : History sm texts) (hr : Room texts (a ++ c :: b)) :
    ∃ e, (TokenStream.fromStr sm (a ++ c :: b)).2 = .err e := by
  obtain ⟨toks, stack, hst, hall⟩ := hb.run
  obtain ⟨k, -, e⟩ := hall (c :: b) (sep_close hc he)
    (by intro _ w' e; simp at e; rw [e.1] at hc; exact absurd hc (by decide)) h hr
  rw [e]
  obtain ⟨d, hd⟩ := closeD_closers.mp hc
  have hn := P.next_of_close (r := b) hd
  simp only [P.run, P.step, P.next_skipWs, hn]
  cases stack with
  | nil => exact ⟨_, rfl⟩
  | cons f stack =>
    have hf : f.delim ≠ d := by
      rintro rfl
      cases cl with
      | nil => simp at hst
      | cons c' cl =>
        simp at hst hcl
        apply hcl
        have h1 := hst.1
        rcases P.closeD_cases hd with ⟨rfl, h2⟩ | ⟨rfl, h2⟩ | ⟨rfl, h2⟩ <;>
          rcases P.closeD_cases h1 with ⟨rfl, h3⟩ | ⟨rfl, h3⟩ | ⟨rfl, h3⟩ <;>
          first | rfl | (rw [h2] at h3; exact absurd h3 (by decide))
    simp only [List.map_cons, Frame.shift, ne_eq, hf, not_false_eq_true, if_true]
    exact ⟨_, rfl⟩

/-- **C07.** A text that ends at a position where a delimiter is open is rejected. -/
theorem C07_unclosed {a cl : List Char} (hb : Between a cl) (hcl : cl ≠ [])
    {sm : SourceMap} {texts : List (List Char)} (h : History sm texts) (hr : Room texts a) :
    ∃ e, (TokenStream.fromStr sm a).2 = .err e := by
  obtain ⟨toks, stack, hst, hall⟩ := hb.run
  obtain ⟨k, -, e⟩ := hall [] sep_nil (by simp) h (by simpa using hr)
  rw [List.append_nil] at e
  rw [e]
  cases stack with
  | nil => simp at hst; exact absurd hst hcl
  | cons f stack =>
    simp only [P.run, P.step, P.next_skipWs, P.next_nil, List.map_cons]
    exact ⟨_, rfl⟩

/-! ### C05 -/

/-- Texts at the start of which every token ends by itself: the end, whitespace, a delimiter. -/
def Stops (r : List Char) : Prop :=
  r = [] ∨ ∃ c r', r = c :: r' ∧ (isWhitespace c = true ∨ c ∈ closers ∨ c ∈ ['(', '[', '{'])

theorem stops_bd {r : List Char} (h : Stops r) : P.Bd r := by
  rcases h with rfl | ⟨c, r', rfl, h⟩
  · exact bd_nil
  · rcases h with h | h | h
    · exact bd_ws h _
    · exact bd_close h _
    · rintro d w e
      simp at e
      obtain ⟨rfl, -⟩ := e
      simp at h
      rcases h with rfl | rfl | rfl <;>
        exact ⟨continue_false (by decide) (by decide), by decide, .inl (by decide)⟩

/-- **C05.** At a position between tokens, whitespace and plain comments (line, block, nested) are
interchangeable: the parse gives the same tokens, modulo spans, whichever of them is written there, and
fails for all or for none. Writing nothing is included where the next text ends the previous token
anyway. A comment may not follow a slash directly. -/
theorem C05_interchange {a cl t t' r : List Char} (hb : Between a cl)
    (ht : Trivia t r) (ht' : Trivia t' r) (hne : t ≠ [] ∨ Stops r) (hne' : t' ≠ [] ∨ Stops r)
    (hs : a.getLast? = some '/' → (t ++ r).head? ≠ some '/' ∧ (t' ++ r).head? ≠ some '/')
    (he : NoErrorAcross a (t ++ r)) (he' : NoErrorAcross a (t' ++ r))
    (hbom : a = [] → (t ++ r).head? ≠ some '\ufeff' ∧ (t' ++ r).head? ≠ some '\ufeff')
    {sm sm' : SourceMap} {texts texts' : List (List Char)}
    (h : History sm texts) (h' : History sm' texts')
    (hr : Room texts (a ++ (t ++ r))) (hr' : Room texts' (a ++ (t' ++ r))) :
    SameRes (TokenStream.fromStr sm (a ++ (t ++ r))).2
      (TokenStream.fromStr sm' (a ++ (t' ++ r))).2 := by
  obtain ⟨toks, stack, hst, hall⟩ := hb.run
  have bd : ∀ {t : List Char}, Trivia t r → (t ≠ [] ∨ Stops r) → P.Bd (t ++ r) := by
    intro t ht hne
    by_cases hn : t = []
    · subst hn
      rcases hne with hne | hne
      · exact absurd rfl hne
      · simpa using stops_bd hne
    · exact bd_trivia ht hn
  have hd : ∀ {w : List Char} {c : Char}, w.head? ≠ some c → ∀ w', w ≠ c :: w' := by
    rintro w c h w' rfl; simp at h
  obtain ⟨k, -, e⟩ := hall (t ++ r) ⟨bd ht hne, fun h => hd (hs h).1, he⟩ (fun h => hd (hbom h).1) h hr
  obtain ⟨k', -, e'⟩ := hall (t' ++ r) ⟨bd ht' hne', fun h => hd (hs h).2, he'⟩
    (fun h => hd (hbom h).2) h' hr'
  rw [e, e', P.skipWs_trivia ht, P.skipWs_trivia ht']
  have hl := (P.skipWs_suffix r).length_le
  rw [P.run_fuel (fuel' := r.length + 1) (by simp only [List.length_append]; omega)
      (by simp only; omega),
    P.run_fuel (fuel := (t' ++ r).length + 1) (fuel' := r.length + 1)
      (by simp only [List.length_append]; omega) (by simp only; omega)]
  refine P.run_erase _ _ _ _ _ _ (by omega) ?_ ?_
  · rw [erase_shift, erase_shift]
  · simp only [List.map_map]
    congr 1
    funext f
    simp [Frame.erase, Frame.shift, erase_shift]

/-! ### C08 -/

/-- **C08.** The end of a block comment is determined by its start: counting nested comments, there is
one terminator that balances the opener. -/
theorem C08_extent {b b' r r' : List Char} (h : IsBlockComment b) (h' : IsBlockComment b')
    (e : b ++ r = b' ++ r') : b = b' ∧ r = r' := IsBlockComment.unique h h' e

/-- **C08.** A block comment (not a doc comment) extends to the balancing terminator, exactly: what
follows is parsed as if a space stood in place of the comment. -/
theorem C08_skipped {a cl b r : List Char} (hb : Between a cl) (hbc : IsBlockComment b)
    (hnd : ¬ DocBlockStart (b ++ r)) (ha : a.getLast? ≠ some '/')
    (he : ¬ (errorText.drop 1 <+: b ++ r))
    {sm sm' : SourceMap} {texts texts' : List (List Char)}
    (h : History sm texts) (h' : History sm' texts')
    (hr : Room texts (a ++ (b ++ r))) (hr' : Room texts' (a ++ ' ' :: r)) :
    SameRes (TokenStream.fromStr sm (a ++ (b ++ r))).2
      (TokenStream.fromStr sm' (a ++ ' ' :: r)).2 := by
  have ht : Trivia b r := by
    have := Trivia.block (b := b) (t := []) (r := r) hbc (by simpa using hnd) .nil
    simpa using this
  have hw : isWhitespace ' ' = true := by decide
  have hb0 : ['/', '*'] <+: b ++ r := by
    obtain ⟨u, rfl, -⟩ := hbc
    exact ⟨u ++ r, by simp⟩
  have hb1 : b ≠ [] := by
    obtain ⟨u, rfl, -⟩ := hbc; simp
  refine C05_interchange (t := b) (t' := [' ']) hb ht (.ws hw .nil) (.inl hb1) (.inl (by simp))
    (fun h => absurd h ha) (sep_comment (.inr hb0) ha he).err ?_ ?_ h h' hr hr'
  · intro u v e hu hv _ hp
    cases v with
    | nil => exact hv rfl
    | cons c v =>
      simp at hp
      have : ' ' ∈ errorText := by rw [e]; simp [hp.1]
      exact absurd this (by decide)
  · intro _
    constructor
    · obtain ⟨u, rfl, -⟩ := hbc; simp
    · simp

/-- **C08.** A block comment without a balancing terminator makes the parse fail. -/
theorem C08_unterminated {a cl w : List Char} (hb : Between a cl) (hw : ['/', '*'] <+: w)
    (hno : ∀ b, b <+: w → ¬ IsBlockComment b) (ha : a.getLast? ≠ some '/')
    {sm : SourceMap} {texts : List (List Char)} (h : History sm texts) (hr : Room texts (a ++ w)) :
    ∃ e, (TokenStream.fromStr sm (a ++ w)).2 = .err e := by
  have hbc : P.blockComment w = none := by
    cases hq : P.blockComment w with
    | none => rfl
    | some r =>
      obtain ⟨b, e, hb⟩ := P.blockComment_spec hq
      exact absurd hb (hno b ⟨r, e.symm⟩)
  have he : ¬ (errorText.drop 1 <+: w) := by
    rintro ⟨u, rfl⟩
    have hcm : IsBlockComment ['/', '*', 'E', 'R', 'R', 'O', 'R', '*', '/'] := by
      refine ⟨_, rfl, ?_⟩
      repeat' first
        | exact .last
        | refine .char (by decide) (by decide) ?_
    exact hno _ ⟨')' :: u, rfl⟩ hcm
  obtain ⟨toks, stack, hst, hall⟩ := hb.run
  obtain ⟨k, -, e⟩ := hall w (sep_comment (.inr hw) ha he)
    (by rintro _ w' rfl; simp at hw) h hr
  rw [e]
  have ht : P.triv1 w = none := by
    obtain ⟨u, rfl⟩ := hw
    show P.triv1 ('/' :: '*' :: u) = none
    have h4 : startsWith ('/' :: '*' :: u) ['/', '*', '*', '/'] = false := by
      rw [startsWith_false_iff]
      intro hp
      exact hno _ hp ⟨_, rfl, .last⟩
    unfold P.triv1
    simp only
    rw [if_neg (by simp), if_neg (by simp [h4])]
    split
    · exact hbc
    · rw [if_neg (by decide)]
  have hd : P.doc w = none := by
    unfold P.doc P.docContents
    rw [hbc]
    obtain ⟨u, rfl⟩ := hw
    have h1 : startsWith (['/', '*'] ++ u) ['/', '/', '!'] = false := by simp
    have h2 : startsWith (['/', '*'] ++ u) ['/', '/', '/'] = false := by simp
    simp only [h1, h2, Bool.false_eq_true, if_false, Option.map_none]
    split
    · split at * <;> simp_all
    · rfl
  exact run_bad (next_bad_comment (.inr hw) ht hd)

/-! ### C09, C10 -/

/-- A doc comment does not complete an error literal. -/
theorem docText_noErr {x r content : List Char} {inner : Bool} (h : DocText x r inner content) :
    ¬ (errorText.drop 1 <+: x ++ r) ∧ (['/', '/'] <+: x ++ r ∨ ['/', '*'] <+: x ++ r) := by
  cases h with
  | innerLine => exact ⟨by simp [errorText], .inl ⟨_, by simp; rfl⟩⟩
  | outerLine => exact ⟨by simp [errorText], .inl ⟨_, by simp; rfl⟩⟩
  | innerBlock => exact ⟨by simp [errorText], .inr ⟨_, by simp; rfl⟩⟩
  | outerBlock => exact ⟨by simp [errorText], .inr ⟨_, by simp; rfl⟩⟩

/-- The tokens `# [doc = repr]` or `# ! [doc = repr]`, all with the same span. -/
def attrTokens (repr : List Char) (inner : Bool) (span : Span) : List TokenTree :=
  .punct '#' .alone span :: (if inner then [.punct '!' .alone span] else []) ++
    [.group .bracket
      [.ident ['d', 'o', 'c'] false span, .punct '=' .alone span, .literal repr span] span]

/-- **C09.** A doc comment at a position between tokens becomes exactly the tokens of its attribute,
all with the span of the comment, in place in the stream. The value of the literal is the text of the
comment. -/
theorem C09_attribute {a cl x r content : List Char} {inner : Bool} (hb : Between a cl)
    (hx : DocText x r inner content) (ha : a.getLast? ≠ some '/')
    {sm : SourceMap} {texts : List (List Char)} (h : History sm texts)
    (hr : Room texts (a ++ (x ++ r))) {ts : List TokenTree}
    (hok : (TokenStream.fromStr sm (a ++ (x ++ r))).2 = .ok ts) :
    ∃ pre post repr, strValue repr = .ok content ∧ Level (pre ++ attrTokens repr inner
      ⟨base texts texts.length + a.length, base texts texts.length + a.length + x.length⟩ ++ post) ts := by
  obtain ⟨toks, stack, hst, hall⟩ := hb.run
  obtain ⟨he, hw⟩ := docText_noErr hx
  obtain ⟨k, hk, e⟩ := hall (x ++ r) (sep_comment hw ha he)
    (by rintro _ w' e; rw [e] at hw; simp at hw) h hr
  rw [e] at hok
  have hsk := triv1_isDoc (DocText.isDoc' hx)
  have hcr : NoBareCr content := by
    apply Classical.byContradiction
    intro hcr
    have hd : P.doc (x ++ r) = none := by
      unfold P.doc
      rw [DocText.contents hx]
      have : P.noBareCr content = false := by
        cases hq : P.noBareCr content with
        | false => rfl
        | true => exact absurd (P.noBareCr_spec hq) hcr
      simp [this]
    obtain ⟨e, he⟩ := run_bad (E := 1 + k + (a ++ (x ++ r)).length) (fuel := (x ++ r).length)
      (toks := shift k toks) (stack := stack.map (Frame.shift k)) (next_bad_comment hw hsk hd)
    rw [he] at hok
    simp at hok
  simp only [P.run, P.step, P.next_skipWs, P.next_of_doc hx hcr] at hok
  obtain ⟨post, hl⟩ := P.run_level hok
  refine ⟨shift k toks, post, litString content,
    (strValue_iff _ _).mpr (litString_value content).2, ?_⟩
  have hattr : ∀ span, docAttr content inner span = attrTokens (litString content) inner span := by
    intro span; cases inner <;> rfl
  rw [← hattr]
  rw [P.docTokens_eq] at hl
  have e1 : 1 + k + (a ++ (x ++ r)).length - (x ++ r).length = base texts texts.length + a.length := by
    simp; omega
  have e2 : 1 + k + (a ++ (x ++ r)).length - r.length =
      base texts texts.length + a.length + x.length := by
    simp; omega
  rw [e1, e2] at hl
  exact hl

/-- **C10.** A doc comment whose text contains a carriage return that is not followed by a line feed
makes the parse fail. -/
theorem C10_bare_cr {a cl x r content : List Char} {inner : Bool} (hb : Between a cl)
    (hx : DocText x r inner content) (hcr : ¬ NoBareCr content) (ha : a.getLast? ≠ some '/')
    {sm : SourceMap} {texts : List (List Char)} (h : History sm texts)
    (hr : Room texts (a ++ (x ++ r))) :
    ∃ e, (TokenStream.fromStr sm (a ++ (x ++ r))).2 = .err e := by
  obtain ⟨toks, stack, hst, hall⟩ := hb.run
  obtain ⟨he, hw⟩ := docText_noErr hx
  obtain ⟨k, hk, e⟩ := hall (x ++ r) (sep_comment hw ha he)
    (by rintro _ w' e; rw [e] at hw; simp at hw) h hr
  rw [e]
  have hsk := triv1_isDoc (DocText.isDoc' hx)
  have hd : P.doc (x ++ r) = none := by
    unfold P.doc
    rw [DocText.contents hx]
    have : P.noBareCr content = false := by
      cases hq : P.noBareCr content with
      | false => rfl
      | true => exact absurd (P.noBareCr_spec hq) hcr
    simp [this]
  exact run_bad (next_bad_comment hw hsk hd)

end

/-! ### Concrete cases -/
section Examples
attribute [local instance] sampleTables sampleTables_lawful

/-- inside `a [b (c ` the brackets `)` and `]` are open -/
theorem between_sample : Between "a [b (c ".toList [')', ']'] :=
  ⟨by decide, by decide, [.ident ['a'] false ⟨1, 2⟩, .group .bracket [.ident ['b'] false ⟨4, 5⟩,
      .group .parenthesis [.ident ['c'] false ⟨7, 8⟩, .group .parenthesis [] ⟨9, 11⟩] ⟨6, 12⟩] ⟨3, 13⟩],
    [], ⟨9, 11⟩, by decide +kernel,
    .inside (d := .bracket) (List.mem_cons_of_mem _ (List.mem_cons_self ..))
      (.inside (d := .parenthesis) (List.mem_cons_of_mem _ (List.mem_cons_self ..))
        (.here (by decide))), by decide⟩

/-- a mismatched delimiter there -/
example : ∃ e, (TokenStream.fromStr SourceMap.init "a [b (c ] d".toList).2 = .err e :=
  C07_mismatch (b := " d".toList) between_sample (c := ']') (by decide) (by decide) (by decide) .init
    (by decide)
/-- the end of the text there -/
example : ∃ e, (TokenStream.fromStr SourceMap.init "a [b (c ".toList).2 = .err e :=
  C07_unclosed between_sample (by decide) .init (by decide)
/-- an unterminated comment: the nested one is closed, the outer one is not -/
example : (TokenStream.fromStr SourceMap.init "a /* /* */ b".toList).2 = .err ⟨3, 3⟩ := by
  decide +kernel
/-- a bare carriage return in a doc comment -/
example : (TokenStream.fromStr SourceMap.init "a /// x\ry\n".toList).2 = .err ⟨3, 3⟩ := by
  decide +kernel
example : (TokenStream.fromStr SourceMap.init "/// x\r\na".toList).2 =
    .ok [.punct '#' .alone ⟨1, 7⟩, .group .bracket [.ident ['d', 'o', 'c'] false ⟨1, 7⟩,
      .punct '=' .alone ⟨1, 7⟩, .literal "\" x\"".toList ⟨1, 7⟩] ⟨1, 7⟩, .ident ['a'] false ⟨8, 9⟩] := by
  decide +kernel

/-- hypotheses of C05: a nested block comment and a line feed against a line comment -/
example : SameRes (TokenStream.fromStr SourceMap.init "a [b (c /*/**/*/\n)]".toList).2
    (TokenStream.fromStr SourceMap.init "a [b (c //x\n)]".toList).2 := by
  have hi : isWhitespace '\n' = true := by decide
  refine C05_interchange (a := "a [b (c ".toList) (r := [')', ']'])
    (t := ['/', '*', '/', '*', '*', '/', '*', '/'] ++ ['\n'])
    (t' := '/' :: '/' :: ['x'] ++ ['\n']) between_sample
    (.block ⟨_, rfl, .opn (.close .last)⟩ ?_ (.ws hi .nil))
    (.line (by decide) ?_ (.inr ⟨_, rfl⟩) (.ws hi .nil)) (.inl (by simp)) (.inl (by simp))
    (by decide) ?_ ?_ (by decide) .init .init (by decide) (by decide)
  · simp [DocBlockStart]
  · simp [DocLineStart]
  · exact (sep_comment (a := "a [b (c ".toList) (.inr ⟨_, rfl⟩) (by decide) (by decide)).err
  · exact (sep_comment (a := "a [b (c ".toList) (.inl ⟨_, rfl⟩) (by decide) (by decide)).err

/-- hypotheses of C08, skipped: a nested comment before the closing delimiters -/
example : SameRes (TokenStream.fromStr SourceMap.init "a [b (c /*/**/*/)]".toList).2
    (TokenStream.fromStr SourceMap.init "a [b (c  )]".toList).2 := by
  refine C08_skipped (a := "a [b (c ".toList) (b := ['/', '*', '/', '*', '*', '/', '*', '/'])
    (r := [')', ']']) between_sample ⟨_, rfl, .opn (.close .last)⟩ ?_ (by decide) (by decide)
    .init .init (by decide) (by decide)
  simp [DocBlockStart]

/-- hypotheses of C09: an inner block doc comment inside two open delimiters -/
example {ts : List TokenTree}
    (hok : (TokenStream.fromStr SourceMap.init "a [b (c /*!x*/)]".toList).2 = .ok ts) :
    ∃ pre post repr, strValue repr = .ok ['x'] ∧ Level (pre ++ attrTokens repr true ⟨9, 15⟩ ++ post) ts :=
  C09_attribute (a := "a [b (c ".toList) (x := '/' :: '*' :: '!' :: ['x'] ++ ['*', '/'])
    (r := [')', ']']) between_sample
    (.innerBlock (.char (by decide) (by decide) (.char (by decide) (by decide) .last)))
    (by decide) .init (by decide) hok
example : ∃ ts, (TokenStream.fromStr SourceMap.init "a [b (c /*!x*/)]".toList).2 = .ok ts :=
  ⟨[.ident ['a'] false ⟨1, 2⟩, .group .bracket [.ident ['b'] false ⟨4, 5⟩,
    .group .parenthesis (.ident ['c'] false ⟨7, 8⟩ :: docAttr ['x'] true ⟨9, 15⟩) ⟨6, 16⟩] ⟨3, 17⟩],
    by decide +kernel⟩

/-- hypotheses of C10 -/
example : ∃ e, (TokenStream.fromStr SourceMap.init "a [b (c //!x\ry\n)]".toList).2 = .err e :=
  C10_bare_cr (a := "a [b (c ".toList) (x := '/' :: '/' :: '!' :: ['x', '\r', 'y'] ++ [])
    (r := ['\n', ')', ']']) between_sample
    (.innerLine (by decide) (.inr ⟨_, rfl⟩) (.inl ⟨rfl, fun _ => by decide⟩))
    (fun h => by obtain ⟨b', e⟩ := h ['x'] ['y'] rfl; simp at e)
    (by decide) .init (by decide)

/-- hypotheses of C08, unterminated: no prefix of the rest is a block comment -/
example : ∃ e, (TokenStream.fromStr SourceMap.init "a [b (c /*/**/".toList).2 = .err e := by
  refine C08_unterminated (a := "a [b (c ".toList) (w := ['/', '*', '/', '*', '*', '/'])
    between_sample ⟨_, rfl⟩ ?_ (by decide) .init (by decide)
  intro b ⟨r, e⟩ hb
  have h2 : IsBlockComment (['/', '*', '/', '*', '*', '/'] ++ ['*', '/']) :=
    ⟨_, rfl, .opn (.close .last)⟩
  have := (C08_extent hb h2 (r := r ++ ['*', '/']) (r' := []) (by rw [← List.append_assoc, e]; rfl)).2
  simp at this

end Examples

end PM2.Props
