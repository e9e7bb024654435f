import Verif.Proof.Item
import Verif.Props.Context
import Verif.Props.Grammar
import Verif.Props.Tiling
import Verif.Spec.Decide
/-! # C102: parsing the source text of a token gives the token -/

set_option linter.unusedSectionVars false

namespace PM2.Props
open Spec

section
variable [UnicodeTables] [LawfulUnicode]

/-- The source text of a token of an accepted text, and how the lexer read it. -/
theorem source_item {sm : SourceMap} {texts : List (List Char)} (h : History sm texts)
    {src : List Char} (hr : Room texts src) {ts : List TokenTree}
    (hok : (TokenStream.fromStr sm src).2 = .ok ts)
    {sm' sm'' : SourceMap} {texts' : List (List Char)} (h' : History sm' texts')
    (hp : texts ++ [src] <+: texts') {tok : TokenTree} (ht : Sub tok ts) {x : List Char}
    (hx : tok.span.sourceText (ε := Unit) sm' = .ok (sm'', some x)) :
    (∃ r, Item tok x r) ∧ tok.span.hi = tok.span.lo + x.length ∧
      tok.span.lo ≤ base texts' texts'.length := by
  obtain ⟨h1, -, -⟩ := token_at h hr hok hp ht
  obtain ⟨sm2, e⟩ := C42_source_text (ε := Unit) h' h1
  rw [hx] at e
  simp only [Res.ok.injEq, Prod.mk.injEq, Option.some.injEq] at e
  obtain ⟨-, e⟩ := e
  obtain ⟨bom, body, rfl, -, hl⟩ := (C64_grammar h hr).mp hok
  obtain ⟨a, y, b, rfl, hsp, hi⟩ := hl.sub ht
  have hbase : base texts' texts.length = base texts texts.length := by
    rw [base_prefix hp (by simp)]
    simp [base]
  have hxy : x = y := by
    rw [e, hsp, hbase]
    have e1 : base texts texts.length + bom.length + a.length - base texts texts.length =
        (bom ++ a).length := by simp; omega
    have e2 : base texts texts.length + bom.length + a.length + y.length -
        (base texts texts.length + bom.length + a.length) = y.length := by omega
    simp only [e1, e2]
    rw [show bom ++ (a ++ y ++ b) = (bom ++ a) ++ (y ++ b) by simp, List.drop_left, List.take_left]
  subst hxy
  refine ⟨⟨_, hi⟩, by rw [hsp], ?_⟩
  rw [hsp]
  obtain ⟨c, rfl⟩ := hp
  have e1 : base texts texts.length = 1 + (texts.map fun t => t.length + 1).sum := by simp [base]
  have e2 : ∀ u, base (texts ++ [u] ++ c) (texts ++ [u] ++ c).length =
      1 + (texts.map fun t => t.length + 1).sum + (u.length + 1) + (c.map fun t => t.length + 1).sum := by
    intro u
    unfold base
    rw [List.take_length]
    simp
    omega
  rw [e1, e2]
  simp
  omega

/-- A text that denotes a stream at one place denotes it, moved, at any later place. -/
theorem textLexed_shift {p : Nat} (k : Nat) {x : List Char} {ts : List TokenTree} (h : TextLexed p x ts) :
    TextLexed (p + k) x (shift k ts) := by
  rw [← lex_iff_lexed, ← P.run_ok_iff (Nat.lt_succ_self _)] at h ⊢
  have hl : (P.stripBom x).length ≤ x.length := by unfold P.stripBom; split <;> simp
  have := P.run_shift (E := p + x.length) k ((P.stripBom x).length + 1) ⟨P.stripBom x, [], []⟩ (by simp; omega)
  rw [h] at this
  rw [show p + k + x.length = p + x.length + k by omega]
  exact this

/-- **C102.** The source text of an identifier, a literal or a group of an accepted text (at any depth, and in every later
state of the map that still holds the text), parsed again, gives exactly that token, moved. -/
theorem C102_token {sm : SourceMap} {texts : List (List Char)} (h : History sm texts)
    {src : List Char} (hr : Room texts src) {ts : List TokenTree}
    (hok : (TokenStream.fromStr sm src).2 = .ok ts)
    {sm' sm'' : SourceMap} {texts' : List (List Char)} (h' : History sm' texts')
    (hp : texts ++ [src] <+: texts') {tok : TokenTree} (ht : Sub tok ts) {x : List Char}
    (hx : tok.span.sourceText (ε := Unit) sm' = .ok (sm'', some x)) (hr' : Room texts' x)
    (hdoc : ¬ IsDoc x) (hpu : ∀ c sp span, tok ≠ .punct c sp span) :
    (TokenStream.fromStr sm'' x).2 = .ok (shift (base texts' texts'.length - tok.span.lo) [tok]) := by
  obtain ⟨⟨r, hi⟩, hhi, hlo⟩ := source_item h hr hok h' hp ht hx
  rw [C64_grammar (.sourceText _ h' hx) hr']
  have hspan : tok.span = ⟨tok.span.lo + 0, tok.span.lo + 0 + x.length⟩ := by
    rw [Nat.add_zero, ← hhi]
  have key : TextLexed tok.span.lo x [tok] := by
    have hl : Lexed tok.span.lo x [tok] [] := by
      cases hi with
      | leaf h1 =>
        have := Lexed.leaf (p := tok.span.lo) (t := []) (s := []) (r := []) (ts := []) .nil
          (by simpa using h1.alone hpu) hspan (.nil .nil)
        simpa using this
      | group hd he hl => exact Item.group_alone hd he hl hhi
      | doc hd _ _ => exact absurd hd.isDoc hdoc
    refine hl.text ?_
    have h1 := lex_of_lexed hl (.inl rfl) rfl
    have h2 := h1.no_bom
    intro hb
    obtain ⟨u, rfl⟩ : ∃ u, x = '﻿' :: u := by
      cases x with
      | nil => simp at hb
      | cons c u => simp at hb; exact ⟨u, by rw [hb]⟩
    have : (P.stripBom ('﻿' :: u ++ [])).length = ('﻿' :: u ++ []).length := by rw [h2]
    simp [P.stripBom, startsWith] at this
  have := textLexed_shift (base texts' texts'.length - tok.span.lo) key
  rwa [show tok.span.lo + (base texts' texts'.length - tok.span.lo) = base texts' texts'.length by omega] at this

theorem leaf_quote : P.leaf ['\''] = none := by
  have h1 : P.literal ['\''] = none := by rfl
  have h2 : P.punct ['\''] = none := by rfl
  have h3 : P.ident ['\''] = none := by
    have hs : isIdentStart '\'' = false := by
      have : xidStart '\'' = false := by rw [LawfulUnicode.start_ascii _ (by decide)]; decide
      show (_ || xidStart '\'') = false
      rw [this]; rfl
    have hn : P.identNotRaw ['\''] = none := by
      show (if isIdentStart '\'' = true then _ else none) = none
      rw [hs]; rfl
    unfold P.ident P.identAny
    rw [hn]
    rfl
  have h4 : startsWith ['\''] errorRepr = false := by decide
  simp [P.leaf, h1, h2, h3, h4]

/-- **C102**, puncts: the source text of a punct is its character, which gives the punct standing alone; a quote alone
is rejected, since it only stands before an identifier. -/
theorem C102_punct {sm : SourceMap} {texts : List (List Char)} (h : History sm texts)
    {src : List Char} (hr : Room texts src) {ts : List TokenTree}
    (hok : (TokenStream.fromStr sm src).2 = .ok ts)
    {sm' sm'' : SourceMap} {texts' : List (List Char)} (h' : History sm' texts')
    (hp : texts ++ [src] <+: texts') {c : Char} {sp : Spacing} {span : Span} (ht : Sub (.punct c sp span) ts)
    {x : List Char} (hx : span.sourceText (ε := Unit) sm' = .ok (sm'', some x)) (hr' : Room texts' x)
    (hdoc : ¬ IsDoc x) :
    x = [c] ∧
    (c ≠ '\'' → (TokenStream.fromStr sm'' x).2 =
      .ok [.punct c .alone ⟨base texts' texts'.length, base texts' texts'.length + 1⟩]) ∧
    (c = '\'' → ∃ e, (TokenStream.fromStr sm'' x).2 = .err e) := by
  obtain ⟨⟨r, hi⟩, -, -⟩ := source_item h hr hok h' hp ht hx
  have h'' : History sm'' texts' := .sourceText _ h' hx
  cases hi with
  | doc hd _ _ => exact absurd hd.isDoc hdoc
  | leaf h1 =>
    cases h1 with
    | punct h1 h2 h3 =>
      refine ⟨rfl, fun _ => ?_, fun hc => absurd hc h2⟩
      rw [C64_grammar h'' hr']
      obtain ⟨⟨c', r', e, hm⟩, -, -⟩ := h1
      simp at e
      obtain ⟨rfl, rfl⟩ := e
      have hat : PunctAt [c] := ⟨⟨c, [], rfl, hm⟩, by simp, by simp⟩
      have htok : Token (.punct c .alone ⟨base texts' texts'.length, base texts' texts'.length + 1⟩) [c] ([] ++ []) :=
        .punct hat h2 ⟨by simp, by rintro ⟨⟨_, _, h, -⟩, -⟩; simp at h⟩
      have := Lexed.leaf (p := base texts' texts'.length) (t := []) (s := []) (r := []) (ts := []) .nil htok rfl
        (.nil .nil)
      refine Lexed.text (by simpa using this) ?_
      intro hb
      simp at hb
      subst hb
      exact absurd hm (by decide)
    | quote =>
      refine ⟨rfl, fun hc => absurd rfl hc, fun _ => ?_⟩
      rw [C64_rejected h'' hr']
      intro ts hts
      rw [← lex_iff_lexed] at hts
      obtain ⟨l, r, h1⟩ := P.Lex.leaf_some (c := '\'') (s := []) hts (by decide) (by decide)
      rw [leaf_quote] at h1
      cases h1

theorem between_nil : Between [] [] := by
  refine ⟨by simp, by decide, ?_⟩
  have hr : Room [] ('(' :: [')']) := by decide
  refine ⟨[.group .parenthesis [] ⟨1, 3⟩], [], ⟨1, 3⟩, ?_, .here (by simp), rfl⟩
  refine (C64_grammar .init hr).mpr (Lexed.text ?_ (by simp))
  exact Lexed.group (t := []) (body := []) (s := []) .nil rfl (by decide) (.nil .nil) (.nil .nil)

theorem delim_not_slash {d : Delimiter} {o c : Char} (h : delimChars d = some (o, c)) (ho : o = '/') : False := by
  subst ho
  cases d <;> simp [delimChars] at h

/-- **C102**, doc comments: the source text of each token of a doc comment is the comment, which gives the whole
attribute again. The exception is a line doc comment that ends in a carriage return (before the line feed): its source
text includes the carriage return, and is rejected. -/
theorem C102_doc {sm : SourceMap} {texts : List (List Char)} (h : History sm texts)
    {src : List Char} (hr : Room texts src) {ts : List TokenTree}
    (hok : (TokenStream.fromStr sm src).2 = .ok ts)
    {sm' sm'' : SourceMap} {texts' : List (List Char)} (h' : History sm' texts')
    (hp : texts ++ [src] <+: texts') {tok : TokenTree} (ht : Sub tok ts) {x : List Char}
    (hx : tok.span.sourceText (ε := Unit) sm' = .ok (sm'', some x)) (hr' : Room texts' x) (hdoc : IsDoc x) :
    ∃ content inner, Sub tok (docAttr content inner tok.span) ∧
      (x.getLast? ≠ some '\r' → (TokenStream.fromStr sm'' x).2 =
        .ok (docAttr content inner ⟨base texts' texts'.length, base texts' texts'.length + x.length⟩)) ∧
      (x.getLast? = some '\r' → ∃ e, (TokenStream.fromStr sm'' x).2 = .err e) := by
  obtain ⟨⟨r, hi⟩, -, -⟩ := source_item h hr hok h' hp ht hx
  have h'' : History sm'' texts' := .sourceText _ h' hx
  have hslash : ∃ u, x = '/' :: u := by
    rcases hdoc with (⟨u, rfl⟩ | ⟨⟨u, rfl⟩, -⟩) | (⟨u, rfl⟩ | ⟨⟨u, rfl⟩, -⟩) <;> exact ⟨_, rfl⟩
  cases hi with
  | leaf h1 =>
    exfalso
    obtain ⟨l, hl, -⟩ := P.leaf_iff.mpr ⟨x, rfl, h1⟩
    obtain ⟨g1, g2⟩ := P.leaf_no_comment hl
    rcases hdoc with (⟨u, rfl⟩ | ⟨⟨u, rfl⟩, -⟩) | (⟨u, rfl⟩ | ⟨⟨u, rfl⟩, -⟩)
    all_goals first
      | exact g1 ⟨_, rfl⟩
      | exact g2 ⟨_, rfl⟩
  | group hd _ _ =>
    exfalso
    obtain ⟨u, e⟩ := hslash
    simp at e
    rcases delim_not_slash hd e.1
  | @doc _ _ _ inner content hd hn hs =>
    refine ⟨content, inner, hs, ?_⟩
    have hok' : DocText x [] inner content → x.getLast? ≠ some '\r' →
        (x.getLast? ≠ some '\r' → (TokenStream.fromStr sm'' x).2 =
          .ok (docAttr content inner ⟨base texts' texts'.length, base texts' texts'.length + x.length⟩)) ∧
        (x.getLast? = some '\r' → ∃ e, (TokenStream.fromStr sm'' x).2 = .err e) := by
      intro hd hl
      refine ⟨fun _ => ?_, fun hl' => absurd hl' hl⟩
      rw [C64_grammar h'' hr']
      have := Lexed.doc (p := base texts' texts'.length) (t := []) (s := []) (r := []) (ts := []) .nil
        (by simpa using hd) hn (.nil .nil)
      refine Lexed.text (by simpa using this) ?_
      obtain ⟨u, rfl⟩ := hslash
      simp
    have hbad : ∀ {content inner}, DocText x [] inner (content ++ ['\r']) → x.getLast? = some '\r' →
        ∃ e, (TokenStream.fromStr sm'' x).2 = .err e := by
      intro content inner hd hl
      have := C10_bare_cr (a := []) (r := []) between_nil hd (fun hn => by
        obtain ⟨b', hb⟩ := hn content [] rfl
        simp at hb) (by simp) h'' (by simpa using hr')
      simpa using this
    have hlast : ∀ {u : List Char} {c : Char}, NoBareCr u → c ≠ '\r' → (c :: u).getLast? ≠ some '\r' := by
      intro u c hu hc hl
      obtain ⟨a, e⟩ := List.getLast?_eq_some_iff.mp hl
      cases a with
      | nil => simp at e; exact hc e.1
      | cons d a =>
        simp at e
        obtain ⟨b', hb⟩ := hu a [] e.2
        simp at hb
    have hcons : ∀ {a : List Char} {c : Char} {u : List Char}, (a ++ c :: u).getLast? = (c :: u).getLast? := by
      intro a c u
      rw [List.getLast?_append]
      cases hq : (c :: u).getLast? with
      | none => simp at hq
      | some _ => rfl
    cases hd with
    | @innerLine u cr _ h1 h2 h3 =>
      rcases h3 with ⟨rfl, -⟩ | ⟨rfl, -⟩
      · refine hok' (.innerLine h1 (.inl rfl) (.inl ⟨rfl, by simp⟩)) ?_
        rw [List.append_nil, show '/' :: '/' :: '!' :: content = ['/', '/'] ++ '!' :: content from rfl, hcons]
        exact hlast hn (by decide)
      · have e : ('/' :: '/' :: '!' :: content ++ ['\r']).getLast? = some '\r' := hcons
        refine ⟨fun h => absurd e h, fun _ => ?_⟩
        have := DocText.innerLine (u := content ++ ['\r']) (cr := []) (r := []) (by simp [h1]) (.inl rfl)
          (.inl ⟨rfl, by simp⟩)
        exact hbad (content := content) (inner := true) (by simpa using this) e
    | @outerLine u cr _ h1 h2 h3 h4 =>
      rcases h4 with ⟨rfl, -⟩ | ⟨rfl, -⟩
      · refine hok' (.outerLine h1 (.inl rfl) h3 (.inl ⟨rfl, by simp⟩)) ?_
        rw [List.append_nil, show '/' :: '/' :: '/' :: content = ['/', '/'] ++ '/' :: content from rfl, hcons]
        exact hlast hn (by decide)
      · have e : ('/' :: '/' :: '/' :: content ++ ['\r']).getLast? = some '\r' := hcons
        refine ⟨fun h => absurd e h, fun _ => ?_⟩
        have := DocText.outerLine (u := content ++ ['\r']) (cr := []) (r := []) (by simp [h1]) (.inl rfl)
          (by cases content with | nil => simp | cons c u => simpa using h3) (.inl ⟨rfl, by simp⟩)
        exact hbad (content := content) (inner := false) (by simpa using this) e
    | innerBlock h1 =>
      refine hok' (.innerBlock h1) ?_
      rw [hcons]; decide
    | outerBlock h1 h2 h3 =>
      refine hok' (.outerBlock h1 h2 h3) ?_
      rw [hcons]; decide

end

/-! ### Concrete cases -/
section Examples
attribute [local instance] sampleTables sampleTables_lawful

/-- `f(1.5 , 'a)`: the source text of the group is `(1.5 , 'a)`, parsed again at position 14 it is the group, 12 positions
further on; that of the quote is `'`, which is rejected -/
example :
    let src := "f(1.5 , 'a)".toList
    let sm := (TokenStream.fromStr SourceMap.init src).1
    let g := TokenTree.group .parenthesis [.literal "1.5".toList ⟨3, 6⟩, .punct ',' .alone ⟨7, 8⟩,
      .punct '\'' .joint ⟨9, 10⟩, .ident ['a'] false ⟨10, 11⟩] ⟨2, 12⟩
    (TokenStream.fromStr SourceMap.init src).2 = .ok [.ident ['f'] false ⟨1, 2⟩, g] ∧
    (∃ sm', g.span.sourceText (ε := Unit) sm = .ok (sm', some "(1.5 , 'a)".toList) ∧
      (TokenStream.fromStr sm' "(1.5 , 'a)".toList).2 = .ok (shift 11 [g])) ∧
    (∃ sm', (⟨9, 10⟩ : Span).sourceText (ε := Unit) sm = .ok (sm', some ['\'']) ∧
      (TokenStream.fromStr sm' ['\'']).2 = .err ⟨13, 13⟩) := by
  refine ⟨by decide +kernel, ⟨_, rfl, by decide +kernel⟩, ⟨_, rfl, by decide +kernel⟩⟩

/-- a line doc comment before a line feed, and before a carriage return and a line feed -/
example :
    let sm := (TokenStream.fromStr SourceMap.init "/// x\n".toList).1
    (∃ sm', (⟨1, 6⟩ : Span).sourceText (ε := Unit) sm = .ok (sm', some "/// x".toList) ∧
      (TokenStream.fromStr sm' "/// x".toList).2 = .ok (docAttr " x".toList false ⟨8, 13⟩)) ∧
    let sm := (TokenStream.fromStr SourceMap.init "/// x\r\n".toList).1
    (TokenStream.fromStr SourceMap.init "/// x\r\n".toList).2 = .ok (docAttr " x".toList false ⟨1, 7⟩) ∧
    (∃ sm', (⟨1, 7⟩ : Span).sourceText (ε := Unit) sm = .ok (sm', some "/// x\r".toList) ∧
      (TokenStream.fromStr sm' "/// x\r".toList).2 = .err ⟨9, 9⟩) := by
  refine ⟨⟨_, rfl, by decide +kernel⟩, by decide +kernel, ⟨_, rfl, by decide +kernel⟩⟩

/-- two tokens next to each other may be read differently on their own: the source text of `1` and the first `.` of
`1..2` is a float -/
example :
    let sm := (TokenStream.fromStr SourceMap.init "1..2".toList).1
    (TokenStream.fromStr SourceMap.init "1..2".toList).2 = .ok [.literal ['1'] ⟨1, 2⟩, .punct '.' .joint ⟨2, 3⟩,
      .punct '.' .alone ⟨3, 4⟩, .literal ['2'] ⟨4, 5⟩] ∧
    (∃ sm', (⟨1, 3⟩ : Span).sourceText (ε := Unit) sm = .ok (sm', some "1.".toList) ∧
      (TokenStream.fromStr sm' "1.".toList).2 = .ok [.literal "1.".toList ⟨6, 8⟩]) := by
  refine ⟨by decide +kernel, ⟨_, rfl, by decide +kernel⟩⟩

end Examples
end PM2.Props
