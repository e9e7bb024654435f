import Verif.Proof.Order
import Verif.Proof.Print
import Verif.Props.Tokens
import Verif.Spec.Decide
/-! # C29–C31, C33: identifiers and puncts -/

set_option linter.unusedSectionVars false

namespace PM2.Props
open Spec

section
variable [UnicodeTables] [LawfulUnicode] {ε : Type}

/-! ### C29, C30 -/

theorem identStart_not_digit_byte {c : Char} (h : isIdentStart c = true) :
    ¬ ((bytesOf [c]).all (fun d => B '0' ≤ d && d ≤ B '9') = true) := by
  intro hall
  rw [List.all_eq_true] at hall
  have hne : bytesOf [c] ≠ [] := by
    simp [bytesOf, String.utf8EncodeChar_ne_nil]
  obtain ⟨b, bs, e⟩ := List.exists_cons_of_ne_nil hne
  have hb := hall b (by rw [e]; simp)
  simp only [Bool.and_eq_true, decide_eq_true_eq] at hb
  have h1 : 48 ≤ b.toNat := hb.1
  have h2 : b.toNat ≤ 57 := hb.2
  have hn := encode_nat c
  have e' : String.utf8EncodeChar c = b :: bs := by rw [← e]; simp [bytesOf]
  rw [e'] at hn
  by_cases hc : c.toNat ≤ 0x7f
  · rw [if_pos hc] at hn
    simp only [List.map_cons, List.cons.injEq] at hn
    refine identStart_not_digit h ?_
    have := hn.1
    exact ⟨by show 48 ≤ c.toNat; omega, by show c.toNat ≤ 57; omega⟩
  · rw [if_neg hc] at hn
    split at hn
    · simp at hn; omega
    · split at hn
      · simp at hn; omega
      · simp at hn; omega

theorem validateIdent_eq (s : List Char) :
    (ValidIdent s ∧ validateIdent (ε := ε) s = .ok ()) ∨ (¬ ValidIdent s ∧ validateIdent (ε := ε) s = .panic) := by
  unfold validateIdent
  cases s with
  | nil =>
    right
    refine ⟨?_, by simp⟩
    rintro ⟨c, t, h, -⟩
    simp at h
  | cons c t =>
    simp only [List.isEmpty_cons, Bool.false_eq_true, if_false]
    by_cases hv : isIdentStart c = true ∧ t.all isIdentContinue = true
    · left
      refine ⟨⟨c, t, rfl, hv.1, by simpa using hv.2⟩, ?_⟩
      rw [if_neg]
      · simp [identOk, hv.1, hv.2]
      · intro hall
        apply identStart_not_digit_byte hv.1
        rw [List.all_eq_true] at *
        intro b hb
        apply hall b
        simp [bytesOf] at hb ⊢
        exact .inl hb
    · right
      refine ⟨?_, ?_⟩
      · rintro ⟨c', t', e, h1, h2⟩
        simp at e
        obtain ⟨rfl, rfl⟩ := e
        exact hv ⟨h1, by simpa using h2⟩
      · split
        · rfl
        · have : (isIdentStart c && t.all isIdentContinue) = false := by
            rw [Bool.eq_false_iff]; simpa using hv
          simp [identOk, this]

/-- **C29.** `Ident::new` accepts exactly the texts that start with an underscore or an `XID_Start`
character and continue with `XID_Continue` characters, and makes that identifier; it panics on every
other text. -/
theorem C29_ident_new (s : List Char) (span : Span) :
    ((∃ c t, s = c :: t ∧ (c = '_' ∨ xidStart c = true) ∧ ∀ d ∈ t, xidContinue d = true) →
      Ident.new (ε := ε) s span = .ok (.ident s false span)) ∧
    (¬ (∃ c t, s = c :: t ∧ (c = '_' ∨ xidStart c = true) ∧ ∀ d ∈ t, xidContinue d = true) →
      Ident.new (ε := ε) s span = .panic) := by
  have hv : (∃ c t, s = c :: t ∧ (c = '_' ∨ xidStart c = true) ∧ ∀ d ∈ t, xidContinue d = true) ↔
      ValidIdent s := by
    simp [ValidIdent, isIdentStart, isIdentContinue]
  rw [hv]
  unfold Ident.new
  rcases validateIdent_eq (ε := ε) s with ⟨h, e⟩ | ⟨h, e⟩
  · exact ⟨fun _ => by rw [e]; rfl, fun h' => absurd h h'⟩
  · exact ⟨fun h' => absurd h' h, fun _ => by rw [e]; rfl⟩

/-- **C30.** `Ident::new_raw` accepts exactly what `Ident::new` accepts except `_`, `super`, `self`,
`Self` and `crate`, and panics on every other text. -/
theorem C30_ident_new_raw (s : List Char) (span : Span) :
    ((Ident.new (ε := ε) s span = .ok (.ident s false span) ∧
        s ∉ ["_".toList, "super".toList, "self".toList, "Self".toList, "crate".toList]) →
      Ident.newRaw (ε := ε) s span = .ok (.ident s true span)) ∧
    (¬ (Ident.new (ε := ε) s span = .ok (.ident s false span) ∧
        s ∉ ["_".toList, "super".toList, "self".toList, "Self".toList, "crate".toList]) →
      Ident.newRaw (ε := ε) s span = .panic) := by
  have hlist : ["_".toList, "super".toList, "self".toList, "Self".toList, "crate".toList] =
      [['_'], ['s', 'u', 'p', 'e', 'r'], ['s', 'e', 'l', 'f'], ['S', 'e', 'l', 'f'],
        ['c', 'r', 'a', 't', 'e']] := by decide +kernel
  rw [hlist]
  unfold Ident.new Ident.newRaw validateIdentRaw
  rcases validateIdent_eq (ε := ε) s with ⟨h, e⟩ | ⟨h, e⟩
  · rw [e]
    simp only [Res.ok_bind, identNewUnchecked, identNewRawUnchecked, true_and, Bool.or_eq_true,
      beq_iff_eq, List.mem_cons, List.not_mem_nil, or_false]
    constructor
    · intro h'
      rw [if_neg (by simpa [or_assoc] using h')]
      rfl
    · intro h'
      rw [if_pos (by simpa only [or_assoc, Classical.not_not] using h')]
      rfl
  · rw [e]
    exact ⟨fun h' => absurd h'.1 (by simp), fun _ => by rfl⟩

end

/-! ### C31 -/

section
variable [UnicodeTables]

/-- The identifiers that can be obtained through the API: made by `Ident::new` or `Ident::new_raw`, or
a token of a parsed stream. -/
inductive ApiIdent : IdentData → Prop
  | new {s span sp} : Ident.new (ε := Unit) s span = .ok (.ident s false sp) → ApiIdent ⟨s, false⟩
  | newRaw {s span sp} : Ident.newRaw (ε := Unit) s span = .ok (.ident s true sp) → ApiIdent ⟨s, true⟩
  | parsed {sm texts src ts sym raw span} : History sm texts → Room texts src →
      (TokenStream.fromStr sm src).2 = .ok ts → Sub (.ident sym raw span) ts → ApiIdent ⟨sym, raw⟩

end

section
variable [UnicodeTables] [LawfulUnicode] {ε : Type}

theorem wf_mem {L : List Char → Prop} {ts : List TokenTree} (h : WFOf L ts) {tok : TokenTree}
    (ht : tok ∈ ts) :
    (∀ sym raw span, tok = .ident sym raw span → ValidIdent sym ∧ (raw = true → sym ∉ neverRaw)) ∧
    (∀ d inner span, tok = .group d inner span → WFOf L inner) := by
  induction h with
  | nil => simp at ht
  | ident h1 h2 _ ih =>
    rcases List.mem_cons.mp ht with rfl | ht
    · refine ⟨?_, by simp⟩
      intro sym raw span e
      simp at e
      obtain ⟨rfl, rfl, -⟩ := e
      exact ⟨h1, h2⟩
    · exact ih ht
  | literal _ _ ih =>
    rcases List.mem_cons.mp ht with rfl | ht
    · simp
    · exact ih ht
  | group _ h1 _ _ ih =>
    rcases List.mem_cons.mp ht with rfl | ht
    · refine ⟨by simp, ?_⟩
      intro d inner span e
      simp at e
      obtain ⟨-, rfl, -⟩ := e
      exact h1
    · exact ih ht
  | punct _ _ _ _ ih =>
    rcases List.mem_cons.mp ht with rfl | ht
    · simp
    · exact ih ht
  | quote _ _ ih =>
    rcases List.mem_cons.mp ht with rfl | ht
    · simp
    · exact ih ht

/-- identifiers inside a well-formed stream are valid -/
theorem wf_ident {L : List Char → Prop} {ts : List TokenTree} {sym : List Char} {raw : Bool}
    {span : Span} (hs : Sub (.ident sym raw span) ts) (h : WFOf L ts) :
    ValidIdent sym ∧ (raw = true → sym ∉ neverRaw) := by
  induction hs with
  | here ht => exact (wf_mem h ht).1 _ _ _ rfl
  | inside ht _ ih => exact ih ((wf_mem h ht).2 _ _ _ rfl)

theorem ApiIdent.valid {a : IdentData} (h : ApiIdent a) :
    ValidIdent a.sym ∧ (a.raw = true → a.sym ∉ neverRaw) := by
  cases h with
  | @new s span sp h =>
    unfold Ident.new at h
    rcases validateIdent_eq (ε := Unit) s with ⟨h1, e⟩ | ⟨h1, e⟩
    · exact ⟨h1, by simp⟩
    · rw [e] at h; exact absurd h (by simp)
  | @newRaw s span sp h =>
    unfold Ident.newRaw validateIdentRaw at h
    rcases validateIdent_eq (ε := Unit) s with ⟨h1, e⟩ | ⟨h1, e⟩
    · refine ⟨h1, fun _ hm => ?_⟩
      rw [e, Res.ok_bind, if_pos] at h
      · exact absurd h (by simp)
      · simp [neverRaw] at hm
        rcases hm with hm | hm | hm | hm | hm <;> simp [hm]
    · rw [e] at h; exact absurd h (by simp)
  | parsed h hr hok hs =>
    obtain ⟨e, -, -, -, hb⟩ := h.fromStr hr
    rw [e, fromStrAt_ok_iff hb] at hok
    exact wf_ident hs hok.wf

/-- **C31.** Two identifiers are equal exactly when they print the same. -/
theorem C31_eq_print {a b : IdentData} (ha : ApiIdent a) (hb : ApiIdent b) :
    a.eq b = true ↔ a.toStr = b.toStr := by
  obtain ⟨s, r⟩ := a
  obtain ⟨s', r'⟩ := b
  simp only [IdentData.eq, IdentData.toStr, displayIdent, Bool.and_eq_true, beq_iff_eq]
  have key : ∀ {s : List Char}, ValidIdent s → ∀ t, s ≠ 'r' :: '#' :: t := by
    rintro s h t rfl
    have := h.continue '#' (by simp)
    rw [continue_not (by decide) (by decide)] at this
    simp at this
  have h1 := key ha.valid.1
  have h2 := key hb.valid.1
  cases r <;> cases r' <;> simp
  · exact h1 _
  · exact fun h => h2 _ h.symm

/-- **C31.** Comparing an identifier with a string is comparing its printed form with the string; it
never panics. -/
theorem C31_eq_str (a : IdentData) (s : List Char) :
    a.eqStr (ε := ε) s = .ok (decide (a.toStr = s)) := by
  obtain ⟨sym, raw⟩ := a
  unfold IdentData.eqStr IdentData.toStr displayIdent
  cases raw with
  | false =>
    simp
    rw [Bool.eq_iff_iff]; simp
  | true =>
    simp only [if_true]
    by_cases h : startsWith s ['r', '#'] = true
    · obtain ⟨t, rfl⟩ := startsWith_iff.mp h
      rw [if_pos h, sliceFrom_eq (t := ['r', '#']) (r := t) rfl (by decide +kernel)]
      simp
      rw [Bool.eq_iff_iff]; simp
    · rw [if_neg h]
      have : ¬ (['r', '#'] ++ sym = s) := by
        rintro rfl
        exact h (startsWith_iff.mpr ⟨sym, rfl⟩)
      simp only [this, decide_false]

theorem cmpChars_lt {s t : List Char} : cmpChars s t = .lt ↔ s < t := by
  induction s generalizing t with
  | nil => cases t <;> simp [cmpChars]
  | cons c s ih =>
    cases t with
    | nil => simp [cmpChars]
    | cons d t =>
      simp only [cmpChars, Ordering.then_eq_lt, Nat.compare_eq_lt, Nat.compare_eq_eq, ih,
        List.cons_lt_cons_iff]
      constructor
      · rintro (h | ⟨h, g⟩)
        · exact .inl h
        · exact .inr ⟨char_ext h, g⟩
      · rintro (h | ⟨rfl, g⟩)
        · exact .inl h
        · exact .inr ⟨rfl, g⟩

/-- **C31.** `cmp` orders identifiers by their printed forms, lexicographically by code points. -/
theorem C31_cmp (a b : IdentData) :
    (a.cmp b = .lt ↔ a.toStr < b.toStr) ∧ (a.cmp b = .eq ↔ a.toStr = b.toStr) ∧
    (a.cmp b = .gt ↔ b.toStr < a.toStr) := by
  unfold IdentData.cmp
  rw [cmpBytes_chars]
  refine ⟨cmpChars_lt, cmpChars_eq, ?_⟩
  rw [← cmpChars_lt, cmpChars_swap]
  cases cmpChars b.toStr a.toStr <;> simp

/-- **C31.** `cmp` is a total order consistent with equality. -/
theorem C31_order {a b c : IdentData} (ha : ApiIdent a) (hb : ApiIdent b) :
    (a.cmp b = .eq ↔ a.eq b = true) ∧ b.cmp a = (a.cmp b).swap ∧
    (a.cmp b ≠ .gt → b.cmp c ≠ .gt → a.cmp c ≠ .gt) := by
  refine ⟨by rw [C31_eq_print ha hb]; exact (C31_cmp a b).2.1, ?_, ?_⟩
  · unfold IdentData.cmp
    exact cmpBytes_swap _ _
  · unfold IdentData.cmp
    simp only [cmpBytes_chars]
    generalize a.toStr = s
    generalize b.toStr = t
    generalize c.toStr = u
    intro h1 h2
    cases h3 : cmpChars s t with
    | gt => exact absurd h3 h1
    | eq => rw [cmpChars_eq.mp h3]; exact h2
    | lt =>
      cases h4 : cmpChars t u with
      | gt => exact absurd h4 h2
      | eq => rw [← cmpChars_eq.mp h4, h3]; simp
      | lt => rw [cmpChars_trans h3 h4]; simp

/-- **C31.** Equal identifiers feed equal data to the hasher, and different ones different data. -/
theorem C31_hash {a b : IdentData} (ha : ApiIdent a) (hb : ApiIdent b) :
    a.hashInput = b.hashInput ↔ a.eq b = true := by
  rw [C31_eq_print ha hb]
  unfold IdentData.hashInput
  rw [List.append_left_inj]
  exact ⟨bytesOf_inj, fun h => by rw [h]⟩

/-! ### C33 -/

/-- **C33.** `Punct::new` accepts exactly the 22 punctuation characters and panics on every other. -/
theorem C33_punct_new (c : Char) (sp : Spacing) :
    (c ∈ "~!@#$%^&*-=+|;:,<.>/?'".toList → punctNew (ε := ε) c sp = .ok (.punct c sp Span.callSite)) ∧
    (c ∉ "~!@#$%^&*-=+|;:,<.>/?'".toList → punctNew (ε := ε) c sp = .panic) := by
  have hlist : "~!@#$%^&*-=+|;:,<.>/?'".toList = ['~', '!', '@', '#', '$', '%', '^', '&', '*', '-', '=',
    '+', '|', ';', ':', ',', '<', '.', '>', '/', '?', '\''] := by decide +kernel
  have hiff : isPunctCtorChar c = true ↔ c ∈ "~!@#$%^&*-=+|;:,<.>/?'".toList := by
    rw [hlist]
    simp only [isPunctCtorChar, Bool.or_eq_true, beq_iff_eq, List.mem_cons, List.not_mem_nil, or_false]
    constructor
    · intro h; rcases h with ((((((((((((((((((((h | h) | h) | h) | h) | h) | h) | h) | h) | h) | h) | h) | h) | h) | h) | h) | h) | h) | h) | h) | h) | h <;> simp [h]
    · intro h; rcases h with h | h | h | h | h | h | h | h | h | h | h | h | h | h | h | h | h | h | h | h | h | h <;> simp [h]
  unfold punctNew
  rw [← hiff]
  constructor
  · intro h; rw [if_pos h]
  · intro h; rw [if_neg h]

theorem wf_punct {L : List Char → Prop} {ts : List TokenTree} {c : Char} {sp : Spacing} {span : Span}
    (h : WFOf L ts) (ht : .punct c sp span ∈ ts) : c ∈ punctChars := by
  induction h with
  | nil => simp at ht
  | punct h1 _ _ _ ih =>
    rcases List.mem_cons.mp ht with e | ht
    · simp at e; rw [e.1]; exact h1
    · exact ih ht
  | quote _ _ ih =>
    rcases List.mem_cons.mp ht with e | ht
    · simp at e; rw [e.1]; decide +kernel
    · exact ih ht
  | _ => rename_i ih; simp at ht; exact ih ht

theorem wf_punct_sub {L : List Char → Prop} {ts : List TokenTree} {c : Char} {sp : Spacing} {span : Span}
    (hs : Sub (.punct c sp span) ts) (h : WFOf L ts) : c ∈ punctChars := by
  induction hs with
  | here ht => exact wf_punct h ht
  | inside ht _ ih => exact ih ((wf_mem h ht).2 _ _ _ rfl)

end

/-! ### Examples -/

section Examples
attribute [local instance] sampleTables sampleTables_lawful

/-- an identifier with Greek letters is accepted, and can be raw -/
example : Ident.new (ε := Unit) "αβ_1".toList ⟨3, 5⟩ = .ok (.ident "αβ_1".toList false ⟨3, 5⟩) ∧
    Ident.newRaw (ε := Unit) "αβ_1".toList ⟨3, 5⟩ = .ok (.ident "αβ_1".toList true ⟨3, 5⟩) := by
  decide +kernel

/-- a lone underscore is accepted, but not as raw; digits, spaces and the empty text are not accepted -/
example : Ident.new (ε := Unit) ['_'] ⟨0, 0⟩ = .ok (.ident ['_'] false ⟨0, 0⟩) ∧
    Ident.newRaw (ε := Unit) ['_'] ⟨0, 0⟩ = .panic ∧
    Ident.new (ε := Unit) "12".toList ⟨0, 0⟩ = .panic ∧
    Ident.new (ε := Unit) "a b".toList ⟨0, 0⟩ = .panic ∧
    Ident.new (ε := Unit) [] ⟨0, 0⟩ = .panic := by decide +kernel

/-- three identifiers made by the API, in order -/
example : ApiIdent ⟨"fn".toList, true⟩ ∧ ApiIdent ⟨"fn".toList, false⟩ ∧ ApiIdent ⟨"α".toList, false⟩ ∧
    IdentData.cmp ⟨"fn".toList, false⟩ ⟨"fn".toList, true⟩ = .lt ∧
    IdentData.cmp ⟨"fn".toList, true⟩ ⟨"α".toList, false⟩ = .lt ∧
    IdentData.eq ⟨"fn".toList, true⟩ ⟨"fn".toList, false⟩ = false ∧
    IdentData.eqStr (ε := Unit) ⟨"fn".toList, true⟩ "r#fn".toList = .ok true ∧
    IdentData.eqStr (ε := Unit) ⟨"fn".toList, true⟩ "fn".toList = .ok false := by
  refine ⟨.newRaw (span := ⟨0, 0⟩) (sp := ⟨0, 0⟩) (by decide +kernel),
    .new (span := ⟨0, 0⟩) (sp := ⟨0, 0⟩) (by decide +kernel),
    .parsed (src := "(α)".toList) (span := ⟨2, 3⟩)
      (ts := [.group .parenthesis [.ident "α".toList false ⟨2, 3⟩] ⟨1, 4⟩]) .init (by decide +kernel)
      (by decide +kernel) (.inside (List.mem_singleton.mpr rfl) (.here (List.mem_singleton.mpr rfl))),
    by decide +kernel, by decide +kernel, by decide +kernel, by decide +kernel, by decide +kernel⟩

/-- a quote is accepted, a quotation mark is not -/
example : punctNew (ε := Unit) '\'' .joint = .ok (.punct '\'' .joint ⟨0, 0⟩) ∧
    punctNew (ε := Unit) '"' .joint = .panic := by decide +kernel

end Examples
end PM2.Props
