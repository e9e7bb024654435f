import Verif.Spec.Debug
import Verif.Spec.Decide
import Verif.Props.Grammar
import Verif.Props.Numbers
import Verif.Props.RoundTrip
/-! # C78, C79, C80, C81: `Debug`, and the options of `Display` -/

namespace PM2.Props
open Spec

/-! ## The adapter that indents -/

@[simp] theorem margin_zero : margin 0 = [] := rfl

theorem margin_add (j k : Nat) : margin j ++ margin k = margin (j + k) := by
  unfold margin
  rw [List.replicate_append_replicate]
  congr 1
  omega

@[simp] theorem atDepth_nil (k : Nat) : atDepth k [] = [] := rfl

@[simp] theorem atDepth_append (k : Nat) (s t : List Char) : atDepth k (s ++ t) = atDepth k s ++ atDepth k t := by
  simp [atDepth]

theorem atDepth_cons (k : Nat) (c : Char) (s : List Char) :
    atDepth k (c :: s) = (if c = '\n' then '\n' :: margin k else [c]) ++ atDepth k s := by
  simp [atDepth]

/-- a text without line feeds -/
theorem atDepth_flat (k : Nat) {s : List Char} (h : '\n' ∉ s) : atDepth k s = s := by
  induction s with
  | nil => rfl
  | cons c s ih =>
    simp only [List.mem_cons, not_or] at h
    rw [atDepth_cons, if_neg (fun e => h.1 e.symm), ih h.2]
    rfl

theorem atDepth_zero (s : List Char) : atDepth 0 s = s := by
  induction s with
  | nil => rfl
  | cons c s ih =>
    rw [atDepth_cons, ih]
    split
    · rename_i h; subst h; rfl
    · rfl

theorem margin_flat (k : Nat) : '\n' ∉ margin k := by
  unfold margin
  intro h
  exact absurd (List.eq_of_mem_replicate h) (by decide)

theorem atDepth_atDepth (j k : Nat) (s : List Char) : atDepth k (atDepth j s) = atDepth (k + j) s := by
  induction s with
  | nil => rfl
  | cons c s ih =>
    rw [atDepth_cons, atDepth_append, ih, atDepth_cons]
    split
    · rw [atDepth_cons, if_pos rfl, atDepth_flat k (margin_flat j)]
      rw [List.cons_append, margin_add]
    · rename_i h
      rw [atDepth_cons, if_neg h]
      simp

theorem padAdapter_entry (nl : Bool) (s : List Char) :
    padAdapter nl (s ++ [',', '\n']) = (if nl then margin 1 else []) ++ atDepth 1 s ++ [',', '\n'] := by
  induction s generalizing nl with
  | nil => cases nl <;> rfl
  | cons c s ih =>
    rw [List.cons_append, padAdapter, ih, atDepth_cons]
    have hm : margin 1 = [' ', ' ', ' ', ' '] := rfl
    by_cases hc : c = '\n'
    · subst hc
      cases nl <;> simp [hm]
    · have : (c == '\n') = false := by simpa using hc
      rw [this, if_neg hc]
      cases nl <;> simp [hm]

theorem prettyEntry_eq (s : List Char) : prettyEntry s = margin 1 ++ atDepth 1 s ++ [',', '\n'] :=
  padAdapter_entry true s

/-- entries, written `k` levels deep -/
theorem atDepth_entries (k : Nat) (es : List (List Char)) :
    margin k ++ atDepth k (es.flatMap prettyEntry) =
      es.flatMap (fun e => line (k + 1) (atDepth (k + 1) e)) ++ margin k := by
  induction es with
  | nil => simp
  | cons e es ih =>
    have h : margin k ++ atDepth k (prettyEntry e) = line (k + 1) (atDepth (k + 1) e) ++ margin k := by
      rw [prettyEntry_eq, atDepth_append, atDepth_append, atDepth_flat k (margin_flat 1), atDepth_atDepth]
      have : atDepth k [',', '\n'] = [',', '\n'] ++ margin k := by
        rw [atDepth_cons, if_neg (by decide), atDepth_cons, if_pos rfl]; simp
      rw [this, ← List.append_assoc, ← List.append_assoc, ← List.append_assoc, margin_add]
      simp [line]
    simp only [List.flatMap_cons, atDepth_append]
    rw [← List.append_assoc, h, List.append_assoc, ih]
    simp

theorem atDepth_struct (k : Nat) (name : List Char) (hn : '\n' ∉ name) (f : List Char × List Char)
    (fs : List (List Char × List Char)) :
    atDepth k (debugStruct true name (f :: fs)) =
      block k name ((f :: fs).flatMap (fun f => line (k + 1) (atDepth (k + 1) (debugField f)))) := by
  have h := atDepth_entries k ((f :: fs).map debugField)
  simp only [List.flatMap_map] at h
  unfold debugStruct block
  rw [if_neg (by simp), if_pos rfl, atDepth_append, atDepth_append, atDepth_append, atDepth_flat k hn]
  have h1 : atDepth k [' ', '{', '\n'] = [' ', '{', '\n'] ++ margin k := by
    rw [atDepth_cons, if_neg (by decide), atDepth_cons, if_neg (by decide), atDepth_cons, if_pos rfl]; simp
  rw [h1, show atDepth k ['}'] = ['}'] from atDepth_flat k (by decide)]
  rw [List.append_assoc name, List.append_assoc [' ', '{', '\n'], h]
  show _ = name ++ [' ', '{', '\n'] ++ _ ++ _ ++ ['}']
  simp

theorem atDepth_list (k : Nat) (es : List (List Char)) :
    atDepth k (debugList true es) =
      '[' :: prettyRest k es.isEmpty (es.flatMap (fun e => line (k + 1) (atDepth (k + 1) e))) := by
  unfold debugList prettyRest
  cases es with
  | nil => exact atDepth_flat k (by decide)
  | cons e es =>
    have h := atDepth_entries k (e :: es)
    rw [if_neg (by simp), if_pos rfl, if_neg (by simp), atDepth_append, atDepth_append]
    have h1 : atDepth k ['[', '\n'] = ['[', '\n'] ++ margin k := by
      rw [atDepth_cons, if_neg (by decide), atDepth_cons, if_pos rfl]; simp
    rw [h1, show atDepth k [']'] = [']'] from atDepth_flat k (by decide)]
    rw [List.append_assoc ['[', '\n'], h]
    show _ = '[' :: (['\n'] ++ _ ++ _ ++ [']'])
    simp

theorem natDec_flat (n : Nat) : '\n' ∉ natDec n := by
  intro h
  have := toDigits_dig n _ h
  exact absurd this.1 (by decide)

theorem atDepth_span (k : Nat) (s : Span) :
    (debugSpanField true s).flatMap (fun f => line k (atDepth k (debugField f))) = spanLine k s := by
  obtain ⟨lo, hi⟩ := s
  unfold debugSpanField spanLine Span.isCallSite Span.callSite
  by_cases h : lo = 0 ∧ hi = 0
  · obtain ⟨rfl, rfl⟩ := h
    rfl
  · have h1 : (lo == 0 && hi == 0) = false := by
      simp only [Bool.and_eq_false_iff, beq_eq_false_iff_ne]
      omega
    rw [if_neg (by simp [h1]), if_pos rfl, if_neg (by simpa using h)]
    simp only [List.flatMap_cons, List.flatMap_nil, List.append_nil]
    rw [atDepth_flat]
    · rfl
    · intro hm
      simp only [debugField, debugSpan, if_true, List.mem_append] at hm
      have h1 := natDec_flat lo
      have h2 := natDec_flat hi
      rcases hm with (hm | hm) | ((((hm | hm) | hm) | hm) | hm)
      all_goals first | exact h1 hm | exact h2 hm | exact absurd hm (by decide)

section
variable [UnicodeTables]

theorem litCharacter_eq (c : Char) : debugChar c = litCharacter c := by
  simp [debugChar, litCharacter]

theorem escapeUnicode_flat (c : Char) : '\n' ∉ escapeUnicode c := by
  obtain ⟨ds, h1, h2⟩ := escapeUnicode_uni c
  rw [h1]
  intro h
  simp only [List.cons_append, List.mem_cons, List.mem_append, List.not_mem_nil, or_false] at h
  rcases h with h | h | h | h | h
  · exact absurd h (by decide)
  · exact absurd h (by decide)
  · exact absurd h (by decide)
  · rcases h2.chars _ h with h | h
    · rcases h with h | h | h <;> exact absurd h.1 (by decide)
    · exact absurd h (by decide)
  · exact absurd h (by decide)

theorem debugChar_flat (c : Char) : '\n' ∉ debugChar c := by
  have : '\n' ∉ escapeDebug c := by
    have h := escapeUnicode_flat c
    unfold escapeDebug
    repeat' split
    all_goals first | exact h | decide | skip
    simp only [List.mem_singleton]
    rintro rfl
    contradiction
  unfold debugChar
  simp only [List.mem_append, List.mem_singleton, not_or]
  refine ⟨⟨by decide, ?_⟩, by decide⟩
  split
  · rename_i h; subst h; decide
  · exact this

theorem debugTrees_isEmpty (loc alt : Bool) (ts : List TokenTree) :
    (debugTrees loc alt ts).isEmpty = ts.isEmpty := by
  cases ts <;> simp [debugTrees]

mutual

theorem atDepth_tree (k : Nat) (t : TokenTree) : atDepth k (debugTree true true t) = prettyTree k t := by
  cases t with
  | group d ts s =>
    unfold debugTree prettyTree
    rw [atDepth_struct _ _ (by decide)]
    simp only [List.flatMap_cons, atDepth_span]
    congr 1
    rw [← List.append_assoc]
    congr 1
    congr 1
    · congr 1
      cases d <;> exact atDepth_flat _ (by decide)
    · congr 1
      simp only [debugField, atDepth_append, atDepth_list]
      rw [atDepth_trees (k + 2) ts, debugTrees_isEmpty]
      rw [show atDepth (k + 1) "stream".toList = "stream".toList from atDepth_flat _ (by decide),
        show atDepth (k + 1) [':', ' '] = [':', ' '] from atDepth_flat _ (by decide),
        show atDepth (k + 1) "TokenStream ".toList = "TokenStream ".toList from atDepth_flat _ (by decide)]
      simp
  | ident sym raw s =>
    unfold debugTree prettyTree
    rw [atDepth_struct _ _ (by decide)]
    simp only [List.flatMap_cons, atDepth_span]
    congr 3
    simp only [debugField, displayIdent, atDepth_append]
    rw [show atDepth (k + 1) "sym".toList = "sym".toList from atDepth_flat _ (by decide),
      show atDepth (k + 1) [':', ' '] = [':', ' '] from atDepth_flat _ (by decide)]
    rw [show atDepth (k + 1) (if raw = true then ['r', '#'] else []) = if raw = true then ['r', '#'] else [] from
      by cases raw <;> exact atDepth_flat _ (by decide)]
    simp
  | punct ch sp s =>
    unfold debugTree prettyTree
    rw [atDepth_struct _ _ (by decide)]
    simp only [List.flatMap_cons, atDepth_span]
    congr 1
    rw [← List.append_assoc]
    congr 1
    congr 1
    · congr 1
      simp only [debugField, atDepth_append]
      rw [show atDepth (k + 1) "char".toList = "char".toList from atDepth_flat _ (by decide),
        show atDepth (k + 1) [':', ' '] = [':', ' '] from atDepth_flat _ (by decide),
        atDepth_flat _ (debugChar_flat ch), litCharacter_eq]
      simp
    · congr 1
      cases sp <;> exact atDepth_flat _ (by decide)
  | literal repr s =>
    unfold debugTree prettyTree
    rw [atDepth_struct _ _ (by decide)]
    simp only [List.flatMap_cons, atDepth_span]
    congr 3

theorem atDepth_trees (k : Nat) (ts : List TokenTree) :
    (debugTrees true true ts).flatMap (fun e => line k (atDepth k e)) = prettyEntries k ts := by
  cases ts with
  | nil => rfl
  | cons t ts =>
    unfold debugTrees prettyEntries
    rw [List.flatMap_cons, atDepth_tree k t, atDepth_trees k ts]

end

mutual

theorem debugTree_erase (alt : Bool) (t : TokenTree) :
    debugTree false alt t = debugTree true alt (mapSpanTree (fun _ => Span.callSite) t) := by
  cases t with
  | group d ts s =>
    simp only [debugTree, mapSpanTree]
    rw [debugTrees_erase alt ts]
    rfl
  | _ => rfl

theorem debugTrees_erase (alt : Bool) (ts : List TokenTree) :
    debugTrees false alt ts = debugTrees true alt (mapSpan (fun _ => Span.callSite) ts) := by
  cases ts with
  | nil => rfl
  | cons t ts =>
    simp only [debugTrees, mapSpan]
    rw [debugTree_erase alt t, debugTrees_erase alt ts]

end

/-! ## The text determines the stream -/

/-- After the text, a line begins exactly if the flag says so. -/
def Closed : Bool → List Char → Prop
  | nl, [] => nl = true
  | _, c :: cs => Closed (c == '\n') cs

omit [UnicodeTables] in
theorem closed_append {nl : Bool} {s t : List Char} (hs : Closed nl s) (ht : Closed true t) :
    Closed nl (s ++ t) := by
  induction s generalizing nl with
  | nil => simp only [Closed] at hs; subst hs; exact ht
  | cons c s ih => exact ih hs

omit [UnicodeTables] in
theorem closed_entry (nl : Bool) (s : List Char) : Closed nl (s ++ [',', '\n']) := by
  induction s generalizing nl with
  | nil => simp [Closed]
  | cons c s ih => exact ih _

omit [UnicodeTables] in
theorem padAdapter_append {nl : Bool} {s : List Char} (hs : Closed nl s) (t : List Char) :
    padAdapter nl (s ++ t) = padAdapter nl s ++ padAdapter true t := by
  induction s generalizing nl with
  | nil => simp only [Closed] at hs; subst hs; rfl
  | cons c s ih => simp only [List.cons_append, padAdapter, ih hs, List.append_assoc]

omit [UnicodeTables] in
/-- indenting loses nothing, and its end can be seen -/
theorem padAdapter_inj {nl : Bool} {s t : List Char} (hs : Closed nl s) (ht : Closed nl t) {e : Char}
    (he : e ≠ ' ') {a b : List Char} (h : padAdapter nl s ++ e :: a = padAdapter nl t ++ e :: b) :
    s = t ∧ a = b := by
  induction s generalizing nl t with
  | nil =>
    simp only [Closed] at hs
    subst hs
    cases t with
    | nil => simpa [padAdapter] using h
    | cons c t =>
      simp only [padAdapter, List.nil_append, if_true, List.cons_append, List.cons.injEq] at h
      exact absurd h.1 he
  | cons c s ih =>
    cases t with
    | nil =>
      simp only [Closed] at ht
      subst ht
      simp only [padAdapter, List.nil_append, if_true, List.cons_append, List.cons.injEq] at h
      exact absurd h.1.symm he
    | cons d t =>
      simp only [padAdapter, List.append_assoc, List.cons_append] at h
      have h := List.append_cancel_left h
      simp only [List.cons.injEq] at h
      obtain ⟨rfl, h⟩ := h
      obtain ⟨rfl, rfl⟩ := ih hs ht h
      exact ⟨rfl, rfl⟩

/-- The entries of the alternate form, without their margins. -/
def flatEntries (es : List (List Char)) : List Char := es.flatMap (· ++ [',', '\n'])

omit [UnicodeTables] in
theorem flatEntries_closed (es : List (List Char)) : Closed true (flatEntries es) := by
  induction es with
  | nil => rfl
  | cons e es ih => exact closed_append (closed_entry true e) ih

omit [UnicodeTables] in
theorem flatMap_prettyEntry (es : List (List Char)) : es.flatMap prettyEntry = padAdapter true (flatEntries es) := by
  induction es with
  | nil => rfl
  | cons e es ih =>
    rw [flatEntries, List.flatMap_cons, List.flatMap_cons, padAdapter_append (closed_entry true e), ← flatEntries,
      ← ih]
    rfl

/-- What follows the first entry of a struct or list; `e` is what ends it. In the alternate form it is without
margins, and ends with the last entry. -/
def after (alt : Bool) (e : List Char) : List (List Char) → List Char
  | [] => if alt then [',', '\n'] else e
  | x :: xs => (if alt then [',', '\n'] else [',', ' ']) ++ x ++ after alt e xs

omit [UnicodeTables] in
theorem commaSep_after (x : List Char) (xs : List (List Char)) (e : List Char) :
    commaSep (x :: xs) ++ e = x ++ after false e xs := by
  induction xs generalizing x with
  | nil => simp [commaSep, after]
  | cons y ys ih =>
    have : commaSep (x :: y :: ys) = x ++ [',', ' '] ++ commaSep (y :: ys) := rfl
    rw [this, List.append_assoc, ih]
    simp [after]

omit [UnicodeTables] in
theorem flatEntries_after (x : List Char) (xs : List (List Char)) (e : List Char) :
    flatEntries (x :: xs) = x ++ after true e xs := by
  induction xs generalizing x with
  | nil => simp [flatEntries, after]
  | cons y ys ih =>
    have : flatEntries (x :: y :: ys) = x ++ [',', '\n'] ++ flatEntries (y :: ys) := by simp [flatEntries]
    rw [this, ih]
    simp [after]

omit [UnicodeTables] in
/-- structs of the same name -/
theorem struct_inj {alt : Bool} {name : List Char} {f g : List Char × List Char}
    {fs gs : List (List Char × List Char)} {a b : List Char}
    (h : debugStruct alt name (f :: fs) ++ a = debugStruct alt name (g :: gs) ++ b) :
    debugField f ++ after alt (' ' :: '}' :: a) (fs.map debugField) =
      debugField g ++ after alt (' ' :: '}' :: b) (gs.map debugField) ∧ (alt = true → a = b) := by
  cases alt with
  | true =>
    simp only [debugStruct, List.isEmpty_cons, Bool.false_eq_true, if_false, if_true, List.append_assoc] at h
    have h := List.append_cancel_left (List.append_cancel_left h)
    have e : ∀ l : List (List Char × List Char),
        l.flatMap (fun f => prettyEntry (debugField f)) = padAdapter true (flatEntries (l.map debugField)) := by
      intro l
      rw [← flatMap_prettyEntry, List.flatMap_map]
    rw [e, e] at h
    obtain ⟨h1, h2⟩ := padAdapter_inj (flatEntries_closed _) (flatEntries_closed _) (by decide) h
    refine ⟨?_, fun _ => h2⟩
    rw [List.map_cons, List.map_cons, flatEntries_after _ _ (' ' :: '}' :: a),
      flatEntries_after _ _ (' ' :: '}' :: b)] at h1
    exact h1
  | false =>
    simp only [debugStruct, List.isEmpty_cons, Bool.false_eq_true, if_false, List.append_assoc] at h
    have h := List.append_cancel_left (List.append_cancel_left h)
    simp only [List.map_cons, List.cons_append, List.nil_append, commaSep_after] at h
    exact ⟨h, by simp⟩

/-- What may follow a value. -/
def Ends (w : List Char) : Prop := ∃ c w', w = c :: w' ∧ (c = ',' ∨ c = ' ' ∨ c = ']')

omit [UnicodeTables] in
theorem after_ends (alt : Bool) {e : List Char} (he : Ends e) (xs : List (List Char)) : Ends (after alt e xs) := by
  cases xs with
  | nil =>
    cases alt
    · exact he
    · exact ⟨',', _, rfl, .inl rfl⟩
  | cons x xs => cases alt <;> exact ⟨',', _, rfl, .inl rfl⟩

omit [UnicodeTables] in
/-- a text of one class of characters, and what follows -/
theorem split_class {p : Char → Prop} {s t : List Char} (hs : ∀ c ∈ s, p c) (ht : ∀ c ∈ t, p c) {v w : List Char}
    (hv : ∀ c, v.head? = some c → ¬ p c) (hw : ∀ c, w.head? = some c → ¬ p c) (h : s ++ v = t ++ w) :
    s = t ∧ v = w := by
  induction s generalizing t with
  | nil =>
    cases t with
    | nil => exact ⟨rfl, h⟩
    | cons d t =>
      exact absurd (ht d (by simp)) (hv d (by rw [show v = d :: t ++ w from h]; rfl))
  | cons c s ih =>
    cases t with
    | nil => exact absurd (hs c (by simp)) (hw c (by rw [← show c :: s ++ v = w from h]; rfl))
    | cons d t =>
      simp only [List.cons_append, List.cons.injEq] at h
      obtain ⟨rfl, h⟩ := h
      obtain ⟨rfl, rfl⟩ := ih (fun c hc => hs c (by simp [hc])) (fun c hc => ht c (by simp [hc])) h
      exact ⟨rfl, rfl⟩

omit [UnicodeTables] in
theorem natDec_inj {m n : Nat} {c : Char} (hc : ¬ Dig c) {v w : List Char}
    (h : natDec m ++ c :: v = natDec n ++ c :: w) : m = n ∧ v = w := by
  obtain ⟨h1, h2⟩ := split_class (p := Dig) (toDigits_dig m) (toDigits_dig n) (by simpa using hc) (by simpa using hc) h
  have h3 := (natDec_decimal m).value
  have h4 := (natDec_decimal n).value
  have h1 : natDec m = natDec n := h1
  rw [h1, h4] at h3
  simp only [List.cons.injEq, true_and] at h2
  exact ⟨h3.symm, h2⟩

omit [UnicodeTables] in
/-- the span is the last field -/
theorem span_inj {alt : Bool} {s t : Span} {a b : List Char}
    (h : after alt (' ' :: '}' :: a) ((debugSpanField true s).map debugField) =
      after alt (' ' :: '}' :: b) ((debugSpanField true t).map debugField)) :
    s = t ∧ (alt = false → a = b) := by
  have e : ∀ s : Span, s = Span.callSite ∧ debugSpanField true s = [] ∨
      debugSpanField true s = [("span".toList, debugSpan true s)] := by
    rintro ⟨lo, hi⟩
    unfold debugSpanField Span.isCallSite Span.callSite
    by_cases hz : lo = 0 ∧ hi = 0
    · left; obtain ⟨rfl, rfl⟩ := hz; exact ⟨rfl, rfl⟩
    · right
      have h1 : (lo == 0 && hi == 0) = false := by
        simp only [Bool.and_eq_false_iff, beq_eq_false_iff_ne]
        omega
      rw [if_neg (by simp [h1]), if_pos rfl]
  rcases e s with ⟨rfl, hs⟩ | hs <;> rcases e t with ⟨rfl, ht⟩ | ht
  · refine ⟨rfl, ?_⟩
    rintro rfl
    rw [hs] at h
    simpa [after] using h
  · rw [hs, ht] at h
    cases alt <;> simp [after, debugField] at h
  · rw [hs, ht] at h
    cases alt <;> simp [after, debugField] at h
  · rw [hs, ht] at h
    obtain ⟨lo, hi⟩ := s
    obtain ⟨lo', hi'⟩ := t
    have h0 : natDec lo ++ '.' :: ('.' :: (natDec hi ++ ')' :: (if alt then [',', '\n'] else ' ' :: '}' :: a))) =
        natDec lo' ++ '.' :: ('.' :: (natDec hi' ++ ')' :: (if alt then [',', '\n'] else ' ' :: '}' :: b))) := by
      cases alt <;> simpa [after, debugField, debugSpan] using h
    obtain ⟨rfl, h1⟩ := natDec_inj (by intro h; exact absurd h.1 (by decide)) h0
    simp only [List.cons.injEq, true_and] at h1
    obtain ⟨rfl, h2⟩ := natDec_inj (by intro h; exact absurd h.1 (by decide)) h1
    refine ⟨rfl, ?_⟩
    rintro rfl
    simpa using h2

section
variable [LawfulUnicode]

theorem ends_bdl {w : List Char} (h : Ends w) : P.BdL w := by
  obtain ⟨c, w', rfl, hc⟩ := h
  rintro d w'' e
  simp only [List.cons.injEq] at e
  obtain ⟨rfl, rfl⟩ := e
  rcases hc with rfl | rfl | rfl <;>
    exact ⟨continue_false (by decide) (by decide), by decide, by decide⟩

theorem literalText_ends {x w : List Char} (h : LiteralText x []) (hw : Ends w) :
    P.literal (x ++ w) = some w := by
  have h1 : P.literal x = some [] := P.literal_iff.mpr ⟨x, by simp, h⟩
  simpa using P.literal_ext (ends_bdl hw) h1

theorem literalText_head {x w : List Char} (h : LiteralText x []) : ∃ c u, x ++ w = c :: u ∧ c ≠ '-' ∧ c ≠ '(' := by
  have h1 : P.literal x = some [] := P.literal_iff.mpr ⟨x, by simp, h⟩
  obtain ⟨c, u, rfl, hc⟩ := P.literal_head h1
  refine ⟨c, u ++ w, rfl, ?_⟩
  rcases hc with rfl | rfl | rfl | rfl | rfl | hc <;> first | decide | skip
  constructor <;> rintro rfl <;> exact absurd hc (by decide)

/-- The texts of literals, with the error literal and numbers with a minus sign. -/
def LitText (x : List Char) : Prop := WholeLiteral x ∨ x = errorText

theorem litText_inj {x y v w : List Char} (hx : LitText x) (hy : LitText y) (hv : Ends v) (hw : Ends w)
    (h : x ++ v = y ++ w) : x = y ∧ v = w := by
  have key : ∀ {x y v w : List Char}, LiteralText x [] → LiteralText y [] → Ends v → Ends w → x ++ v = y ++ w →
      x = y ∧ v = w := by
    intro x y v w hx hy hv hw h
    have h1 := literalText_ends hx hv
    have h2 := literalText_ends hy hw
    rw [h, h2] at h1
    simp only [Option.some.injEq] at h1
    subst h1
    exact ⟨List.append_cancel_right h, rfl⟩
  rcases hx with (hx | ⟨x, rfl, hx⟩) | rfl <;> rcases hy with (hy | ⟨y, rfl, hy⟩) | rfl
  · exact key hx hy hv hw h
  · obtain ⟨c, u, e, h1, h2⟩ := literalText_head (w := v) hx
    rw [e] at h
    simp only [List.cons_append, List.cons.injEq] at h
    exact absurd h.1 h1
  · obtain ⟨c, u, e, h1, h2⟩ := literalText_head (w := v) hx
    rw [e] at h
    simp only [errorText, List.cons_append, List.cons.injEq] at h
    exact absurd h.1 h2
  · obtain ⟨c, u, e, h1, h2⟩ := literalText_head (w := w) hy
    rw [e] at h
    simp only [List.cons_append, List.cons.injEq] at h
    exact absurd h.1.symm h1
  · simp only [List.cons_append, List.cons.injEq, true_and] at h
    obtain ⟨rfl, rfl⟩ := key (.inr hx) (.inr hy) hv hw h
    exact ⟨rfl, rfl⟩
  · simp [errorText] at h
  · obtain ⟨c, u, e, h1, h2⟩ := literalText_head (w := w) hy
    rw [e] at h
    simp only [errorText, List.cons_append, List.cons.injEq] at h
    exact absurd h.1.symm h2
  · simp [errorText] at h
  · exact ⟨rfl, List.append_cancel_left h⟩

theorem debugChar_inj {c d : Char} {v w : List Char} (hv : Ends v) (hw : Ends w)
    (h : debugChar c ++ v = debugChar d ++ w) : c = d ∧ v = w := by
  have lit : ∀ c, LiteralText (litCharacter c) [] ∧ ∃ e, litCharacter c = '\'' :: e ++ ['\''] ∧
      unescapeChar e = .ok c := by
    intro c
    obtain ⟨e, h1, h2, h3⟩ := litCharacter_value c
    refine ⟨?_, e, h1, (unescapeChar_iff e c).mpr h3⟩
    rw [h1]
    exact .inl ⟨_, [], by simp, .char h2, .inl ⟨rfl, by simp⟩⟩
  rw [litCharacter_eq, litCharacter_eq] at h
  obtain ⟨h1, e1, h2, h3⟩ := lit c
  obtain ⟨g1, e2, g2, g3⟩ := lit d
  obtain ⟨h4, h5⟩ := litText_inj (.inl (.inl h1)) (.inl (.inl g1)) hv hw h
  rw [h2, g2] at h4
  simp only [List.cons_append, List.cons.injEq, true_and] at h4
  have h6 := List.append_cancel_right h4
  rw [h6, g3] at h3
  injection h3 with h3
  exact ⟨h3.symm, h5⟩

theorem identText_inj {sym sym' : List Char} {raw raw' : Bool} (hs : ValidIdent sym) (hs' : ValidIdent sym')
    {v w : List Char} (hv : Ends v) (hw : Ends w) (h : displayIdent sym raw ++ v = displayIdent sym' raw' ++ w) :
    sym = sym' ∧ raw = raw' ∧ v = w := by
  have stop : ∀ {v : List Char}, Ends v → ∀ c, v.head? = some c → ¬ isIdentContinue c = true := by
    rintro v ⟨c, w', rfl, hc⟩ d hd
    simp only [List.head?_cons, Option.some.injEq] at hd
    subst hd
    have := continue_false (c := c) (by rcases hc with rfl | rfl | rfl <;> decide)
      (by rcases hc with rfl | rfl | rfl <;> decide)
    rw [this]; decide
  have mixed : ∀ {sym sym' v w : List Char}, ValidIdent sym → Ends v → sym ++ v = 'r' :: '#' :: sym' ++ w →
      False := by
    intro sym sym' v w hs hv h
    have h1 : sym ++ v = ['r'] ++ ('#' :: sym' ++ w) := by simpa using h
    obtain ⟨rfl, h2⟩ := split_class (p := fun c => isIdentContinue c = true) hs.continue
      (by intro c hc
          obtain ⟨d, t, e, hd, ht⟩ := hs
          have hr : d = 'r' := by rw [e] at h1; simp at h1; exact h1.1
          simp only [List.mem_singleton] at hc
          subst hc
          exact ValidIdent.continue ⟨d, t, e, hd, ht⟩ _ (by rw [e, hr]; simp)) (stop hv)
      (by intro c hc
          simp at hc
          subst hc
          rw [continue_false (by decide) (by decide)]; decide) h1
    obtain ⟨c, w', rfl, hc⟩ := hv
    simp only [List.cons_append, List.cons.injEq] at h2
    rw [h2.1] at hc
    exact absurd hc (by decide)
  unfold displayIdent at h
  cases raw <;> cases raw'
  · obtain ⟨h1, h2⟩ := split_class (p := fun c => isIdentContinue c = true) hs.continue hs'.continue (stop hv)
      (stop hw) (by simpa using h)
    exact ⟨h1, rfl, h2⟩
  · exact absurd (by simpa using h) (mixed hs hv)
  · exact absurd (by simpa using h.symm) (mixed hs' hw)
  · obtain ⟨h1, h2⟩ := split_class (p := fun c => isIdentContinue c = true) hs.continue hs'.continue (stop hv)
      (stop hw) (by simpa using h)
    exact ⟨h1, rfl, h2⟩

theorem delimiter_inj {d d' : Delimiter} {v w : List Char} (h : debugDelimiter d ++ v = debugDelimiter d' ++ w) :
    d = d' ∧ v = w := by
  have e : ∀ d, debugDelimiter d = match d with
    | .parenthesis => ['P', 'a', 'r', 'e', 'n', 't', 'h', 'e', 's', 'i', 's']
    | .brace => ['B', 'r', 'a', 'c', 'e']
    | .bracket => ['B', 'r', 'a', 'c', 'k', 'e', 't']
    | .none => ['N', 'o', 'n', 'e'] := by intro d; cases d <;> rfl
  rw [e, e] at h
  cases d <;> cases d' <;> simp at h <;> simp_all

theorem spacing_inj {d d' : Spacing} {v w : List Char} (h : debugSpacing d ++ v = debugSpacing d' ++ w) :
    d = d' ∧ v = w := by
  have e : ∀ d, debugSpacing d = match d with
    | .alone => ['A', 'l', 'o', 'n', 'e']
    | .joint => ['J', 'o', 'i', 'n', 't'] := by intro d; cases d <;> rfl
  rw [e, e] at h
  cases d <;> cases d' <;> simp at h <;> simp_all

theorem debugTree_head (alt : Bool) (t : TokenTree) (w : List Char) :
    ∃ c u, debugTree true alt t ++ w = c :: u ∧ c ≠ ']' := by
  cases t <;> cases alt <;> simp [debugTree, debugStruct]

theorem ends_struct (a : List Char) : Ends (' ' :: '}' :: a) := ⟨' ', _, rfl, .inr (.inl rfl)⟩

omit [LawfulUnicode] in
theorem list_cons_inj {alt : Bool} {x y : List Char} {xs ys : List (List Char)} {a b : List Char}
    (h : debugList alt (x :: xs) ++ a = debugList alt (y :: ys) ++ b) :
    x ++ after alt (']' :: a) xs = y ++ after alt (']' :: b) ys ∧ (alt = true → a = b) := by
  cases alt with
  | true =>
    simp only [debugList, List.isEmpty_cons, Bool.false_eq_true, if_false, if_true, List.append_assoc] at h
    have h := List.append_cancel_left h
    rw [flatMap_prettyEntry, flatMap_prettyEntry] at h
    obtain ⟨h1, h2⟩ := padAdapter_inj (flatEntries_closed _) (flatEntries_closed _) (by decide) h
    rw [flatEntries_after _ _ (']' :: a), flatEntries_after _ _ (']' :: b)] at h1
    exact ⟨h1, fun _ => h2⟩
  | false =>
    simp only [debugList, List.isEmpty_cons, Bool.false_eq_true, if_false, List.append_assoc] at h
    have h := List.append_cancel_left h
    simp only [List.cons_append, List.nil_append, commaSep_after] at h
    exact ⟨h, by simp⟩

theorem after_cons_inj {alt : Bool} {e e' x y : List Char} {xs ys : List (List Char)}
    (h : after alt e (x :: xs) = after alt e' (y :: ys)) : x ++ after alt e xs = y ++ after alt e' ys := by
  simp only [after, List.append_assoc] at h
  exact List.append_cancel_left h

theorem field_inj {n x y v w : List Char} (h : debugField (n, x) ++ v = debugField (n, y) ++ w) :
    x ++ v = y ++ w := by
  simp only [debugField, List.append_assoc] at h
  exact List.append_cancel_left (List.append_cancel_left h)

theorem _root_.PM2.Spec.Proper.head {t : TokenTree} {ts : List TokenTree} (h : Proper (t :: ts)) : Proper [t] := by
  intro x hx
  rcases hx.cons with rfl | ⟨d, inner, span, rfl, hi⟩ | hx
  · exact h _ (.here (by simp))
  · exact h _ (.inside List.mem_cons_self hi)
  · exact absurd hx (fun h => h.nil)

theorem _root_.PM2.Spec.Proper.tail {t : TokenTree} {ts : List TokenTree} (h : Proper (t :: ts)) : Proper ts :=
  fun x hx => h x hx.tail

theorem _root_.PM2.Spec.Proper.inner {d : Delimiter} {ts : List TokenTree} {s : Span} (h : Proper [.group d ts s]) : Proper ts :=
  fun x hx => h x (.inside List.mem_cons_self hx)

theorem _root_.PM2.Spec.Proper.lit {x : List Char} {s : Span} (h : Proper [.literal x s]) : LitText x := by
  have := h _ (.here (List.mem_singleton.mpr rfl))
  cases this with
  | literal h => exact .inl h
  | error => exact .inr rfl

theorem _root_.PM2.Spec.Proper.ident {x : List Char} {raw : Bool} {s : Span} (h : Proper [.ident x raw s]) : ValidIdent x := by
  have := h _ (.here (List.mem_singleton.mpr rfl))
  cases this with
  | ident h => exact h

mutual

theorem debugTree_inj (alt : Bool) (t u : TokenTree) (ht : Proper [t]) (hu : Proper [u]) (a b : List Char)
    (h : debugTree true alt t ++ a = debugTree true alt u ++ b) : t = u ∧ a = b := by
  cases t with
  | group d ts s =>
    cases u with
    | group d' us s' =>
      unfold debugTree at h
      obtain ⟨h1, h2⟩ := struct_inj h
      obtain ⟨rfl, h3⟩ := delimiter_inj (field_inj h1)
      have h4 := field_inj (after_cons_inj h3)
      simp only [List.append_assoc] at h4
      obtain ⟨rfl, h5⟩ := debugList_inj alt ts us ht.inner hu.inner _ _ (List.append_cancel_left h4)
      obtain ⟨rfl, h6⟩ := span_inj h5
      exact ⟨rfl, by cases alt <;> simp_all⟩
    | _ => cases alt <;> simp [debugTree, debugStruct] at h
  | ident sym raw s =>
    cases u with
    | ident sym' raw' s' =>
      unfold debugTree at h
      obtain ⟨h1, h2⟩ := struct_inj h
      obtain ⟨rfl, rfl, h3⟩ := identText_inj ht.ident hu.ident (after_ends _ (ends_struct _) _)
        (after_ends _ (ends_struct _) _) (field_inj h1)
      obtain ⟨rfl, h6⟩ := span_inj h3
      exact ⟨rfl, by cases alt <;> simp_all⟩
    | _ => cases alt <;> simp [debugTree, debugStruct] at h
  | punct ch sp s =>
    cases u with
    | punct ch' sp' s' =>
      unfold debugTree at h
      obtain ⟨h1, h2⟩ := struct_inj h
      obtain ⟨rfl, h3⟩ := debugChar_inj (after_ends _ (ends_struct _) _)
        (after_ends _ (ends_struct _) _) (field_inj h1)
      obtain ⟨rfl, h5⟩ := spacing_inj (field_inj (after_cons_inj h3))
      obtain ⟨rfl, h6⟩ := span_inj h5
      exact ⟨rfl, by cases alt <;> simp_all⟩
    | _ => cases alt <;> simp [debugTree, debugStruct] at h
  | literal x s =>
    cases u with
    | literal x' s' =>
      unfold debugTree at h
      obtain ⟨h1, h2⟩ := struct_inj h
      obtain ⟨rfl, h3⟩ := litText_inj ht.lit hu.lit (after_ends _ (ends_struct _) _)
        (after_ends _ (ends_struct _) _) (field_inj h1)
      obtain ⟨rfl, h6⟩ := span_inj h3
      exact ⟨rfl, by cases alt <;> simp_all⟩
    | _ => cases alt <;> simp [debugTree, debugStruct] at h

theorem debugTrees_inj (alt : Bool) (ts us : List TokenTree) (ht : Proper ts) (hu : Proper us) (a b : List Char)
    (h : after alt (']' :: a) (debugTrees true alt ts) = after alt (']' :: b) (debugTrees true alt us)) :
    ts = us ∧ (alt = false → a = b) := by
  cases ts with
  | nil =>
    cases us with
    | nil => exact ⟨rfl, by rintro rfl; simpa [debugTrees, after] using h⟩
    | cons u us =>
      obtain ⟨c, v, e, -⟩ := debugTree_head alt u (after alt (']' :: b) (debugTrees true alt us))
      simp only [debugTrees, after, List.append_assoc, e] at h
      cases alt <;> simp at h
  | cons t ts =>
    cases us with
    | nil =>
      obtain ⟨c, v, e, -⟩ := debugTree_head alt t (after alt (']' :: a) (debugTrees true alt ts))
      simp only [debugTrees, after, List.append_assoc, e] at h
      cases alt <;> simp at h
    | cons u us =>
      simp only [debugTrees] at h
      obtain ⟨rfl, h1⟩ := debugTree_inj alt t u ht.head hu.head _ _ (after_cons_inj h)
      obtain ⟨rfl, h2⟩ := debugTrees_inj alt ts us ht.tail hu.tail _ _ h1
      exact ⟨rfl, h2⟩

theorem debugList_inj (alt : Bool) (ts us : List TokenTree) (ht : Proper ts) (hu : Proper us) (a b : List Char)
    (h : debugList alt (debugTrees true alt ts) ++ a = debugList alt (debugTrees true alt us) ++ b) :
    ts = us ∧ a = b := by
  cases ts with
  | nil =>
    cases us with
    | nil => exact ⟨rfl, List.append_cancel_left h⟩
    | cons u us =>
      exfalso
      cases alt with
      | true => simp [debugTrees, debugList] at h
      | false =>
        obtain ⟨c, v, e, hc⟩ := debugTree_head false u (after false [']'] (debugTrees true false us) ++ b)
        simp only [debugTrees, debugList, List.isEmpty_cons, List.isEmpty_nil, Bool.false_eq_true, if_false, if_true,
          List.append_assoc, List.cons_append, List.nil_append, commaSep_after, e, List.cons.injEq] at h
        exact hc h.2.1.symm
  | cons t ts =>
    cases us with
    | nil =>
      exfalso
      cases alt with
      | true => simp [debugTrees, debugList] at h
      | false =>
        obtain ⟨c, v, e, hc⟩ := debugTree_head false t (after false [']'] (debugTrees true false ts) ++ a)
        simp only [debugTrees, debugList, List.isEmpty_cons, List.isEmpty_nil, Bool.false_eq_true, if_false, if_true,
          List.append_assoc, List.cons_append, List.nil_append, commaSep_after, e, List.cons.injEq] at h
        exact hc h.2.1
    | cons u us =>
      simp only [debugTrees] at h
      obtain ⟨h1, h2⟩ := list_cons_inj h
      obtain ⟨rfl, h3⟩ := debugTree_inj alt t u ht.head hu.head _ _ h1
      obtain ⟨rfl, h4⟩ := debugTrees_inj alt ts us ht.tail hu.tail _ _ h3
      exact ⟨rfl, by cases alt <;> simp_all⟩

end

/-! ## C78 -/

omit [LawfulUnicode] in
/-- well-formed streams are proper -/
theorem _root_.PM2.Spec.WF.proper {ts : List TokenTree} (h : WF ts) : Proper ts := by
  intro t ht
  induction ht with
  | @here us hm =>
    unfold WF at h
    induction h with
    | nil => simp at hm
    | ident hv hr hw ih =>
      rcases List.mem_cons.mp hm with rfl | hm
      · exact .ident hv
      · exact ih hm
    | literal hl hw ih =>
      rcases List.mem_cons.mp hm with rfl | hm
      · rcases hl with rfl | hl
        · exact .error
        · exact .literal (.inl hl)
      · exact ih hm
    | group hd hi hw ih ih' =>
      rcases List.mem_cons.mp hm with rfl | hm
      · exact .group
      · exact ih' hm
    | punct hc hq hj hw ih =>
      rcases List.mem_cons.mp hm with rfl | hm
      · exact .punct hc
      · exact ih hm
    | quote hq hw ih =>
      rcases List.mem_cons.mp hm with rfl | hm
      · exact .punct (by decide)
      · exact ih hm
  | @inside us d inner span hm hs ih =>
    apply ih
    unfold WF at h ⊢
    induction h with
    | nil => simp at hm
    | group hd hi hw ih ih' =>
      rcases List.mem_cons.mp hm with e | hm
      · injection e with e1 e2 e3
        subst e2
        exact hi
      · exact ih' hm
    | ident _ _ _ ih => simp at hm; exact ih hm
    | literal _ _ ih => simp at hm; exact ih hm
    | punct _ _ _ _ ih => simp at hm; exact ih hm
    | quote _ _ ih => simp at hm; exact ih hm

/-- so are streams that were parsed -/
theorem parsed_proper {sm : SourceMap} {texts : List (List Char)} (h : History sm texts) {src : List Char}
    (hr : Room texts src) {ts : List TokenTree} (hok : (TokenStream.fromStr sm src).2 = .ok ts) : Proper ts := by
  obtain ⟨e, -, -, -, hb⟩ := h.fromStr hr
  rw [e, fromStrAt_ok_iff hb] at hok
  exact (wf_iff.mpr hok.wf).proper

/-- **C78.** The `Debug` text of a stream determines the stream with its spans, in the compact form and in the
alternate form: streams of valid tokens have the same text only if they are equal. -/
theorem C78_determines (alternate : Bool) {ts us : List TokenTree} (ht : Proper ts) (hu : Proper us) :
    debugStream true alternate ts = debugStream true alternate us ↔ ts = us := by
  refine ⟨fun h => ?_, fun h => by rw [h]⟩
  unfold debugStream at h
  have h := List.append_cancel_left h
  exact (debugList_inj alternate ts us ht hu [] [] (by simpa using h)).1

/-- **C78**, for one token. -/
theorem C78_token (alternate : Bool) {t u : TokenTree} (ht : Proper [t]) (hu : Proper [u]) :
    debugTree true alternate t = debugTree true alternate u ↔ t = u :=
  ⟨fun h => (debugTree_inj alternate t u ht hu [] [] (by simpa using h)).1, fun h => by rw [h]⟩

/-- **C78**, for the error: its text determines where it is. -/
theorem C78_error (alternate : Bool) {s t : Span} :
    debugLexError true alternate s = debugLexError true alternate t ↔ s = t := by
  refine ⟨fun h => ?_, fun h => by rw [h]⟩
  obtain ⟨lo, hi⟩ := s
  obtain ⟨lo', hi'⟩ := t
  unfold debugLexError at h
  obtain ⟨h1, -⟩ := struct_inj (a := []) (b := []) (congrArg (· ++ []) h)
  have h2 := field_inj h1
  simp only [debugSpan, if_true, List.append_assoc] at h2
  have h3 := List.append_cancel_left h2
  have h4 : natDec lo ++ '.' :: ('.' :: (natDec hi ++ ')' :: after alternate [' ', '}'] [])) =
      natDec lo' ++ '.' :: ('.' :: (natDec hi' ++ ')' :: after alternate [' ', '}'] [])) := h3
  obtain ⟨rfl, h5⟩ := natDec_inj (by intro h; exact absurd h.1 (by decide)) h4
  simp only [List.cons.injEq, true_and] at h5
  obtain ⟨rfl, -⟩ := natDec_inj (by intro h; exact absurd h.1 (by decide)) h5
  rfl

/-! ## C79 -/

theorem _root_.PM2.Spec.Proper.erase {ts : List TokenTree} (h : Proper ts) : Proper (Spec.erase ts) := by
  have key : ∀ {t us}, Sub t us → ∀ ts, us = Spec.erase ts → ∃ t', Sub t' ts ∧
      t = mapSpanTree (fun _ => Span.callSite) t' := by
    intro t us hs
    induction hs with
    | here hm =>
      rintro ts rfl
      unfold Spec.erase at hm
      rw [mapSpan_eq_map] at hm
      obtain ⟨t', h1, rfl⟩ := List.mem_map.mp hm
      exact ⟨t', .here h1, rfl⟩
    | inside hm hs ih =>
      rintro ts rfl
      unfold Spec.erase at hm
      rw [mapSpan_eq_map] at hm
      obtain ⟨t', h1, e⟩ := List.mem_map.mp hm
      cases t' with
      | group d inner span =>
        simp only [mapSpanTree, TokenTree.group.injEq] at e
        obtain ⟨t'', h2, h3⟩ := ih inner e.2.1.symm
        exact ⟨t'', .inside h1 h2, h3⟩
      | _ => simp [mapSpanTree] at e
  intro t ht
  obtain ⟨t', h1, rfl⟩ := key ht ts rfl
  cases h _ h1 with
  | ident hv => exact .ident hv
  | punct hc => exact .punct hc
  | literal hl => exact .literal hl
  | error => exact .error
  | group => exact .group

/-- **C79.** Without `span_locations` the text is that of the stream without its spans; it determines the stream
modulo spans, and nothing else. -/
theorem C79_no_locations (alternate : Bool) {ts us : List TokenTree} :
    debugStream false alternate ts = debugStream true alternate (erase ts) ∧
    (Proper ts → Proper us →
      (debugStream false alternate ts = debugStream false alternate us ↔ erase ts = erase us)) := by
  have e : ∀ ts, debugStream false alternate ts = debugStream true alternate (erase ts) := by
    intro ts
    unfold debugStream erase
    rw [debugTrees_erase]
  refine ⟨e ts, fun ht hu => ?_⟩
  rw [e, e]
  exact C78_determines alternate ht.erase hu.erase

/-- **C79**, identifiers: by themselves, with locations, they are written as in a stream; without locations as
`Ident(x)`, which determines the identifier. -/
theorem C79_ident (alternate : Bool) (sym : List Char) (raw : Bool) (s : Span) :
    debugIdent true alternate sym raw s = debugTree true alternate (.ident sym raw s) ∧
    debugIdent false false sym raw s = "Ident(".toList ++ displayIdent sym raw ++ ")".toList ∧
    debugIdent false true sym raw s =
      "Ident(\n".toList ++ line 1 (atDepth 1 (displayIdent sym raw)) ++ ")".toList := by
  refine ⟨rfl, ?_, ?_⟩
  · show _ = "Ident".toList ++ ['('] ++ _ ++ [')']
    simp [debugIdent, debugTuple, commaSep]
  · show _ = "Ident".toList ++ ['(', '\n'] ++ _ ++ [')']
    simp only [debugIdent, debugTuple, List.isEmpty_cons, Bool.false_eq_true, if_false, if_true, List.flatMap_cons,
      List.flatMap_nil, List.append_nil, prettyEntry_eq]
    simp [line]

/-! ## C80 -/

omit [LawfulUnicode] in
/-- **C80.** The alternate form is laid out line by line as specified: four spaces for each level, one line for
each field, a comma after each, and the span is left out if it is that of the call site. -/
theorem C80_layout (ts : List TokenTree) :
    debugStream true true ts = prettyStream ts ∧ debugStream false true ts = prettyStream (erase ts) := by
  have e : ∀ ts, debugStream true true ts = prettyStream ts := by
    intro ts
    have h := atDepth_list 0 (debugTrees true true ts)
    rw [atDepth_zero, atDepth_trees, debugTrees_isEmpty] at h
    unfold debugStream prettyStream
    rw [h]
    show "TokenStream ".toList ++ _ = "TokenStream ".toList ++ ['['] ++ _
    simp
  refine ⟨e ts, ?_⟩
  rw [← e]
  unfold debugStream erase
  rw [debugTrees_erase]

omit [LawfulUnicode] in
theorem compact_fields (name f v : List Char) (fs : List (List Char × List Char)) (s : Span) :
    debugStruct false name ((f, v) :: (fs ++ debugSpanField true s)) =
      name ++ " { ".toList ++ debugField (f, v) ++ fs.flatMap (fun g => ", ".toList ++ debugField g) ++ spanPart s ++ " }".toList := by
  have hc : ∀ (e : List Char) es, commaSep (e :: es) = e ++ es.flatMap (fun g => ", ".toList ++ g) := by
    intro e es
    induction es generalizing e with
    | nil => simp [commaSep]
    | cons e' es ih =>
      rw [commaSep, ih, List.flatMap_cons]
      · show _ = e ++ ([',', ' '] ++ e' ++ _)
        simp
      · simp
  have hs : (debugSpanField true s).flatMap (fun g => ", ".toList ++ debugField g) = spanPart s := by
    obtain ⟨lo, hi⟩ := s
    unfold debugSpanField spanPart Span.isCallSite Span.callSite
    by_cases h : lo = 0 ∧ hi = 0
    · obtain ⟨rfl, rfl⟩ := h
      rfl
    · have h1 : ((lo == 0) && (hi == 0)) = false := by
        rw [Bool.eq_false_iff]
        simpa using h
      have h2 : (⟨lo, hi⟩ : Span) ≠ ⟨0, 0⟩ := by
        intro e
        cases e
        exact h ⟨rfl, rfl⟩
      rw [if_neg h2]
      simp only [h1, Bool.and_false, Bool.false_eq_true, if_false, if_true, List.flatMap_cons, List.flatMap_nil]
      show [',', ' '] ++ (['s', 'p', 'a', 'n'] ++ [':', ' '] ++ (['b', 'y', 't', 'e', 's', '('] ++ _ ++ ['.', '.'] ++ _ ++ [')'])) ++ [] =
        [',', ' ', 's', 'p', 'a', 'n', ':', ' ', 'b', 'y', 't', 'e', 's', '('] ++ _ ++ ['.', '.'] ++ _ ++ [')']
      simp [natDec]
  unfold debugStruct
  simp only [List.isEmpty_cons, Bool.false_eq_true, if_false, List.map_cons, List.map_append]
  rw [hc, List.flatMap_append, List.flatMap_map, List.flatMap_map, hs]
  show name ++ [' ', '{', ' '] ++ _ ++ [' ', '}'] = name ++ [' ', '{', ' '] ++ _ ++ _ ++ _ ++ [' ', '}']
  simp

omit [LawfulUnicode] in
theorem delimiterName_eq (d : Delimiter) : debugDelimiter d = delimiterName d := by cases d <;> rfl
omit [LawfulUnicode] in
theorem spacingName_eq (p : Spacing) : debugSpacing p = spacingName p := by cases p <;> rfl

omit [LawfulUnicode] in
mutual
theorem debugTree_compact : ∀ t : TokenTree, debugTree true false t = compactTree t
  | .group d ts s => by
    unfold debugTree compactTree
    have h := compact_fields "Group".toList "delimiter".toList (debugDelimiter d)
      [("stream".toList, "TokenStream ".toList ++ debugList false (debugTrees true false ts))] s
    rw [List.singleton_append] at h
    have hl : debugList false (debugTrees true false ts) = ['['] ++ compactEntries ts ++ [']'] := by
      rw [← debugTrees_compact ts]
      unfold debugList
      cases ts with
      | nil => rfl
      | cons t ts => rfl
    rw [h, hl, delimiterName_eq]
    simp only [debugField, List.flatMap_cons, List.flatMap_nil, List.append_nil]
    show "Group { delimiter: ".toList ++ delimiterName d ++ (", stream: TokenStream [".toList ++ compactEntries ts ++ [']']) ++
      spanPart s ++ " }".toList = _
    simp
  | .ident sym raw s => by
    unfold debugTree compactTree
    have h := compact_fields "Ident".toList "sym".toList (displayIdent sym raw) [] s
    rw [List.nil_append] at h
    rw [h]
    simp only [debugField, List.flatMap_nil, List.append_nil]
    show "Ident { sym: ".toList ++ displayIdent sym raw ++ spanPart s ++ " }".toList = _
    cases raw <;> simp [displayIdent]
  | .punct ch sp s => by
    unfold debugTree compactTree
    have h := compact_fields "Punct".toList "char".toList (debugChar ch) [("spacing".toList, debugSpacing sp)] s
    rw [List.singleton_append] at h
    rw [h, litCharacter_eq, spacingName_eq]
    simp only [debugField, List.flatMap_cons, List.flatMap_nil, List.append_nil]
    show "Punct { char: ".toList ++ litCharacter ch ++ (", spacing: ".toList ++ spacingName sp) ++ spanPart s ++ " }".toList = _
    simp
  | .literal repr s => by
    unfold debugTree compactTree
    have h := compact_fields "Literal".toList "lit".toList repr [] s
    rw [List.nil_append] at h
    rw [h]
    simp only [debugField, List.flatMap_nil, List.append_nil]
    rfl
theorem debugTrees_compact : ∀ ts : List TokenTree, commaSep (debugTrees true false ts) = compactEntries ts
  | [] => by simp [debugTrees, commaSep, compactEntries]
  | [t] => by simp [debugTrees, commaSep, compactEntries, debugTree_compact t]
  | t :: u :: ts => by
    have h := debugTrees_compact (u :: ts)
    simp only [debugTrees] at h
    simp only [debugTrees, commaSep, compactEntries, debugTree_compact t, h]
    rfl
end

omit [LawfulUnicode] in
/-- **C80**, the compact form: the same fields on one line, with commas between them only. -/
theorem C80_compact (ts : List TokenTree) :
    debugStream true false ts = compactStream ts ∧ debugStream false false ts = compactStream (erase ts) := by
  have e : ∀ ts, debugStream true false ts = compactStream ts := by
    intro ts
    unfold debugStream compactStream
    rw [← debugTrees_compact ts]
    cases ts with
    | nil => rfl
    | cons t ts => rfl
  refine ⟨e ts, ?_⟩
  rw [← e]
  unfold debugStream erase
  rw [debugTrees_erase]

omit [LawfulUnicode] in
/-- **C80**, the types without tokens: spans, errors and positions. -/
theorem C80_plain (s : Span) (lc : LineColumn) :
    let bytes := "bytes(".toList ++ Nat.toDigits 10 s.lo ++ "..".toList ++ Nat.toDigits 10 s.hi ++ ")".toList
    let l := Nat.toDigits 10 lc.line
    let c := Nat.toDigits 10 lc.column
    debugSpan true s = bytes ∧ debugSpan false s = "Span".toList ∧
    debugLexError true false s = "LexError { span: ".toList ++ bytes ++ " }".toList ∧
    debugLexError true true s = "LexError {\n    span: ".toList ++ bytes ++ ",\n}".toList ∧
    debugLexError false false s = "LexError { span: Span }".toList ∧
    debugLexError false true s = "LexError {\n    span: Span,\n}".toList ∧
    debugLineColumn false lc = "LineColumn { line: ".toList ++ l ++ ", column: ".toList ++ c ++ " }".toList ∧
    debugLineColumn true lc = "LineColumn {\n    line: ".toList ++ l ++ ",\n    column: ".toList ++ c ++ ",\n}".toList := by
  intro bytes l c
  have hl : '\n' ∉ l := natDec_flat lc.line
  have hc : '\n' ∉ c := natDec_flat lc.column
  have hb : '\n' ∉ bytes := by
    intro h
    simp only [bytes, List.mem_append] at h
    rcases h with (((h | h) | h) | h) | h
    · revert h; decide
    · exact natDec_flat s.lo h
    · revert h; decide
    · exact natDec_flat s.hi h
    · revert h; decide
  have he : ∀ {x : List Char}, '\n' ∉ x → prettyEntry x = ("    ".toList ++ x) ++ ",\n".toList := by
    intro x hx
    rw [prettyEntry_eq, atDepth_flat 1 hx]
    rfl
  have hf : ∀ (n x : List Char), '\n' ∉ n → '\n' ∉ x → '\n' ∉ debugField (n, x) := by
    intro n x h1 h2 h
    simp only [debugField, List.mem_append] at h
    rcases h with (h | h) | h
    · exact h1 h
    · revert h; decide
    · exact h2 h
  have hs : debugSpan true s = bytes := rfl
  refine ⟨hs, rfl, ?_, ?_, rfl, rfl, ?_, ?_⟩
  · unfold debugLexError
    rw [hs]
    rfl
  · unfold debugLexError debugStruct
    simp only [hs, List.isEmpty_cons, Bool.false_eq_true, if_false, if_true, List.flatMap_cons, List.flatMap_nil]
    rw [he (hf _ _ (by decide) hb)]
    simp [debugField]
  · unfold debugLineColumn debugStruct
    simp [debugField, commaSep, l, c, natDec]
  · unfold debugLineColumn debugStruct
    simp only [List.isEmpty_cons, Bool.false_eq_true, if_false, if_true, List.flatMap_cons, List.flatMap_nil]
    rw [he (hf "line".toList (natDec lc.line) (by decide) hl), he (hf "column".toList (natDec lc.column) (by decide) hc)]
    simp [debugField, l, c, natDec]

end

end

/-! ## C81 -/

theorem pad_plain (s : List Char) : FmtOpts.pad {} s = s := rfl

theorem pad_padded (o : FmtOpts) (s : List Char) : Padded o s (o.pad s) := by
  obtain ⟨alternate, fill, align, width, precision⟩ := o
  obtain ⟨cut, hc, h1, h2, h3⟩ : ∃ cut, FmtOpts.cut ⟨alternate, fill, align, width, precision⟩ s = cut ∧ cut <+: s ∧ (∀ p, precision = some p → cut.length = min p s.length) ∧
      (precision = none → cut = s) := by
    cases precision with
    | none => exact ⟨s, rfl, List.prefix_refl s, by simp, fun _ => rfl⟩
    | some p =>
      refine ⟨s.take p, rfl, List.take_prefix p s, ?_, by simp⟩
      intro q hq
      cases hq
      exact List.length_take
  unfold FmtOpts.pad
  simp only [hc]
  cases width with
  | none => exact ⟨cut, 0, 0, by simp, h1, h2, h3, by simp, by simp, by simp, by simp, by simp⟩
  | some w =>
    dsimp only
    by_cases hw : cut.length ≥ w
    · rw [if_pos hw]
      exact ⟨cut, 0, 0, by simp, h1, h2, h3, by simp; omega, by simp, by simp, by simp, by simp⟩
    · rw [if_neg hw]
      refine ⟨cut, _, _, rfl, h1, h2, h3, ?_, by simp, ?_, ?_, ?_⟩
      · intro w' e
        cases e
        cases align with
        | none => simp
        | some a => cases a <;> simp <;> omega
      · rintro (rfl | rfl) <;> rfl
      · rintro rfl; simp
      · rintro rfl; simp only; omega

mutual

theorem displayTreeFmt_plain (t : TokenTree) : displayTreeFmt {} t = displayTree t := by
  cases t with
  | group d ts s => simp only [displayTreeFmt, displayTree]; rw [displayLoopFmt_eq {} ts]
  | _ => rfl

theorem displayLoopFmt_eq (o : FmtOpts) (ts : List TokenTree) (first joint : Bool) :
    displayLoopFmt o ts first joint = displayLoop ts first joint := by
  cases ts with
  | nil => rfl
  | cons t ts =>
    simp only [displayLoopFmt, displayLoop]
    rw [displayTreeFmt_plain t, displayLoopFmt_eq o ts]

end

/-- **C81.** A stream is printed the same whatever the options of the formatter; so are groups and identifiers.
Puncts and literals by themselves are padded. -/
theorem C81_options (o : FmtOpts) :
    (∀ ts, displayFmt o ts = display ts) ∧
    (∀ d ts s, displayTreeFmt o (.group d ts s) = displayTree (.group d ts s)) ∧
    (∀ sym raw s, displayTreeFmt o (.ident sym raw s) = displayTree (.ident sym raw s)) ∧
    (∀ c sp s, Padded o [c] (displayTreeFmt o (.punct c sp s))) ∧
    (∀ x s, Padded o x (displayTreeFmt o (.literal x s))) := by
  refine ⟨fun ts => displayLoopFmt_eq o ts _ _, fun d ts s => ?_, fun _ _ _ => rfl, fun _ _ _ => pad_padded _ _,
    fun _ _ => pad_padded _ _⟩
  simp only [displayTreeFmt, displayTree]
  rw [displayLoopFmt_eq o ts]

/-! ## Examples -/

section
attribute [local instance] sampleTables sampleTables_lawful

/-- the stream of `test_debug_tokenstream` -/
def debugSample : List TokenTree :=
  [.group .bracket [.ident ['a'] false ⟨2, 3⟩, .punct '+' .alone ⟨4, 5⟩, .literal ['1'] ⟨6, 7⟩] ⟨1, 8⟩]

theorem debugSample_parsed : (TokenStream.fromStr SourceMap.init "[a + 1]".toList).2 = .ok debugSample := by
  decide +kernel

example : Proper debugSample := parsed_proper .init (by decide +kernel) debugSample_parsed

example : prettyStream debugSample = ("TokenStream [\n" ++
    "    Group {\n" ++
    "        delimiter: Bracket,\n" ++
    "        stream: TokenStream [\n" ++
    "            Ident {\n" ++
    "                sym: a,\n" ++
    "                span: bytes(2..3),\n" ++
    "            },\n" ++
    "            Punct {\n" ++
    "                char: '+',\n" ++
    "                spacing: Alone,\n" ++
    "                span: bytes(4..5),\n" ++
    "            },\n" ++
    "            Literal {\n" ++
    "                lit: 1,\n" ++
    "                span: bytes(6..7),\n" ++
    "            },\n" ++
    "        ],\n" ++
    "        span: bytes(1..8),\n" ++
    "    },\n" ++
    "]").toList := by decide +kernel

example : debugStream false false debugSample = ("TokenStream [Group { delimiter: Bracket, stream: TokenStream " ++
    "[Ident { sym: a }, Punct { char: '+', spacing: Alone }, Literal { lit: 1 }] }]").toList := by decide +kernel

/-- C80 -/
example : compactStream debugSample = ("TokenStream [Group { delimiter: Bracket, stream: TokenStream " ++
    "[Ident { sym: a, span: bytes(2..3) }, Punct { char: '+', spacing: Alone, span: bytes(4..5) }, " ++
    "Literal { lit: 1, span: bytes(6..7) }], span: bytes(1..8) }]").toList := by decide +kernel

example : debugLexError true true ⟨10, 12⟩ = "LexError {\n    span: bytes(10..12),\n}".toList := (C80_plain ⟨10, 12⟩ ⟨1, 0⟩).2.2.2.1

example : debugIdent true false "proc_macro".toList true Span.callSite = "Ident { sym: r#proc_macro }".toList ∧
    debugIdent false false "proc_macro".toList true Span.callSite = "Ident(r#proc_macro)".toList := by decide +kernel

/-- two streams that print the same have different `Debug` texts -/
example : display [.literal ['a', ' ', 'b'] Span.callSite] =
      display [.ident ['a'] false Span.callSite, .ident ['b'] false Span.callSite] ∧
    debugStream true false [.literal ['a', ' ', 'b'] Span.callSite] ≠
      debugStream true false [.ident ['a'] false Span.callSite, .ident ['b'] false Span.callSite] := by
  decide +kernel

/-- validity matters: literals whose texts are not literals -/
example : debugStream true false [.literal "1 }, Literal { lit: 2".toList Span.callSite] =
    debugStream true false [.literal ['1'] Span.callSite, .literal ['2'] Span.callSite] := by decide +kernel

example : displayTreeFmt { width := some 6, align := some .center, fill := '*' } (.literal "123".toList Span.callSite)
      = "*123**".toList ∧
    displayTreeFmt { width := some 6 } (.group .parenthesis [.literal ['1'] Span.callSite] Span.callSite) =
      "(1)".toList ∧
    displayTreeFmt { precision := some 2 } (.literal "123".toList Span.callSite) = "12".toList := by decide +kernel

end

end PM2.Props
