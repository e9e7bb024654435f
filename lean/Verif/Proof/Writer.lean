import Verif.Spec.Writer
import Verif.Spec.Size
/-! # Printing to a writer that can fail: the pieces -/

namespace PM2
open Spec Printer

/-- The printer writes these pieces. -/
def Emits (p : Printer) (cs : List (List Char)) : Prop :=
  ∀ (σ : Type) (w : Writer σ) (s : σ), p.run σ w s = writeAll w cs s

theorem writeAll_append {σ : Type} (w : Writer σ) (cs ds : List (List Char)) (s : σ) :
    writeAll w (cs ++ ds) s =
      if (writeAll w cs s).2 then writeAll w ds (writeAll w cs s).1 else ((writeAll w cs s).1, false) := by
  induction cs generalizing s with
  | nil => simp [writeAll]
  | cons c cs ih =>
    simp only [List.cons_append, writeAll]
    split
    · exact ih _
    · simp

theorem Emits.done : Emits done [] := fun _ _ _ => rfl
theorem Emits.str (t : List Char) : Emits (str t) [t] := by
  intro σ w s
  simp only [Printer.str, writeAll]
  cases h : w s t with
  | mk s' b => cases b <;> rfl

theorem Emits.seq {p q : Printer} {cs ds : List (List Char)} (hp : Emits p cs) (hq : Emits q ds) :
    Emits (p ?; q) (cs ++ ds) := by
  intro σ w s
  rw [writeAll_append]
  simp only [Printer.seq, hp σ w s]
  cases h : writeAll w cs s with
  | mk s' b => cases b <;> simp [hq σ w s']

theorem Emits.times (n : Nat) {p : Printer} {cs : List (List Char)} (hp : Emits p cs) :
    Emits (times n p) (List.replicate n cs).flatten := by
  induction n with
  | zero => exact Emits.done
  | succ n ih => exact hp.seq ih

/-! ### The writer that indents -/

theorem splitInclusive_flatten (t : List Char) : (splitInclusive t).flatten = t := by
  induction t with
  | nil => rfl
  | cons c t ih =>
    unfold splitInclusive
    split
    · simp [ih]
    · split
      · rename_i h; rw [h] at ih; simp at ih; simp [← ih]
      · rename_i h; rw [h] at ih; simp at ih; simp [← ih]

/-- The lines are not empty, and a line feed is at the end of a line only. -/
theorem splitInclusive_lines (t : List Char) :
    ∀ l ∈ splitInclusive t, l ≠ [] ∧ '\n' ∉ l.dropLast := by
  induction t with
  | nil => simp [splitInclusive]
  | cons c t ih =>
    unfold splitInclusive
    split
    · rename_i hc
      intro l hl
      rcases List.mem_cons.mp hl with rfl | hl
      · simp
      · exact ih l hl
    · rename_i hc
      have hc : c ≠ '\n' := by simpa using hc
      split
      · intro l hl
        simp at hl
        subst hl
        simp
      · rename_i l0 ls h
        intro l hl
        rw [h] at ih
        rcases List.mem_cons.mp hl with rfl | hl
        · have h0 := ih l0 (by simp)
          refine ⟨by simp, ?_⟩
          cases l0 with
          | nil => exact absurd rfl h0.1
          | cons a l0 =>
            simp only [List.dropLast_cons₂, List.mem_cons, not_or]
            exact ⟨Ne.symm hc, h0.2⟩
        · exact ih l (by simp [hl])

/-- The flag after a line. -/
def lineFlag (l : List Char) : Bool := l.getLast? == some '\n'

/-- The pieces that come out of the writer that indents, for some lines. -/
def linePieces : Bool → List (List Char) → List (List Char)
  | _, [] => []
  | b, l :: ls => (if b then [[' ', ' ', ' ', ' ']] else []) ++ l :: linePieces (lineFlag l) ls

/-- The flag after some lines. -/
def linesFlag : Bool → List (List Char) → Bool
  | b, [] => b
  | _, l :: ls => linesFlag (lineFlag l) ls

theorem padLines_eq {σ : Type} (w : Writer σ) (b : Bool) (ls : List (List Char)) (s : σ) :
    (padLines w (s, b) ls).1.1 = (writeAll w (linePieces b ls) s).1 ∧
    (padLines w (s, b) ls).2 = (writeAll w (linePieces b ls) s).2 ∧
    ((padLines w (s, b) ls).2 = true → (padLines w (s, b) ls).1.2 = linesFlag b ls) := by
  induction ls generalizing s b with
  | nil => simp [padLines, linePieces, writeAll, linesFlag]
  | cons l ls ih =>
    have key : ∀ s, (match w s l with
          | (s, false) => ((s, lineFlag l), false)
          | (s, true) => padLines w (s, lineFlag l) ls).1.1 = (writeAll w (l :: linePieces (lineFlag l) ls) s).1 ∧
        (match w s l with
          | (s, false) => ((s, lineFlag l), false)
          | (s, true) => padLines w (s, lineFlag l) ls).2 = (writeAll w (l :: linePieces (lineFlag l) ls) s).2 ∧
        ((match w s l with
          | (s, false) => ((s, lineFlag l), false)
          | (s, true) => padLines w (s, lineFlag l) ls).2 = true →
          (match w s l with
          | (s, false) => ((s, lineFlag l), false)
          | (s, true) => padLines w (s, lineFlag l) ls).1.2 = linesFlag (lineFlag l) ls) := by
      intro s
      simp only [writeAll]
      cases h : w s l with
      | mk s' c =>
        cases c with
        | false => simp
        | true => exact ih (lineFlag l) s'
    cases b with
    | false =>
      simp only [padLines, linePieces, linesFlag, Bool.false_eq_true, if_false, List.nil_append]
      exact key s
    | true =>
      simp only [padLines, linePieces, linesFlag, if_true, List.cons_append, List.nil_append]
      cases h : w s [' ', ' ', ' ', ' '] with
      | mk s' c =>
        cases c with
        | false => simp [writeAll, h]
        | true =>
          rw [writeAll, h]
          exact key s'

/-- The pieces that come out of the writer that indents. -/
def padPieces : Bool → List (List Char) → List (List Char)
  | _, [] => []
  | b, c :: cs => linePieces b (splitInclusive c) ++ padPieces (linesFlag b (splitInclusive c)) cs

theorem padWriter_eq {σ : Type} (w : Writer σ) (b : Bool) (cs : List (List Char)) (s : σ) :
    (writeAll (padWriter w) cs (s, b)).1.1 = (writeAll w (padPieces b cs) s).1 ∧
    (writeAll (padWriter w) cs (s, b)).2 = (writeAll w (padPieces b cs) s).2 := by
  induction cs generalizing s b with
  | nil => exact ⟨rfl, rfl⟩
  | cons c cs ih =>
    obtain ⟨h1, h2, h3⟩ := padLines_eq w b (splitInclusive c) s
    simp only [writeAll, padPieces, writeAll_append]
    unfold padWriter
    rw [← h2, ← h1]
    cases hr : padLines w (s, b) (splitInclusive c) with
    | mk s' r =>
      rw [hr] at h3
      cases r with
      | false => simp
      | true =>
        obtain ⟨s1, b1⟩ := s'
        have hb : b1 = linesFlag b (splitInclusive c) := h3 rfl
        subst hb
        simp only [if_true]
        exact ih _ _

theorem Emits.indent {p : Printer} {cs : List (List Char)} (hp : Emits p cs) : Emits (indent p) (padPieces true cs) := by
  intro σ w s
  obtain ⟨h1, h2⟩ := padWriter_eq w true cs s
  simp only [Printer.indent, hp (σ × Bool) (padWriter w) (s, true)]
  rw [h1, h2]

/-! ### The text that comes out -/

/-- The flag after a text. -/
def textFlag : Bool → List Char → Bool
  | b, [] => b
  | _, c :: cs => textFlag (c == '\n') cs

theorem padAdapter_append (b : Bool) (s t : List Char) :
    padAdapter b (s ++ t) = padAdapter b s ++ padAdapter (textFlag b s) t := by
  induction s generalizing b with
  | nil => rfl
  | cons c s ih => simp [padAdapter, textFlag, ih]

theorem textFlag_append (b : Bool) (s t : List Char) : textFlag b (s ++ t) = textFlag (textFlag b s) t := by
  induction s generalizing b with
  | nil => rfl
  | cons c s ih => simp [textFlag, ih]

theorem padAdapter_line {l : List Char} (h : l ≠ []) (hn : '\n' ∉ l.dropLast) (b : Bool) :
    padAdapter b l = (if b then [' ', ' ', ' ', ' '] else []) ++ l ∧ textFlag b l = lineFlag l := by
  induction l generalizing b with
  | nil => exact absurd rfl h
  | cons c l ih =>
    cases l with
    | nil => cases b <;> simp [padAdapter, textFlag, lineFlag] <;> rfl
    | cons d l =>
      simp only [List.dropLast_cons₂, List.mem_cons, not_or] at hn
      obtain ⟨h1, h2⟩ := ih (by simp) hn.2 (c == '\n')
      have hc : (c == '\n') = false := by simp; exact Ne.symm hn.1
      rw [hc] at h1 h2
      constructor
      · rw [padAdapter, hc, h1]; simp
      · rw [textFlag, hc, h2]; simp [lineFlag]

theorem linePieces_flatten (b : Bool) {ls : List (List Char)} (h : ∀ l ∈ ls, l ≠ [] ∧ '\n' ∉ l.dropLast) :
    (linePieces b ls).flatten = padAdapter b ls.flatten ∧ linesFlag b ls = textFlag b ls.flatten := by
  induction ls generalizing b with
  | nil => exact ⟨rfl, rfl⟩
  | cons l ls ih =>
    obtain ⟨h1, h2⟩ := padAdapter_line (h l (by simp)).1 (h l (by simp)).2 b
    obtain ⟨h3, h4⟩ := ih (lineFlag l) (fun l hl => h l (by simp [hl]))
    simp only [linePieces, linesFlag, List.flatten_append, List.flatten_cons, padAdapter_append, textFlag_append, h1, h2, h3, h4]
    cases b <;> simp

theorem padPieces_flatten (b : Bool) (cs : List (List Char)) : (padPieces b cs).flatten = padAdapter b cs.flatten := by
  induction cs generalizing b with
  | nil => rfl
  | cons c cs ih =>
    obtain ⟨h1, h2⟩ := linePieces_flatten b (splitInclusive_lines c)
    rw [splitInclusive_flatten] at h1 h2
    simp only [padPieces, List.flatten_append, List.flatten_cons, ih, h1, h2, padAdapter_append]

/-! ### Texts -/

theorem writes_iff (p : Printer) (t : List Char) : Writes p t ↔ ∃ cs, cs.flatten = t ∧ Emits p cs := Iff.rfl

theorem Spec.Writes.done : Writes done [] := ⟨[], rfl, Emits.done⟩
theorem Spec.Writes.str (t : List Char) : Writes (str t) t := ⟨[t], by simp, Emits.str t⟩
theorem Spec.Writes.seq {p q : Printer} {s t : List Char} (hp : Writes p s) (hq : Writes q t) : Writes (p ?; q) (s ++ t) := by
  obtain ⟨cs, h1, h2⟩ := hp
  obtain ⟨ds, h3, h4⟩ := hq
  exact ⟨cs ++ ds, by simp [h1, h3], Emits.seq h2 h4⟩
theorem Spec.Writes.indent {p : Printer} {t : List Char} (hp : Writes p t) : Writes (indent p) (padAdapter true t) := by
  obtain ⟨cs, h1, h2⟩ := hp
  exact ⟨_, by rw [padPieces_flatten, h1], Emits.indent h2⟩
theorem Spec.Writes.ite {c : Prop} [Decidable c] {p q : Printer} {s t : List Char} (hp : Writes p s) (hq : Writes q t) :
    Writes (if c then p else q) (if c then s else t) := by
  split
  · exact hp
  · exact hq
theorem Spec.Writes.times (n : Nat) (c : Char) : Writes (times n (Printer.str [c])) (List.replicate n c) := by
  refine ⟨_, ?_, Emits.times n (Emits.str [c])⟩
  induction n with
  | zero => rfl
  | succ n ih => simp only [List.replicate_succ, List.flatten_cons, List.flatten_append, ih]; simp
theorem Spec.Writes.cast {p : Printer} {s t : List Char} (h : Writes p s) (e : s = t) : Writes p t := e ▸ h

theorem padTo_writes (o : FmtOpts) (t : List Char) : Writes (padTo o t) (o.pad t) := by
  unfold padTo
  split
  · rename_i h
    simp at h
    refine (Writes.str t).cast ?_
    simp [FmtOpts.pad, FmtOpts.cut, h.1, h.2]
  · simp only [FmtOpts.pad]
    cases o.width with
    | none => exact Writes.str _
    | some n =>
      simp only
      split
      · rename_i h
        rw [if_neg (by omega)]
        exact ((Writes.times _ _).seq ((Writes.str _).seq (Writes.times _ _))).cast (List.append_assoc _ _ _).symm
      · rename_i h
        rw [if_pos (by omega)]
        exact Writes.str _

theorem displayIdentTo_writes (sym : List Char) (raw : Bool) : Writes (displayIdentTo sym raw) (displayIdent sym raw) :=
  (Writes.ite (Writes.str _) Writes.done).seq (Writes.str _)

mutual
theorem displayTreeTo_writes (o : FmtOpts) : (t : TokenTree) → Writes (displayTreeTo o t) (displayTreeFmt o t)
  | .group d ts _ => by
    unfold displayTreeTo displayTreeFmt
    exact ((Writes.str _).seq ((displayLoopTo_writes o ts true false).seq
      ((Writes.ite (Writes.str _) Writes.done).seq (Writes.str _)))).cast (by simp)
  | .ident sym raw _ => by unfold displayTreeTo displayTreeFmt; exact displayIdentTo_writes sym raw
  | .punct ch _ _ => by unfold displayTreeTo displayTreeFmt; exact padTo_writes o _
  | .literal repr _ => by unfold displayTreeTo displayTreeFmt; exact padTo_writes o _
theorem displayLoopTo_writes (o : FmtOpts) : (ts : List TokenTree) → (first joint : Bool) →
    Writes (displayLoopTo o ts first joint) (displayLoopFmt o ts first joint)
  | [], _, _ => by unfold displayLoopTo displayLoopFmt; exact Writes.done
  | t :: ts, first, joint => by
    unfold displayLoopTo displayLoopFmt
    exact ((Writes.ite (Writes.str _) Writes.done).seq
      ((displayTreeTo_writes {} t).seq (displayLoopTo_writes o ts false (jointAfter t)))).cast (by simp)
end

/-! ### The builders of `Debug` -/

/-- Fields and the texts they write. -/
inductive FieldsWrite : List (List Char × Printer) → List (List Char × List Char) → Prop
  | nil : FieldsWrite [] []
  | cons {n p t fs gs} : Writes p t → FieldsWrite fs gs → FieldsWrite ((n, p) :: fs) ((n, t) :: gs)

/-- Entries and the texts they write. -/
inductive AllWrite : List Printer → List (List Char) → Prop
  | nil : AllWrite [] []
  | cons {p t fs gs} : Writes p t → AllWrite fs gs → AllWrite (p :: fs) (t :: gs)

theorem structFields_alt {fs : List (List Char × Printer)} {gs : List (List Char × List Char)} (h : FieldsWrite fs gs) (has : Bool) :
    Writes (structFields true has fs) ((if has || gs.isEmpty then [] else [' ', '{', '\n']) ++
      gs.flatMap (fun f => prettyEntry (debugField f))) := by
  induction h generalizing has with
  | nil => unfold structFields; exact Writes.done.cast (by cases has <;> rfl)
  | @cons n p t fs gs hp _ ih =>
    unfold structFields
    refine (((Writes.ite Writes.done (Writes.str _)).seq
      (((Writes.str n).seq ((Writes.str _).seq (hp.seq (Writes.str _)))).indent)).seq (ih true)).cast ?_
    cases has <;> simp [prettyEntry, debugField]

theorem structFields_flat {fs : List (List Char × Printer)} {gs : List (List Char × List Char)} (h : FieldsWrite fs gs) (has : Bool) :
    Writes (structFields false has fs) ((if gs.isEmpty then [] else if has then [',', ' '] else [' ', '{', ' ']) ++
      commaSep (gs.map debugField)) := by
  induction h generalizing has with
  | nil => unfold structFields; exact Writes.done
  | @cons n p t fs gs hp _ ih =>
    unfold structFields
    refine (((Writes.str _).seq ((Writes.str n).seq ((Writes.str _).seq hp))).seq (ih true)).cast ?_
    cases gs with
    | nil => simp [commaSep, debugField]
    | cons g gs => simp [commaSep, debugField]

theorem debugStructTo_writes (alternate : Bool) (name : List Char) {fs : List (List Char × Printer)}
    {gs : List (List Char × List Char)} (h : FieldsWrite fs gs) :
    Writes (debugStructTo alternate name fs) (debugStruct alternate name gs) := by
  have he : fs.isEmpty = gs.isEmpty := by cases h <;> rfl
  unfold debugStructTo debugStruct
  rw [he]
  cases alternate with
  | true =>
    refine ((Writes.str name).seq ((structFields_alt h false).seq
      (Writes.ite Writes.done (Writes.ite (Writes.str _) (Writes.str _))))).cast ?_
    cases gs <;> simp
  | false =>
    refine ((Writes.str name).seq ((structFields_flat h false).seq
      (Writes.ite Writes.done (Writes.ite (Writes.str _) (Writes.str _))))).cast ?_
    cases gs <;> simp [commaSep]

theorem tupleFields_alt {fs : List Printer} {gs : List (List Char)} (h : AllWrite fs gs) (has : Bool) :
    Writes (tupleFields true has fs) ((if has || gs.isEmpty then [] else ['(', '\n']) ++ gs.flatMap prettyEntry) := by
  induction h generalizing has with
  | nil => unfold tupleFields; exact Writes.done.cast (by cases has <;> rfl)
  | @cons p t fs gs hp _ ih =>
    unfold tupleFields
    refine (((Writes.ite Writes.done (Writes.str _)).seq ((hp.seq (Writes.str _)).indent)).seq (ih true)).cast ?_
    cases has <;> simp [prettyEntry]

theorem tupleFields_flat {fs : List Printer} {gs : List (List Char)} (h : AllWrite fs gs) (has : Bool) :
    Writes (tupleFields false has fs) ((if gs.isEmpty then [] else if has then [',', ' '] else ['(']) ++ commaSep gs) := by
  induction h generalizing has with
  | nil => unfold tupleFields; exact Writes.done
  | @cons p t fs gs hp _ ih =>
    unfold tupleFields
    refine (((Writes.str _).seq hp).seq (ih true)).cast ?_
    cases gs with
    | nil => simp [commaSep]
    | cons g gs => simp [commaSep]

theorem debugTupleTo_writes (alternate : Bool) (name : List Char) {fs : List Printer} {gs : List (List Char)}
    (h : AllWrite fs gs) : Writes (debugTupleTo alternate name fs) (debugTuple alternate name gs) := by
  have he : fs.isEmpty = gs.isEmpty := by cases h <;> rfl
  unfold debugTupleTo debugTuple
  rw [he]
  cases alternate with
  | true =>
    refine ((Writes.str name).seq ((tupleFields_alt h false).seq (Writes.ite Writes.done (Writes.str _)))).cast ?_
    cases gs <;> simp
  | false =>
    refine ((Writes.str name).seq ((tupleFields_flat h false).seq (Writes.ite Writes.done (Writes.str _)))).cast ?_
    cases gs <;> simp [commaSep]

theorem listEntries_alt {fs : List Printer} {gs : List (List Char)} (h : AllWrite fs gs) (has : Bool) :
    Writes (listEntries true has fs) ((if has || gs.isEmpty then [] else ['\n']) ++ gs.flatMap prettyEntry) := by
  induction h generalizing has with
  | nil => unfold listEntries; exact Writes.done.cast (by cases has <;> rfl)
  | @cons p t fs gs hp _ ih =>
    unfold listEntries
    refine (((Writes.ite Writes.done (Writes.str _)).seq ((hp.seq (Writes.str _)).indent)).seq (ih true)).cast ?_
    cases has <;> simp [prettyEntry]

theorem listEntries_flat {fs : List Printer} {gs : List (List Char)} (h : AllWrite fs gs) (has : Bool) :
    Writes (listEntries false has fs) ((if gs.isEmpty || !has then [] else [',', ' ']) ++ commaSep gs) := by
  induction h generalizing has with
  | nil => unfold listEntries; exact Writes.done
  | @cons p t fs gs hp _ ih =>
    unfold listEntries
    refine (((Writes.ite (Writes.str _) Writes.done).seq hp).seq (ih true)).cast ?_
    cases gs with
    | nil => cases has <;> simp [commaSep]
    | cons g gs => cases has <;> simp [commaSep]

theorem debugListTo_writes (alternate : Bool) {fs : List Printer} {gs : List (List Char)}
    (h : AllWrite fs gs) : Writes (debugListTo alternate fs) (debugList alternate gs) := by
  unfold debugListTo debugList
  cases alternate with
  | true =>
    refine ((Writes.str _).seq ((listEntries_alt h false).seq (Writes.str _))).cast ?_
    cases gs <;> simp
  | false =>
    refine ((Writes.str _).seq ((listEntries_flat h false).seq (Writes.str _))).cast ?_
    cases gs <;> simp [commaSep]

theorem debugSpanTo_writes (loc : Bool) (s : Span) : Writes (debugSpanTo loc s) (debugSpan loc s) := by
  unfold debugSpanTo debugSpan
  exact Writes.ite (((Writes.str _).seq ((Writes.str _).seq ((Writes.str _).seq ((Writes.str _).seq
    (Writes.str _))))).cast (by simp)) (Writes.str _)

theorem debugSpanFieldTo_writes (loc : Bool) (s : Span) : FieldsWrite (debugSpanFieldTo loc s) (debugSpanField loc s) := by
  unfold debugSpanFieldTo debugSpanField
  split
  · exact .nil
  · split
    · exact .cons (debugSpanTo_writes _ _) .nil
    · exact .nil

section
variable [UnicodeTables]

theorem charsTo_writes (cs : List Char) : Writes (charsTo cs) cs := by
  induction cs with
  | nil => exact Writes.done
  | cons c cs ih => exact (Writes.str [c]).seq ih

theorem debugCharTo_writes (c : Char) : Writes (debugCharTo c) (debugChar c) :=
  ((Writes.str _).seq ((charsTo_writes _).seq (Writes.str _))).cast (by simp [debugChar])

mutual
theorem debugTreeTo_writes (loc alternate : Bool) :
    (t : TokenTree) → Writes (debugTreeTo loc alternate t) (debugTree loc alternate t)
  | .group d ts s => by
    unfold debugTreeTo debugTree
    exact debugStructTo_writes _ _ (.cons (Writes.str _) (.cons
      ((Writes.str _).seq (debugListTo_writes _ (debugTreesTo_writes loc alternate ts))) (debugSpanFieldTo_writes loc s)))
  | .ident sym raw s => by
    unfold debugTreeTo debugTree
    exact debugStructTo_writes _ _ (.cons (displayIdentTo_writes _ _) (debugSpanFieldTo_writes loc s))
  | .punct ch sp s => by
    unfold debugTreeTo debugTree
    exact debugStructTo_writes _ _ (.cons (debugCharTo_writes _) (.cons (Writes.str _) (debugSpanFieldTo_writes loc s)))
  | .literal repr s => by
    unfold debugTreeTo debugTree
    exact debugStructTo_writes _ _ (.cons (Writes.str _) (debugSpanFieldTo_writes loc s))
theorem debugTreesTo_writes (loc alternate : Bool) :
    (ts : List TokenTree) → AllWrite (debugTreesTo loc alternate ts) (debugTrees loc alternate ts)
  | [] => by unfold debugTreesTo debugTrees; exact .nil
  | t :: ts => by
    unfold debugTreesTo debugTrees
    exact .cons (debugTreeTo_writes loc alternate t) (debugTreesTo_writes loc alternate ts)
end

end

end PM2
