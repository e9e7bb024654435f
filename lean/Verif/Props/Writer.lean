import Verif.Proof.Writer
import Verif.Proof.Bytes
import Verif.Spec.Size
import Verif.Spec.Decide
/-! # C105: printing to a writer that can fail -/

namespace PM2.Props
open Spec Printer

/-! ## C105 -/

/-- **C105.** `Display` hands its text to any writer in pieces that do not depend on the writer, and stops at the first
error. -/
theorem C105_display (o : FmtOpts) :
    (∀ ts, Writes (displayTo o ts) (displayFmt o ts)) ∧
    (∀ t, Writes (displayTreeTo o t) (displayTreeFmt o t)) ∧
    (∀ sym raw, Writes (displayIdentTo sym raw) (displayIdent sym raw)) ∧
    Writes displayLexErrorTo displayLexError :=
  ⟨fun ts => displayLoopTo_writes o ts true false, displayTreeTo_writes o, displayIdentTo_writes, Writes.str _⟩

/-- **C105.** So does `Debug`, in both forms and with and without `span_locations`. -/
theorem C105_debug [UnicodeTables] (loc alternate : Bool) :
    (∀ ts, Writes (debugStreamTo loc alternate ts) (debugStream loc alternate ts)) ∧
    (∀ t, Writes (debugTreeTo loc alternate t) (debugTree loc alternate t)) ∧
    (∀ sym raw s, Writes (debugIdentTo loc alternate sym raw s) (debugIdent loc alternate sym raw s)) ∧
    (∀ s, Writes (debugSpanTo loc s) (debugSpan loc s)) ∧
    (∀ s, Writes (debugLexErrorTo loc alternate s) (debugLexError loc alternate s)) ∧
    (∀ lc, Writes (debugLineColumnTo alternate lc) (debugLineColumn alternate lc)) := by
  refine ⟨fun ts => (Writes.str _).seq (debugListTo_writes _ (debugTreesTo_writes loc alternate ts)),
    debugTreeTo_writes loc alternate, fun sym raw s => ?_, debugSpanTo_writes loc,
    fun s => debugStructTo_writes _ _ (.cons (debugSpanTo_writes _ _) .nil),
    fun lc => debugStructTo_writes _ _ (.cons (Writes.str _) (.cons (Writes.str _) .nil))⟩
  unfold debugIdentTo debugIdent
  split
  · exact debugStructTo_writes _ _ (.cons (displayIdentTo_writes _ _) (debugSpanFieldTo_writes loc s))
  · exact debugTupleTo_writes _ _ (.cons (displayIdentTo_writes _ _) .nil)

/-- **C105.** On an error, the pieces before it have been written, the piece with the error was the last one that the writer
was given, and there is nothing more; the state of the writer is the one it was left in by the error. -/
theorem C105_stops {p : Printer} {text : List Char} (h : Writes p text) {σ : Type} (w : Writer σ) {s s' : σ}
    (he : p.run σ w s = (s', false)) :
    ∃ cs c ds s₁, (cs ++ c :: ds).flatten = text ∧ writeAll w cs s = (s₁, true) ∧ w s₁ c = (s', false) := by
  obtain ⟨cs, rfl, h⟩ := h
  rw [h] at he
  clear h
  induction cs generalizing s with
  | nil => cases he
  | cons c cs ih =>
    rw [writeAll] at he
    cases hw : w s c with
    | mk s1 b =>
      rw [hw] at he
      cases b with
      | false =>
        simp only [Bool.false_eq_true, if_false, Prod.mk.injEq, and_true] at he
        subst he
        exact ⟨[], c, cs, s, rfl, rfl, hw⟩
      | true =>
        obtain ⟨as, a, ds, s2, h1, h2, h3⟩ := ih he
        refine ⟨c :: as, a, ds, s2, ?_, ?_, h3⟩
        · rw [List.cons_append, List.flatten_cons, h1, List.flatten_cons]
        · rw [writeAll, hw]; exact h2

/-- **C105.** To a writer that appends, the whole text is appended if there is no error, and some part from its beginning
otherwise. -/
theorem C105_appends {p : Printer} {text : List Char} (h : Writes p text) {σ : Type} {w : Writer σ}
    {contents : σ → List Char} (ha : Appends w contents) (s : σ) :
    ((p.run σ w s).2 = true → contents (p.run σ w s).1 = contents s ++ text) ∧
    ((p.run σ w s).2 = false → ∃ t, t <+: text ∧ contents (p.run σ w s).1 = contents s ++ t) := by
  obtain ⟨cs, rfl, h⟩ := h
  rw [h]
  clear h
  induction cs generalizing s with
  | nil => exact ⟨fun _ => by simp [writeAll], fun h => by cases h⟩
  | cons c cs ih =>
    rw [writeAll]
    split
    · rename_i hc
      obtain ⟨h1, h2⟩ := ih (w s c).1
      rw [ha.ok s c hc] at h1 h2
      refine ⟨fun h => by rw [h1 h]; simp, fun h => ?_⟩
      obtain ⟨t, ht, e⟩ := h2 h
      exact ⟨c ++ t, by simpa using ht, by rw [e]; simp⟩
    · rename_i hc
      simp only [Bool.not_eq_true] at hc
      refine ⟨fun h => (by cases h), fun _ => ?_⟩
      obtain ⟨t, ht, e⟩ := ha.err s c hc
      exact ⟨t, ht.trans (by simp), e⟩

/-- **C105.** `to_string` gives the text and does not fail. -/
theorem C105_string {p : Printer} {text : List Char} (h : Writes p text) (s : List Char) :
    p.run _ stringWriter s = (s ++ text, true) := by
  obtain ⟨cs, rfl, h⟩ := h
  rw [h]
  clear h
  induction cs generalizing s with
  | nil => simp [writeAll]
  | cons c cs ih => simp [writeAll, stringWriter, ih]

/-- **C105.** Into a buffer of `n` bytes, printing succeeds exactly if the text fits. -/
theorem C105_buffer {p : Printer} {text : List Char} (h : Writes p text) (n : Nat) (s : List Char) (hs : strLen s ≤ n) :
    (p.run _ (bufferWriter n) s).2 = true ↔ strLen s + strLen text ≤ n := by
  obtain ⟨cs, rfl, h⟩ := h
  rw [h]
  clear h
  induction cs generalizing s with
  | nil => simp [writeAll]; exact hs
  | cons c cs ih =>
    rw [writeAll]
    unfold bufferWriter
    by_cases hc : strLen s + strLen c ≤ n
    · simp only [if_pos hc, if_true]
      have := ih (s ++ c) (by rw [strLen_append]; exact hc)
      unfold bufferWriter at this
      rw [this, strLen_append, List.flatten_cons, strLen_append]
      omega
    · simp only [if_neg hc, Bool.false_eq_true, if_false, List.flatten_cons, strLen_append, false_iff]
      omega

/-! ### The number of pieces -/

/-- The printer makes at most `n` pieces. -/
def PiecesLe (p : Printer) (n : Nat) : Prop := ∃ cs, cs.length ≤ n ∧ Emits p cs

theorem PiecesLe.done : PiecesLe done 0 := ⟨[], Nat.le_refl _, Emits.done⟩
theorem PiecesLe.str (t : List Char) : PiecesLe (str t) 1 := ⟨[t], Nat.le_refl _, Emits.str t⟩
theorem PiecesLe.seq {p q : Printer} {m n : Nat} (hp : PiecesLe p m) (hq : PiecesLe q n) : PiecesLe (p ?; q) (m + n) := by
  obtain ⟨cs, h1, h2⟩ := hp
  obtain ⟨ds, h3, h4⟩ := hq
  exact ⟨cs ++ ds, by simp; omega, h2.seq h4⟩
theorem PiecesLe.ite {c : Prop} [Decidable c] {t : List Char} : PiecesLe (if c then Printer.str t else Printer.done) 1 := by
  split
  · exact .str t
  · exact ⟨[], by simp, Emits.done⟩
theorem PiecesLe.mono {p : Printer} {m n : Nat} (hp : PiecesLe p m) (h : m ≤ n) : PiecesLe p n := by
  obtain ⟨cs, h1, h2⟩ := hp
  exact ⟨cs, by omega, h2⟩

theorem padTo_pieces (t : List Char) : PiecesLe (padTo {} t) 1 := by
  unfold padTo
  exact PiecesLe.str t

mutual
theorem tree_pieces : (t : TokenTree) → PiecesLe (displayTreeTo {} t) (4 * treeCount t - 1)
  | .group d ts _ => by
    unfold displayTreeTo
    refine ((PiecesLe.str _).seq ((loop_pieces {} ts true false).seq (PiecesLe.ite.seq (.str _)))).mono ?_
    simp only [treeCount]
    omega
  | .ident sym raw _ => by unfold displayTreeTo; exact (PiecesLe.ite.seq (.str _)).mono (by simp [treeCount])
  | .punct ch _ _ => by unfold displayTreeTo; exact (padTo_pieces _).mono (by simp [treeCount])
  | .literal repr _ => by unfold displayTreeTo; exact (padTo_pieces _).mono (by simp [treeCount])
theorem loop_pieces (o : FmtOpts) : (ts : List TokenTree) → (first joint : Bool) →
    PiecesLe (displayLoopTo o ts first joint) (4 * treesCount ts)
  | [], _, _ => by unfold displayLoopTo; exact .done
  | t :: ts, first, joint => by
    unfold displayLoopTo
    refine (PiecesLe.ite.seq ((tree_pieces t).seq (loop_pieces o ts false (jointAfter t)))).mono ?_
    have : 1 ≤ treeCount t := by cases t <;> simp [treeCount]
    simp only [treesCount]
    omega
end

/-- **C105.** `Display` of a stream calls the writer at most four times for each tree at any depth. -/
theorem C105_calls (o : FmtOpts) (ts : List TokenTree) :
    ((displayTo o ts).run Nat (fun n _ => (n + 1, true)) 0).1 ≤ 4 * treesCount ts := by
  obtain ⟨cs, h1, h2⟩ := loop_pieces o ts true false
  unfold displayTo
  rw [h2]
  have : ∀ (cs : List (List Char)) (n : Nat), (writeAll (fun n _ => (n + 1, true)) cs n).1 = n + cs.length := by
    intro cs
    induction cs with
    | nil => intro n; rfl
    | cons c cs ih => intro n; simp [writeAll, ih]; omega
  rw [this]
  omega

/-! ### Concrete cases -/

/-- `f({ a })` -/
def printed : List TokenTree := [.ident ['f'] false Span.callSite,
  .group .parenthesis [.group .brace [.ident ['a'] true Span.callSite] Span.callSite] Span.callSite]

example : (displayTo {} printed).run _ stringWriter [] = ("f ({ r#a })".toList, true) ∧
    (displayTo {} printed).run _ (bufferWriter 5) [] = ("f ({ ".toList, false) ∧
    (displayTo {} printed).run _ (bufferWriter 6) [] = ("f ({ ".toList, false) ∧
    ((displayTo {} printed).run Nat (fun n _ => (n + 1, true)) 0).1 = 9 ∧ treesCount printed = 4 ∧
    (displayTo {} printed).run _ (countWriter 3) 0 = (4, false) := by decide +kernel

section
attribute [local instance] sampleTables
example : ((debugStreamTo true true printed).run _ (bufferWriter 45) []) =
    ("TokenStream [\n    Ident {\n        sym: f,\n".toList, false) := by decide +kernel
end

/-- A buffer appends. -/
example (n : Nat) : Appends (bufferWriter n) id := by
  constructor
  · intro s c h
    unfold bufferWriter at h ⊢
    split at h
    · rename_i hc; simp [hc]
    · cases h
  · intro s c h
    unfold bufferWriter at h ⊢
    split at h
    · cases h
    · rename_i hc; exact ⟨[], by simp, by simp [hc]⟩

end PM2.Props
