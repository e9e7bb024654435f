import Verif.Proof.SourceMap2
import Verif.Spec.History
/-! # Source-map histories -/

set_option linter.unusedSectionVars false

namespace PM2
open Spec

/-- texts with their spans, from position `p` -/
def lay : Nat → List (List Char) → List (List Char × Span)
  | _, [] => []
  | p, t :: ts => (t, ⟨p, p + t.length⟩) :: lay (p + t.length + 1) ts

def widths (ts : List (List Char)) : Nat := (ts.map (fun t => t.length + 1)).sum

theorem lay_append (p : Nat) (ts : List (List Char)) (t : List Char) :
    lay p (ts ++ [t]) = lay p ts ++ [(t, ⟨p + widths ts, p + widths ts + t.length⟩)] := by
  induction ts generalizing p with
  | nil => simp [lay, widths]
  | cons u ts ih =>
    simp only [List.cons_append, lay, ih, widths, List.map_cons, List.sum_cons]
    have e : p + u.length + 1 + (ts.map (fun t => t.length + 1)).sum =
      p + (u.length + 1 + (ts.map (fun t => t.length + 1)).sum) := by omega
    rw [e]

theorem lay_get (p : Nat) (ts : List (List Char)) (i : Nat) :
    (lay p ts)[i]? = (ts[i]?).map (fun t =>
      (t, ⟨p + widths (ts.take i), p + widths (ts.take i) + t.length⟩)) := by
  induction ts generalizing p i with
  | nil => simp [lay]
  | cons u ts ih =>
    cases i with
    | zero => simp [lay, widths]
    | succ i =>
      simp only [lay, List.getElem?_cons_succ, ih, List.take_succ_cons, widths, List.map_cons,
        List.sum_cons]
      cases ts[i]? with
      | none => rfl
      | some t =>
        simp only [Option.map_some, Option.some.injEq, Prod.mk.injEq, Span.mk.injEq, true_and]
        omega

theorem lay_endPos (p : Nat) (fs : List FileInfo) (ts : List (List Char))
    (h : fs.map (fun f => (f.sourceText, f.span)) = lay p ts) : endPos p fs = p + widths ts := by
  induction ts generalizing p fs with
  | nil =>
    cases fs with
    | nil => simp [endPos, widths]
    | cons f fs => simp [lay] at h
  | cons t ts ih =>
    cases fs with
    | nil => simp [lay] at h
    | cons f fs =>
      simp only [List.map_cons, lay, List.cons.injEq, Prod.mk.injEq] at h
      obtain ⟨⟨-, h1⟩, h2⟩ := h
      simp only [endPos]
      rw [h1]
      rw [ih _ _ h2]
      simp only [widths, List.map_cons, List.sum_cons]
      omega

/-- the source map `sm` holds exactly the given texts -/
def Holds (sm : SourceMap) (texts : List (List Char)) : Prop :=
  sm.files.map (fun f => (f.sourceText, f.span)) = ([], ⟨0, 0⟩) :: lay 1 texts

theorem base_eq (texts : List (List Char)) (i : Nat) : base texts i = 1 + widths (texts.take i) := rfl

theorem base_all (texts : List (List Char)) : base texts texts.length = 1 + widths texts := by
  simp [base_eq]

theorem Holds.nextPos {sm : SourceMap} {texts : List (List Char)} (h : Holds sm texts) :
    sm.nextPos = base texts texts.length := by
  unfold SourceMap.nextPos
  unfold Holds at h
  cases hf : sm.files with
  | nil => rw [hf] at h; simp at h
  | cons f fs =>
    rw [hf] at h
    simp only [List.map_cons, List.cons.injEq, Prod.mk.injEq] at h
    simp only [endPos]
    rw [h.1.2, base_all, lay_endPos _ _ _ h.2]

theorem Holds.append {sm : SourceMap} {texts : List (List Char)} (h : Holds sm texts)
    {f : FileInfo} (hs : f.span = ⟨sm.nextPos, sm.nextPos + f.sourceText.length⟩) :
    Holds ⟨sm.files ++ [f]⟩ (texts ++ [f.sourceText]) := by
  unfold Holds
  have h' : sm.files.map (fun f => (f.sourceText, f.span)) = ([], ⟨0, 0⟩) :: lay 1 texts := h
  simp only [List.map_append, h', List.map_cons, List.map_nil, lay_append, hs, h.nextPos, base_all]
  rfl

theorem Holds.same {a b : SourceMap} {texts : List (List Char)} (h : Holds a texts)
    (hs : a.Same b) : Holds b texts := by
  unfold Holds; rw [← hs]; exact h

section
variable [UnicodeTables]

theorem Spec.History.holds {sm : SourceMap} {texts : List (List Char)} (h : History sm texts) :
    sm.WF ∧ Holds sm texts := by
  induction h with
  | init => exact ⟨SourceMap.init_wf, rfl⟩
  | @parse sm texts src _ hlen ih =>
    have hn := ih.2.nextPos
    by_cases hr : Room texts src
    · rw [if_pos hr]
      have hfit : sm.nextPos + src.length < u32Size := by rw [hn]; exact hr
      obtain ⟨f, h1, h2, -, hw, e, -⟩ := getCursor_eq ih.1 hfit
      rw [e]
      refine ⟨hw, ?_⟩
      rw [← h1]
      exact ih.2.append (by rw [h2, h1])
    · rw [if_neg hr]
      have hfit : ¬ sm.nextPos + src.length < u32Size := by rw [hn]; exact hr
      rw [(getCursor_panic ih.1 hlen hfit).1]
      exact ih
  | @literal sm texts src _ hlen ih =>
    have hn := ih.2.nextPos
    by_cases hr : Room texts src
    · rw [if_pos hr]
      have hfit : sm.nextPos + src.length < u32Size := by rw [hn]; exact hr
      obtain ⟨f, h1, h2, -, hw, -, e⟩ := getCursor_eq ih.1 hfit
      rw [e]
      refine ⟨hw, ?_⟩
      rw [← h1]
      exact ih.2.append (by rw [h2, h1])
    · rw [if_neg hr]
      have hfit : ¬ sm.nextPos + src.length < u32Size := by rw [hn]; exact hr
      rw [(getCursor_panic ih.1 hlen hfit).2]
      exact ih
  | byteRange s _ he ih =>
    have := byteRange_wf ih.1 he
    exact ⟨this.1, ih.2.same this.2⟩
  | sourceText s _ he ih =>
    have := sourceText_wf ih.1 he
    exact ⟨this.1, ih.2.same this.2⟩
  | invalidate _ ih => rw [ih.1.invalidate]; exact ⟨SourceMap.init_wf, rfl⟩

theorem Spec.History.wf {sm : SourceMap} {texts : List (List Char)} (h : History sm texts) :
    sm.WF := h.holds.1

theorem Holds.within {sm : SourceMap} {texts : List (List Char)} (hh : Holds sm texts)
    {i : Nat} {t : List Char} {s : Span} (hi : InText texts i t s) :
    ∃ f, f.sourceText = t ∧ f.span = ⟨base texts i, base texts i + t.length⟩ ∧
      Within sm (i + 1) f s := by
  have h1 : (sm.files.map (fun f => (f.sourceText, f.span)))[i + 1]? =
      some (t, ⟨base texts i, base texts i + t.length⟩) := by
    rw [hh]
    simp only [List.getElem?_cons_succ, lay_get, hi.text, Option.map_some, base_eq]
  rw [List.getElem?_map] at h1
  cases hf : sm.files[i + 1]? with
  | none => rw [hf] at h1; simp at h1
  | some f =>
    rw [hf] at h1
    simp at h1
    obtain ⟨h2, h3⟩ := h1
    refine ⟨f, h2, h3, hf, ?_, hi.le, ?_⟩
    · rw [h3]; exact hi.lo
    · rw [h3]; exact hi.hi

/-- the result of a parse after a history -/
theorem Spec.History.fromStr {sm : SourceMap} {texts : List (List Char)} (h : History sm texts)
    {src : List Char} (hr : Room texts src) :
    (TokenStream.fromStr sm src).2 = fromStrAt src (base texts texts.length) ∧
    (Literal.fromStr sm src).2 = literalFromStrAt src (base texts texts.length) ∧
    History (TokenStream.fromStr sm src).1 (texts ++ [src]) ∧
    History (Literal.fromStr sm src).1 (texts ++ [src]) ∧
    base texts texts.length + src.length < u32Size := by
  have hn := h.holds.2.nextPos
  have hfit : sm.nextPos + src.length < u32Size := by rw [hn]; exact hr
  obtain ⟨f, h1, h2, -, hw, e, e'⟩ := getCursor_eq h.wf hfit
  have hlen : src.length < 2 ^ 32 := by unfold Room at hr; omega
  refine ⟨by rw [e, hn], by rw [e', hn], ?_, ?_, hr⟩
  · have := History.parse src h hlen
    rwa [if_pos hr] at this
  · have := History.literal src h hlen
    rwa [if_pos hr] at this

end

end PM2
