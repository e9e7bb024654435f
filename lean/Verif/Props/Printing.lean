import Verif.Props.RoundTrip
/-! # C39, C51: printing is compositional; `set_span` -/

set_option linter.unusedSectionVars false

namespace PM2.Props
open Spec

/-! ### C39 -/

/-- **C39.** The empty stream prints nothing, and the concatenation of two streams prints as the first,
a space unless one of them is empty or the first ends with a `Joint` punct, and the second. -/
theorem C39_append (a b : List TokenTree) :
    ((a = [] ∨ b = [] ∨ (∃ c s, a.getLast? = some (.punct c .joint s))) →
      display (a ++ b) = display a ++ display b) ∧
    (¬ (a = [] ∨ b = [] ∨ (∃ c s, a.getLast? = some (.punct c .joint s))) →
      display (a ++ b) = display a ++ ' ' :: display b) := by
  unfold display
  induction a with
  | nil => simp [displayLoop]
  | cons t a ih =>
    rw [List.cons_append, displayLoop_cons, displayLoop_cons]
    cases a with
    | nil =>
      have hj : (∃ c s, some t = some (TokenTree.punct c .joint s)) ↔ jointAfter t = true := by
        rw [jointAfter_iff]
        cases t with
        | punct c sp s => cases sp <;> simp [IsJoint]
        | _ => simp [IsJoint]
      simp only [List.nil_append, List.getLast?_singleton, hj, displayLoop, List.append_nil]
      constructor
      · rintro (h | rfl | h)
        · simp at h
        · simp [displayLoop]
        · simp [h]
      · intro h
        simp at h
        rw [if_neg (by simpa using h)]
        simp
    | cons t' a =>
      constructor
      · intro h
        rw [ih.1 (by simpa [List.getLast?_cons_cons] using h)]
        simp
      · intro h
        rw [ih.2 (by simpa [List.getLast?_cons_cons] using h)]
        simp

/-- **C39.** A single token prints as itself; a group prints as its delimiters around its contents, with
spaces inside exactly for braces (one space if the contents are empty). -/
theorem C39_tokens :
    display [] = [] ∧
    (∀ sym s, display [.ident sym false s] = sym) ∧
    (∀ sym s, display [.ident sym true s] = "r#".toList ++ sym) ∧
    (∀ c sp s, display [.punct c sp s] = [c]) ∧
    (∀ x s, display [.literal x s] = x) ∧
    (∀ ts s, display [.group .parenthesis ts s] = "(".toList ++ display ts ++ ")".toList) ∧
    (∀ ts s, display [.group .bracket ts s] = "[".toList ++ display ts ++ "]".toList) ∧
    (∀ ts s, display [.group .none ts s] = display ts) ∧
    (∀ ts s, ts ≠ [] → display [.group .brace ts s] = "{ ".toList ++ display ts ++ " }".toList) ∧
    (∀ s, display [.group .brace [] s] = "{ }".toList) := by
  refine ⟨rfl, ?_, ?_, ?_, ?_, ?_, ?_, ?_, ?_, ?_⟩
  · intros; simp [display, displayLoop, displayTree, displayIdent]
  · intros; simp [display, displayLoop, displayTree, displayIdent]
  · intros; simp [display, displayLoop, displayTree]
  · intros; simp [display, displayLoop, displayTree]
  · intros; simp [display, displayLoop, displayTree, displayOpen, displayClose]
  · intros; simp [display, displayLoop, displayTree, displayOpen, displayClose]
  · intros; simp [display, displayLoop, displayTree, displayOpen, displayClose]
  · intro ts s h
    cases ts with
    | nil => exact absurd rfl h
    | cons t ts => simp [display, displayLoop, displayTree, displayOpen, displayClose]
  · intros; simp [display, displayLoop, displayTree, displayOpen, displayClose]

/-! ### C51 -/

/-- **C51.** `set_span` makes `span()` the new span (for a group, `span_open` and `span_close` are then
those of the new span) and changes nothing else: the token prints the same, and putting the old span back
gives the old token, so kind, text, spacing, delimiter and the contents of a group with their spans are
unchanged. -/
theorem C51_set_span (t : TokenTree) (s : Span) :
    (t.setSpan s).span = s ∧ (t.setSpan s).setSpan t.span = t ∧
    displayTree (t.setSpan s) = displayTree t ∧ mapSpan (fun _ => Span.callSite) [t.setSpan s] = mapSpan (fun _ => Span.callSite) [t] ∧
    (∀ d ts s', t = .group d ts s' → t.setSpan s = .group d ts s) := by
  cases t with
  | group d ts s' =>
    refine ⟨rfl, rfl, ?_, rfl, ?_⟩
    · simp [TokenTree.setSpan, displayTree]
    · intro d' ts' s'' e
      simp at e
      obtain ⟨rfl, rfl, -⟩ := e
      rfl
  | ident sym raw s' => exact ⟨rfl, rfl, rfl, rfl, by simp⟩
  | punct c sp s' => exact ⟨rfl, rfl, rfl, rfl, by simp⟩
  | literal x s' => exact ⟨rfl, rfl, rfl, rfl, by simp⟩

/-! ### Examples -/

example : display ([.punct '+' .joint ⟨0, 0⟩] ++ [.punct '=' .alone ⟨0, 0⟩]) = ['+', '='] ∧
    display ([.punct '+' .alone ⟨0, 0⟩] ++ [.punct '=' .alone ⟨0, 0⟩]) = ['+', ' ', '='] ∧
    display [.group .brace [.group .none [.ident ['a'] true ⟨0, 0⟩] ⟨0, 0⟩] ⟨0, 0⟩, .literal ['1'] ⟨0, 0⟩] =
      "{ r#a } 1".toList := by decide +kernel

example : (TokenTree.group .brace [.ident ['a'] true ⟨3, 4⟩] ⟨2, 5⟩).setSpan ⟨7, 9⟩ =
    .group .brace [.ident ['a'] true ⟨3, 4⟩] ⟨7, 9⟩ := by decide +kernel

end PM2.Props
