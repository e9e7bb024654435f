import Verif.Spec.Tokens
import Verif.Proof.Big
/-! # The machine commutes with moving the text -/

set_option linter.unusedSectionVars false

namespace PM2
open Spec

theorem mapSpan_append (f : Span → Span) (a b : List TokenTree) :
    mapSpan f (a ++ b) = mapSpan f a ++ mapSpan f b := by
  induction a with
  | nil => rfl
  | cons t a ih => simp [mapSpan, ih]

theorem shift_append (k : Nat) (a b : List TokenTree) : shift k (a ++ b) = shift k a ++ shift k b :=
  mapSpan_append _ a b

/-- move a result -/
def shiftRes (k : Nat) : Res Span (List TokenTree) → Res Span (List TokenTree)
  | .ok ts => .ok (shift k ts)
  | .err e => .err ⟨e.lo + k, e.hi + k⟩
  | .panic => .panic
  | .diverge => .diverge

def Frame.shift (k : Nat) (f : Frame) : Frame := ⟨f.lo + k, f.delim, Spec.shift k f.outer⟩

def P.St.shift (k : Nat) (st : P.St) : P.St :=
  ⟨st.rest, Spec.shift k st.tokens, st.stack.map (Frame.shift k)⟩

section
variable [UnicodeTables]

theorem shift_doc (k : Nat) (content : List Char) (inner : Bool) (s : Span) :
    shift k (P.docTokens content inner s) = P.docTokens content inner ⟨s.lo + k, s.hi + k⟩ := by
  cases inner <;> rfl

theorem shift_leaf (k : Nat) (l : P.Leaf) (s : Span) :
    shift k [l.tok s] = [l.tok ⟨s.lo + k, s.hi + k⟩] := by
  cases l <;> rfl

def P.shiftStep (k : Nat) : Res Span (P.St ⊕ List TokenTree) → Res Span (P.St ⊕ List TokenTree)
  | .ok (.inl st) => .ok (.inl (st.shift k))
  | .ok (.inr ts) => .ok (.inr (Spec.shift k ts))
  | .err e => .err ⟨e.lo + k, e.hi + k⟩
  | .panic => .panic
  | .diverge => .diverge

theorem P.step_shift {E : Nat} (k : Nat) (st : P.St) (hl : st.rest.length ≤ E) :
    P.step (E + k) (st.shift k) = P.shiftStep k (P.step E st) := by
  have hf := P.next_facts st.rest
  have hs := (P.skipWs_suffix st.rest).length_le
  unfold P.step
  simp only [P.St.shift]
  cases hn : P.next st.rest with
  | doc content inner s1 r =>
    rw [hn] at hf
    obtain ⟨rfl, h2, h3⟩ := hf
    simp only [P.shiftStep, P.St.shift, shift_append, shift_doc]
    rw [show E + k - (P.skipWs st.rest).length = E - (P.skipWs st.rest).length + k by omega,
      show E + k - r.length = E - r.length + k by omega]
  | eof => cases st.stack <;> rfl
  | opn d s1 r =>
    rw [hn] at hf
    obtain ⟨rfl, h2, h3⟩ := hf
    simp only [P.shiftStep, P.St.shift, List.map_cons, Frame.shift]
    rw [show E + k - (P.skipWs st.rest).length = E - (P.skipWs st.rest).length + k by omega]
    rfl
  | cls d s1 r =>
    rw [hn] at hf
    obtain ⟨rfl, h2, h3⟩ := hf
    dsimp only
    rw [show E + k - (P.skipWs st.rest).length = E - (P.skipWs st.rest).length + k by omega,
      show E + k - r.length = E - r.length + k by omega]
    cases hst : st.stack with
    | nil => rfl
    | cons f stack =>
      simp only [List.map_cons, Frame.shift]
      split
      · rfl
      · simp only [P.shiftStep, P.St.shift, shift_append]
        rfl
  | leaf l s1 r =>
    rw [hn] at hf
    obtain ⟨rfl, h2, h3⟩ := hf
    simp only [P.shiftStep, P.St.shift, shift_append, shift_leaf]
    rw [show E + k - (P.skipWs st.rest).length = E - (P.skipWs st.rest).length + k by omega,
      show E + k - r.length = E - r.length + k by omega]
  | bad s1 =>
    rw [hn] at hf
    subst hf
    simp only [P.shiftStep]
    rw [show E + k - (P.skipWs st.rest).length = E - (P.skipWs st.rest).length + k by omega]

theorem P.step_rest {E : Nat} {st st' : P.St} (h : P.step E st = .ok (.inl st')) :
    st'.rest.length < st.rest.length := by
  have hf := P.next_facts st.rest
  unfold P.step at h
  cases hn : P.next st.rest with
  | doc content inner s1 r =>
    rw [hn] at hf h; simp at h; subst h; exact hf.2.2
  | eof => rw [hn] at h; simp only at h; split at h <;> simp at h
  | opn d s1 r => rw [hn] at hf h; simp at h; subst h; exact hf.2.2
  | cls d s1 r =>
    rw [hn] at hf h
    simp only at h
    split at h
    · simp at h
    · split at h
      · simp at h
      · simp at h; subst h; exact hf.2.2
  | leaf l s1 r => rw [hn] at hf h; simp at h; subst h; exact hf.2.2
  | bad s1 => rw [hn] at h; simp at h

theorem P.run_shift {E : Nat} (k : Nat) : ∀ (fuel : Nat) (st : P.St), st.rest.length ≤ E →
    P.run (E + k) fuel (st.shift k) = shiftRes k (P.run E fuel st) := by
  intro fuel
  induction fuel with
  | zero => intro st _; rfl
  | succ fuel ih =>
    intro st hl
    simp only [P.run, P.step_shift k st hl]
    cases hs : P.step E st with
    | ok x =>
      cases x with
      | inl st' =>
        have := P.step_rest hs
        simp only [P.shiftStep]
        exact ih st' (by omega)
      | inr ts => rfl
    | err e => rfl
    | panic => rfl
    | diverge => rfl

/-- Where a run can fail: at a position between the frames on the stack and the end. -/
theorem P.run_err {E lo : Nat} : ∀ (fuel : Nat) (st : P.St) (e : Span), st.rest.length + lo ≤ E →
    (∀ f ∈ st.stack, lo ≤ f.lo ∧ f.lo ≤ E) → P.run E fuel st = .err e →
    e.lo = e.hi ∧ lo ≤ e.lo ∧ e.lo ≤ E := by
  intro fuel
  induction fuel with
  | zero => intro st e _ _ h; simp [P.run] at h
  | succ fuel ih =>
    intro st e hl hst h
    have hf := P.next_facts st.rest
    have hs := (P.skipWs_suffix st.rest).length_le
    unfold P.run P.step at h
    cases hn : P.next st.rest with
    | doc content inner s1 r =>
      rw [hn] at h hf
      dsimp only at h
      refine ih _ _ ?_ ?_ h
      · have := hf.2.2; dsimp only; omega
      · exact hst
    | eof =>
      rw [hn] at h
      cases hstk : st.stack with
      | nil => rw [hstk] at h; simp at h
      | cons f stack =>
        rw [hstk] at h; simp at h; subst h
        exact ⟨rfl, hst f (by simp [hstk])⟩
    | opn d s1 r =>
      rw [hn] at h hf
      dsimp only at h
      refine ih _ _ (by have := hf.2.2; dsimp only; omega) ?_ h
      intro f hfm
      rcases List.mem_cons.mp hfm with rfl | hfm
      · obtain ⟨rfl, -, -⟩ := hf; simp; omega
      · exact hst f hfm
    | cls d s1 r =>
      rw [hn] at h hf
      obtain ⟨rfl, h2, h3⟩ := hf
      cases hstk : st.stack with
      | nil =>
        rw [hstk] at h; simp at h; subst h
        simp; omega
      | cons f stack =>
        rw [hstk] at h
        simp only at h
        split at h
        · rename_i hcond; split at hcond <;> simp at hcond
          subst hcond
          refine ih _ _ (by simp; omega) ?_ h
          intro f' hf'
          exact hst f' (by simp [hstk]; exact .inr hf')
        · rename_i hcond; split at hcond <;> simp at hcond
        · rename_i hcond; split at hcond <;> simp at hcond
          simp at h; subst h; subst hcond
          simp; omega
        · simp at h
        · simp at h
    | leaf l s1 r =>
      rw [hn] at h hf
      dsimp only at h
      refine ih _ _ ?_ ?_ h
      · have := hf.2.2; dsimp only; omega
      · exact hst
    | bad s1 =>
      rw [hn] at h hf
      subst hf
      simp at h; subst h
      simp; omega

end
end PM2
