import Verif.Proof.Context
import Verif.Proof.Print
/-! # Tokens before a text do not affect its lexing -/

set_option linter.unusedSectionVars false

namespace PM2
open Spec

/-- put tokens before the outermost level -/
def preStack (pre : List TokenTree) : List Frame → List Frame
  | [] => []
  | [f] => [⟨f.lo, f.delim, pre ++ f.outer⟩]
  | f :: g :: fs => f :: preStack pre (g :: fs)

def P.St.pre (p : List TokenTree) (st : P.St) : P.St :=
  ⟨st.rest, if st.stack = [] then p ++ st.tokens else st.tokens, preStack p st.stack⟩

def preRes (p : List TokenTree) : Res Span (List TokenTree) → Res Span (List TokenTree)
  | .ok ts => .ok (p ++ ts)
  | .err e => .err e
  | .panic => .panic
  | .diverge => .diverge

def P.preStep (p : List TokenTree) : Res Span (P.St ⊕ List TokenTree) → Res Span (P.St ⊕ List TokenTree)
  | .ok (.inl st) => .ok (.inl (st.pre p))
  | .ok (.inr ts) => .ok (.inr (p ++ ts))
  | .err e => .err e
  | .panic => .panic
  | .diverge => .diverge

section
variable [UnicodeTables]

theorem P.step_pre {E : Nat} (p : List TokenTree) (st : P.St) :
    P.step E (st.pre p) = P.preStep p (P.step E st) := by
  obtain ⟨rest, toks, stack⟩ := st
  unfold P.step
  simp only [P.St.pre]
  cases P.next rest with
  | doc content inner s1 r => cases stack <;> simp [P.preStep, P.St.pre]
  | opn d s1 r =>
    cases stack <;> simp [P.preStep, P.St.pre, preStack]
  | cls d s1 r =>
    cases stack with
    | nil => simp [P.preStep, preStack]
    | cons f stack =>
      cases stack with
      | nil =>
        simp only [preStack]
        split <;> simp [P.preStep, P.St.pre, preStack]
      | cons g stack =>
        simp only [preStack]
        split <;> simp [P.preStep, P.St.pre]
  | leaf l s1 r => cases stack <;> simp [P.preStep, P.St.pre]
  | eof =>
    cases stack with
    | nil => simp [P.preStep, preStack]
    | cons f stack => cases stack <;> simp [P.preStep, preStack]
  | bad s1 => simp [P.preStep]

theorem P.run_pre {E : Nat} (p : List TokenTree) : ∀ (fuel : Nat) (st : P.St),
    P.run E fuel (st.pre p) = preRes p (P.run E fuel st) := by
  intro fuel
  induction fuel with
  | zero => intro st; rfl
  | succ fuel ih =>
    intro st
    simp only [P.run, P.step_pre p st]
    cases hs : P.step E st with
    | ok x =>
      cases x with
      | inl st' =>
        simp only [P.preStep]
        exact ih st'
      | inr ts => rfl
    | err e => rfl
    | panic => rfl
    | diverge => rfl

end
end PM2
