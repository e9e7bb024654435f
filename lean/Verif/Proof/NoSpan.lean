import Verif.Model.NoSpan
import Verif.Proof.Context
import Verif.Proof.Lit
/-! # The lexer without positions runs like the pure machine with its spans erased -/

namespace PM2
open Spec

section
variable [UnicodeTables]

/-- a result without its spans -/
def eraseRes : Res Span (List TokenTree) → Res Span (List TokenTree)
  | .ok ts => .ok (erase ts)
  | .err _ => .err Span.callSite
  | .panic => .panic
  | .diverge => .diverge

def P.entry (f : Frame) : StackEntry Unit := ⟨(), f.delim, erase f.outer⟩

def P.St.bare (st : P.St) : LState Unit := ⟨⟨st.rest, ()⟩, erase st.tokens, st.stack.map P.entry⟩

def P.bareSt : Res Span (P.St ⊕ List TokenTree) → Res Span (LState Unit ⊕ List TokenTree)
  | .ok (.inl st) => .ok (.inl st.bare)
  | .ok (.inr ts) => .ok (.inr (erase ts))
  | .err _ => .err Span.callSite
  | .panic => .panic
  | .diverge => .diverge

theorem Bnd.unit (c : Cursor Unit) : Bnd c := trivial

theorem Cursor.to_unit (c : Cursor Unit) (r : List Char) : c.to r = ⟨r, ()⟩ := rfl

theorem erase_docTokens (content : List Char) (inner : Bool) (s : Span) :
    erase (P.docTokens content inner s) = P.docTokens content inner Span.callSite := by
  cases inner <;> rfl

theorem erase_tok (l : P.Leaf) (s : Span) : erase [l.tok s] = [l.tok Span.callSite] := by
  cases l <;> rfl

theorem lexStep_bare (E : Nat) (st : P.St) : lexStep st.bare = P.bareSt (P.step E st) := by
  have hs := P.skipWs_suffix st.rest
  unfold lexStep P.step P.next
  simp only [P.St.bare]
  rw [skipWhitespace_eq (Bnd.unit _), Res.ok_bind, Cursor.to_unit]
  simp only
  have htriv := P.triv1_skipWs st.rest
  generalize hs1 : P.skipWs st.rest = s1 at *
  rw [docComment_eq (Bnd.unit _) (P.triv1_none_doc htriv)]
  unfold P.next1
  simp only
  cases hd : P.doc s1 with
  | some x =>
    obtain ⟨content, inner, r⟩ := x
    simp only [lift2_some, Res.ifOk_ok, P.bareSt, P.St.bare, erase_append, erase_docTokens]
    rfl
  | none =>
    simp only [lift2_none, Res.ifOk_err]
    cases s1 with
    | nil =>
      simp only [bytesOf_nil]
      cases st.stack <;> rfl
    | cons c r =>
      obtain ⟨b, l, e, hl, hB, hlt, hasc, hsz⟩ := bytes_cons c r
      rw [e]
      simp only
      rw [openDelimiter_eq (⟨c :: r, ()⟩ : Cursor Unit) rfl hB, closeDelimiter_eq hB]
      cases ho : P.openD (c :: r) c with
      | some d =>
        simp only
        rw [advance_eq (Bnd.unit _) (t := [c]) (r := r) rfl (by simp [P.openD_ascii ho]), Res.ok_bind]
        rfl
      | none =>
        simp only
        cases hc : P.closeD c with
        | some d =>
          simp only
          cases st.stack with
          | nil => rfl
          | cons f stack =>
            simp only [List.map_cons]
            by_cases hf : f.delim = d
            · have hf' : (P.entry f).delim = d := hf
              rw [if_neg (by simp [hf']), if_neg (by simp [hf]),
                advance_eq (Bnd.unit _) (t := [c]) (r := r) rfl (by simp [P.closeD_ascii hc]), Res.ok_bind]
              simp only [P.bareSt, P.St.bare, erase_append]
              rfl
            · have hf' : (P.entry f).delim ≠ d := hf
              rw [if_pos hf', if_pos hf]
              rfl
        | none =>
          simp only
          rw [leafToken_eq (Bnd.unit _)]
          simp only
          cases hlf : P.leaf (c :: r) with
          | none => rfl
          | some x =>
            obtain ⟨lf, r'⟩ := x
            simp only [lift2_some]
            rw [P.Leaf.setSpan_tok]
            simp only [P.bareSt, P.St.bare, erase_append, erase_tok]
            rfl

theorem lexLoop_bare (E fuel : Nat) : ∀ (st : P.St), lexLoop fuel st.bare = eraseRes (P.run E fuel st) := by
  induction fuel with
  | zero => intro st; rfl
  | succ fuel ih =>
    intro st
    simp only [lexLoop, P.run]
    rw [lexStep_bare E st]
    cases P.step E st with
    | ok y =>
      cases y with
      | inl st' => simp only [P.bareSt]; exact ih st'
      | inr ts => rfl
    | err e => rfl
    | panic => rfl
    | diverge => rfl

/-- Parsing without positions, for every text and whatever end position. -/
theorem NoSpan.fromStr_eq (E : Nat) (src : List Char) : NoSpan.fromStr src =
    eraseRes (P.run E ((P.stripBom src).length + 1) ⟨P.stripBom src, [], []⟩) := by
  rw [← lexLoop_bare]
  unfold NoSpan.fromStr fromStrAt P.stripBom
  by_cases h : startsWith src ['\ufeff'] = true
  · simp only [h, if_true]
    rw [advance_eq (n := 3) (Bnd.unit _) (startsWith_drop h) rfl, Res.ok_bind]
    rfl
  · simp only [h]
    rw [if_neg (by simp), Res.ok_bind]
    rfl

theorem NoSpan.literalFromStr_eq (src : List Char) : NoSpan.literalFromStr src =
    if P.litAccepts src then .ok (src, Span.callSite) else .err Span.callSite := by
  have hgo : ∀ (neg : Bool) (s : List Char),
      ((literal (⟨s, ()⟩ : Cursor Unit)).ifOk
        (fun (rest, repr) =>
          if rest.rest.isEmpty then
            Res.ok ((if neg then '-' :: repr else repr), Span.callSite)
          else .err Span.callSite)
        (fun _ => .err Span.callSite)) =
      if P.literal s == some [] then
        Res.ok ((if neg then '-' :: s else s), Span.callSite)
      else .err Span.callSite := by
    intro neg s
    rw [literal_eq (Bnd.unit _)]
    cases hl : P.literal s with
    | none => simp [Res.ifOk, hl, lift2]
    | some r =>
      simp only [hl, lift2_some, Res.ifOk, Cursor.to_rest]
      cases r with
      | nil =>
        simp only [List.isEmpty_nil, if_true, beq_self_eq_true]
        have : P.eaten s [] = s := by simp [P.eaten]
        rw [this]
      | cons c r => simp
  unfold NoSpan.literalFromStr literalFromStrAt
  cases src with
  | nil =>
    simp only [startsWithChar]
    exact hgo false []
  | cons c u =>
    by_cases hc : c = '-'
    · subst hc
      simp only [startsWithChar, beq_self_eq_true, if_true]
      rw [advance_eq (Bnd.unit _) (t := ['-']) (r := u) rfl (by decide), Res.ok_bind]
      simp only [Cursor.to_rest]
      cases u with
      | nil =>
        simp [P.litAccepts, P.literal_minus]
      | cons ch u =>
        simp only [P.litAccepts]
        cases hd : isDecDigit ch with
        | false => simp
        | true =>
          simp only [if_true, Bool.true_and]
          exact hgo true (ch :: u)
    · have h1 : startsWithChar (c :: u) '-' = false := by simp [startsWithChar, hc]
      simp only [h1]
      have h2 : P.litAccepts (c :: u) = (P.literal (c :: u) == some []) := by
        unfold P.litAccepts
        split
        · rename_i heq; simp at heq; exact absurd heq.1 hc
        · rfl
      rw [h2]
      exact hgo false (c :: u)

end
end PM2
