import Verif.Model.Release
import Verif.Spec.Release
import Verif.Proof.Context
import Verif.Proof.Lit
import Verif.Proof.Lexed
import Verif.Proof.History
/-! # With wrapping positions the lexer runs like the pure machine with its spans reduced -/

namespace PM2
open Spec

theorem add_u32 {ε : Type} (o : UInt32) (m : Nat) : Pos.add (ε := ε) o m = .ok (o + UInt32.ofNat m) := rfl

instance : LawfulPos UInt32 where
  move o n := o + UInt32.ofNat n
  fits _ _ := True
  add_eq {_ o _ m} _ _ := add_u32 o m
  fits_move _ _ := trivial
  move_zero o := by simp
  move_move o a b := by rw [UInt32.ofNat_add, UInt32.add_assoc]

theorem UInt32.move_eq (o : UInt32) (n : Nat) : LawfulPos.move o n = o + UInt32.ofNat n := rfl

section
variable [UnicodeTables]

/-- a result whose spans have wrapped around -/
def wrapRes : Res Span (List TokenTree) → Res Span (List TokenTree)
  | .ok ts => .ok (mapSpan wrapSpan ts)
  | .err e => .err (wrapSpan e)
  | .panic => .panic
  | .diverge => .diverge

def P.wrapEntry (f : Frame) : StackEntry UInt32 := ⟨UInt32.ofNat f.lo, f.delim, mapSpan wrapSpan f.outer⟩

def P.St.wrap (E : Nat) (st : P.St) : LState UInt32 :=
  ⟨⟨st.rest, UInt32.ofNat (E - st.rest.length)⟩, mapSpan wrapSpan st.tokens, st.stack.map P.wrapEntry⟩

def P.wrapSt (E : Nat) : Res Span (P.St ⊕ List TokenTree) → Res Span (LState UInt32 ⊕ List TokenTree)
  | .ok (.inl st) => .ok (.inl (st.wrap E))
  | .ok (.inr ts) => .ok (.inr (mapSpan wrapSpan ts))
  | .err e => .err (wrapSpan e)
  | .panic => .panic
  | .diverge => .diverge

theorem Bnd.u32 (c : Cursor UInt32) : Bnd c := trivial

theorem span_u32 (a b : Nat) : Pos.span (UInt32.ofNat a) (UInt32.ofNat b) = wrapSpan ⟨a, b⟩ := rfl

theorem wrap_docTokens (content : List Char) (inner : Bool) (s : Span) :
    mapSpan wrapSpan (P.docTokens content inner s) = P.docTokens content inner (wrapSpan s) := by
  cases inner <;> rfl

theorem wrap_tok (l : P.Leaf) (s : Span) : mapSpan wrapSpan [l.tok s] = [l.tok (wrapSpan s)] := by
  cases l <;> rfl

theorem lexStep_wrap (E : Nat) (st : P.St) (hlen : st.rest.length ≤ E) :
    lexStep (st.wrap E) = P.wrapSt E (P.step E st) := by
  have hs := P.skipWs_suffix st.rest
  have hto : ∀ s r : List Char, s.length ≤ E → r <:+ s →
      (⟨s, UInt32.ofNat (E - s.length)⟩ : Cursor UInt32).to r = ⟨r, UInt32.ofNat (E - r.length)⟩ := by
    intro s r hE hr
    have := hr.length_le
    simp only [Cursor.to, UInt32.move_eq, ← UInt32.ofNat_add]
    congr 2; omega
  unfold lexStep P.step P.next
  simp only [P.St.wrap]
  rw [skipWhitespace_eq (Bnd.u32 _), Res.ok_bind, hto _ _ hlen hs]
  simp only
  have htriv := P.triv1_skipWs st.rest
  generalize hs1 : P.skipWs st.rest = s1 at *
  have hl1 := Nat.le_trans hs.length_le hlen
  rw [docComment_eq (Bnd.u32 _) (P.triv1_none_doc htriv)]
  unfold P.next1
  simp only
  cases hd : P.doc s1 with
  | some x =>
    obtain ⟨content, inner, r⟩ := x
    simp only [lift2_some, Res.ifOk_ok, P.wrapSt, P.St.wrap, mapSpan_append, wrap_docTokens]
    rw [hto _ _ hl1 (P.doc_suffix hd).1]
    rfl
  | none =>
    simp only [lift2_none, Res.ifOk_err]
    cases s1 with
    | nil =>
      simp only [bytesOf_nil]
      cases st.stack <;> rfl
    | cons c r =>
      obtain ⟨b, l, e, hl, hB, hlt, hasc, hsz⟩ := bytes_cons c r
      rw [e]
      simp only
      rw [openDelimiter_eq (⟨c :: r, UInt32.ofNat (E - (c :: r).length)⟩ : Cursor UInt32) rfl hB,
        closeDelimiter_eq hB]
      cases ho : P.openD (c :: r) c with
      | some d =>
        simp only
        rw [advance_eq (Bnd.u32 _) (t := [c]) (r := r) rfl (by simp [P.openD_ascii ho]), Res.ok_bind,
          hto _ _ hl1 (List.suffix_cons _ _)]
        rfl
      | none =>
        simp only
        cases hc : P.closeD c with
        | some d =>
          simp only
          cases st.stack with
          | nil => rfl
          | cons f stack =>
            simp only [List.map_cons]
            by_cases hf : f.delim = d
            · have hf' : (P.wrapEntry f).delim = d := hf
              rw [if_neg (by simp [hf']), if_neg (by simp [hf]),
                advance_eq (Bnd.u32 _) (t := [c]) (r := r) rfl (by simp [P.closeD_ascii hc]), Res.ok_bind,
                hto _ _ hl1 (List.suffix_cons _ _)]
              simp only [P.wrapSt, P.St.wrap, mapSpan_append]
              rfl
            · have hf' : (P.wrapEntry f).delim ≠ d := hf
              rw [if_pos hf', if_pos hf]
              rfl
        | none =>
          simp only
          rw [leafToken_eq (Bnd.u32 _)]
          simp only
          cases hlf : P.leaf (c :: r) with
          | none => rfl
          | some x =>
            obtain ⟨lf, r'⟩ := x
            simp only [lift2_some]
            rw [hto _ _ hl1 (P.leaf_suffix hlf).1, P.Leaf.setSpan_tok]
            simp only [P.wrapSt, P.St.wrap, mapSpan_append, wrap_tok]
            rfl

theorem lexLoop_wrap (E fuel : Nat) : ∀ (st : P.St), st.rest.length ≤ E →
    lexLoop fuel (st.wrap E) = wrapRes (P.run E fuel st) := by
  induction fuel with
  | zero => intro st _; rfl
  | succ fuel ih =>
    intro st h
    simp only [lexLoop, P.run]
    rw [lexStep_wrap E st h]
    cases hx : P.step E st with
    | ok y =>
      cases y with
      | inl st' =>
        simp only [P.wrapSt]
        exact ih st' (by have := P.step_lt hx; omega)
      | inr ts => rfl
    | err e => rfl
    | panic => rfl
    | diverge => rfl

/-- Parsing at a wrapping position, for every text. -/
theorem fromStrAt_wrap (src : List Char) (off : Nat) : fromStrAt src (UInt32.ofNat off) =
    wrapRes (P.run (off + src.length) ((P.stripBom src).length + 1) ⟨P.stripBom src, [], []⟩) := by
  have hl : (P.stripBom src).length ≤ off + src.length := by
    unfold P.stripBom; split <;> simp <;> omega
  rw [← lexLoop_wrap _ _ _ hl]
  unfold fromStrAt P.St.wrap P.stripBom
  by_cases h : startsWith src ['﻿'] = true
  · have hs : src.drop ['﻿'].length <:+ src := List.drop_suffix _ _
    have hl := hs.length_le
    simp only [h, if_true]
    rw [advance_eq (n := 3) (Bnd.u32 _) (startsWith_drop h) rfl, Res.ok_bind]
    simp only [Cursor.to, UInt32.move_eq, ← UInt32.ofNat_add, tokenStream]
    have e : off + (src.length - (src.drop ['﻿'].length).length) =
        off + src.length - (src.drop 1).length := by
      show off + (src.length - (src.drop 1).length) = _
      have : (src.drop 1).length ≤ src.length := hl
      omega
    rw [e]
    rfl
  · simp only [h]
    rw [if_neg (by simp), Res.ok_bind]
    have e : off + src.length - src.length = off := by omega
    simp only [Bool.false_eq_true, if_false, e]
    rfl

theorem literalFromStrAt_wrap (src : List Char) (off : Nat) : literalFromStrAt src (UInt32.ofNat off) =
    if P.litAccepts src then .ok (src, wrapSpan ⟨off, off + src.length⟩) else .err Span.callSite := by
  have hgo : ∀ (neg : Bool) (s : List Char) (o : Nat), o + s.length = off + src.length →
      ((literal (⟨s, UInt32.ofNat o⟩ : Cursor UInt32)).ifOk
        (fun (rest, repr) =>
          if rest.rest.isEmpty then
            Res.ok ((if neg then '-' :: repr else repr), Pos.span (UInt32.ofNat off) rest.off)
          else .err Span.callSite)
        (fun _ => .err Span.callSite)) =
      if P.literal s == some [] then
        Res.ok ((if neg then '-' :: s else s), wrapSpan ⟨off, off + src.length⟩)
      else .err Span.callSite := by
    intro neg s o ho
    rw [literal_eq (Bnd.u32 _)]
    cases hl : P.literal s with
    | none => simp [Res.ifOk, hl, lift2]
    | some r =>
      simp only [hl, lift2_some, Res.ifOk, Cursor.to_rest]
      cases r with
      | nil =>
        simp only [List.isEmpty_nil, if_true, beq_self_eq_true]
        have : P.eaten s [] = s := by simp [P.eaten]
        rw [this]
        simp only [Cursor.to, UInt32.move_eq, List.length_nil, Nat.sub_zero, ← UInt32.ofNat_add]
        rw [ho, span_u32]
      | cons c r => simp
  unfold literalFromStrAt
  cases src with
  | nil =>
    simp only [startsWithChar]
    exact hgo false [] off rfl
  | cons c u =>
    by_cases hc : c = '-'
    · subst hc
      simp only [startsWithChar, beq_self_eq_true, if_true]
      rw [advance_eq (Bnd.u32 _) (t := ['-']) (r := u) rfl (by decide), Res.ok_bind]
      simp only [Cursor.to_rest]
      cases u with
      | nil =>
        simp [P.litAccepts, P.literal_minus]
      | cons ch u =>
        simp only [P.litAccepts]
        cases hd : isDecDigit ch with
        | false => simp
        | true =>
          simp only [if_true, Bool.true_and]
          have := hgo true (ch :: u) (off + 1) (by simp only [List.length_cons]; omega)
          simp only [Cursor.to, UInt32.move_eq, List.length_cons, UInt32.ofNat_add] at this ⊢
          have e : u.length + 1 + 1 - (u.length + 1) = 1 := by omega
          rw [e]
          exact this
    · have h1 : startsWithChar (c :: u) '-' = false := by simp [startsWithChar, hc]
      simp only [h1]
      have h2 : P.litAccepts (c :: u) = (P.literal (c :: u) == some []) := by
        unfold P.litAccepts
        split
        · rename_i heq; simp at heq; exact absurd heq.1 hc
        · rfl
      rw [h2]
      exact hgo false (c :: u) off rfl

/-! ### Nothing wraps while there is room -/

theorem wrapSpan_of_lt {s : Span} (h1 : s.lo < u32Size) (h2 : s.hi < u32Size) : wrapSpan s = s := by
  obtain ⟨lo, hi⟩ := s
  show (⟨lo % u32Size, hi % u32Size⟩ : Span) = _
  rw [Nat.mod_eq_of_lt h1, Nat.mod_eq_of_lt h2]

/-- a state in which nothing has wrapped around -/
structure P.St.Fits (st : P.St) : Prop where
  tokens : mapSpan wrapSpan st.tokens = st.tokens
  stack : ∀ f ∈ st.stack, f.lo < u32Size ∧ mapSpan wrapSpan f.outer = f.outer

theorem P.step_fits {E : Nat} (hE : E < u32Size) {st : P.St} (h : st.Fits) :
    (∀ st', P.step E st = .ok (.inl st') → st'.Fits) ∧
    (∀ ts, P.step E st = .ok (.inr ts) → mapSpan wrapSpan ts = ts) ∧
    (∀ e, P.step E st = .err e → wrapSpan e = e) := by
  have hw : ∀ a b : Nat, wrapSpan ⟨E - a, E - b⟩ = ⟨E - a, E - b⟩ := fun a b =>
    wrapSpan_of_lt (by show E - a < _; omega) (by show E - b < _; omega)
  unfold P.step
  split
  · refine ⟨?_, by simp, by simp⟩
    intro st' e; simp at e; subst e
    exact ⟨by simp only [mapSpan_append, wrap_docTokens, hw, h.tokens], h.stack⟩
  · split
    · exact ⟨by simp, fun ts e => by simp at e; subst e; exact h.tokens, by simp⟩
    · rename_i f _ hst
      refine ⟨by simp, by simp, ?_⟩
      intro e he; simp at he; subst he
      have := (h.stack f (by rw [hst]; simp)).1
      exact wrapSpan_of_lt this this
  · refine ⟨?_, by simp, by simp⟩
    intro st' e; simp at e; subst e
    refine ⟨rfl, ?_⟩
    intro f hf
    rcases List.mem_cons.mp hf with rfl | hf
    · exact ⟨by show E - _ < _; omega, h.tokens⟩
    · exact h.stack f hf
  · split
    · refine ⟨by simp, by simp, ?_⟩
      intro e he; simp at he; subst he; exact hw _ _
    · rename_i f stack hst
      split
      · refine ⟨by simp, by simp, ?_⟩
        intro e he; simp at he; subst he; exact hw _ _
      · refine ⟨?_, by simp, by simp⟩
        intro st' e; simp at e; subst e
        have hf := h.stack f (by rw [hst]; simp)
        refine ⟨?_, fun g hg => h.stack g (by rw [hst]; exact List.mem_cons_of_mem _ hg)⟩
        simp only [mapSpan_append, mapSpan, mapSpanTree, h.tokens, hf.2]
        rw [wrapSpan_of_lt hf.1 (by show E - _ < _; omega)]
  · refine ⟨?_, by simp, by simp⟩
    intro st' e; simp at e; subst e
    exact ⟨by simp only [mapSpan_append, wrap_tok, hw, h.tokens], h.stack⟩
  · refine ⟨by simp, by simp, ?_⟩
    intro e he; simp at he; subst he; exact hw _ _

theorem P.run_fits {E : Nat} (hE : E < u32Size) (fuel : Nat) : ∀ {st : P.St}, st.Fits →
    wrapRes (P.run E fuel st) = P.run E fuel st := by
  induction fuel with
  | zero => intro st _; rfl
  | succ fuel ih =>
    intro st h
    obtain ⟨h1, h2, h3⟩ := P.step_fits hE h
    simp only [P.run]
    cases hx : P.step E st with
    | ok y =>
      cases y with
      | inl st' => exact ih (h1 st' hx)
      | inr ts => exact congrArg Res.ok (h2 ts hx)
    | err e => exact congrArg Res.err (h3 e hx)
    | panic => rfl
    | diverge => rfl

theorem fromStrAt_fits {src : List Char} {off : Nat} (hb : off + src.length < u32Size) :
    fromStrAt src (UInt32.ofNat off) = fromStrAt src off := by
  rw [fromStrAt_wrap, fromStrAt_eq hb]
  exact P.run_fits hb _ ⟨rfl, by simp⟩

theorem literalFromStrAt_fits {src : List Char} {off : Nat} (hb : off + src.length < u32Size) :
    literalFromStrAt src (UInt32.ofNat off) = literalFromStrAt src off := by
  rw [literalFromStrAt_wrap, literalFromStrAt_eq hb,
    wrapSpan_of_lt (s := ⟨off, off + src.length⟩) (by show off < _; omega) hb]

/-- How a text is registered. -/
theorem Release.getCursor_eq {ε : Type} {sm : SourceMap} {f : FileInfo} (hf : sm.files.getLast? = some f)
    (src : List Char) : Release.getCursor (ε := ε) sm src =
      .ok (⟨sm.files ++ [⟨src, wrapSpan ⟨f.span.hi + 1, f.span.hi + 1 + src.length⟩,
        (linesOffsets src).2, []⟩]⟩, ⟨src, UInt32.ofNat (f.span.hi + 1)⟩) := by
  unfold Release.getCursor Release.addFile Release.nextStartPos
  rw [hf]
  have e : (linesOffsets src).1 = src.length := by rw [linesOffsets_eq]
  simp only [Res.ok_bind]
  have h1 : wrapAddU32 f.span.hi 1 = (f.span.hi + 1) % 2 ^ 32 := rfl
  have h2 : wrapAddU32 (wrapAddU32 f.span.hi 1) (asU32 (linesOffsets src).1) =
      (f.span.hi + 1 + src.length) % 2 ^ 32 := by
    rw [e]; unfold wrapAddU32 asU32 u32Size; omega
  have h3 : UInt32.ofNat ((f.span.hi + 1) % 2 ^ 32) = UInt32.ofNat (f.span.hi + 1) := by
    apply UInt32.toNat.inj; simp
  rw [h2, h1, h3]
  rfl

theorem Release.getCursor_fits {ε : Type} {sm : SourceMap} (h : sm.WF) {src : List Char}
    (hfit : sm.nextPos + src.length < u32Size) : ∃ sm',
      PM2.getCursor (ε := ε) sm src = .ok (sm', ⟨src, sm.nextPos⟩) ∧
      Release.getCursor (ε := ε) sm src = .ok (sm', ⟨src, UInt32.ofNat sm.nextPos⟩) := by
  obtain ⟨g, hg1, hg2⟩ := h.next
  refine ⟨_, ?_, by rw [Release.getCursor_eq hg1, hg2]⟩
  unfold PM2.getCursor SourceMap.addFile SourceMap.nextStartPos
  rw [hg1, wrapSpan_of_lt (s := ⟨g.span.hi + 1, g.span.hi + 1 + src.length⟩)
    (by show g.span.hi + 1 < _; omega) (by show g.span.hi + 1 + _ < _; omega)]
  simp only
  have h1 : asU32 (linesOffsets src).1 = src.length := by
    rw [linesOffsets_eq]; exact Nat.mod_eq_of_lt (by omega)
  unfold addU32
  rw [if_pos (by omega), Res.ok_bind, h1, ← hg2, if_pos hfit]
  rfl

end
end PM2
