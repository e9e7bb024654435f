import Verif.Proof.Refine5
/-! # Refinement, part 6: doc comments and the token stream machine -/

set_option linter.unusedSectionVars false

namespace PM2

variable {ο : Type} [Pos ο] [LawfulPos ο]

section
variable [UnicodeTables]

/-! ### Doc comments -/

theorem P.block_open {s r : List Char} {d : Nat} (hd : 1 ≤ d) (h : P.block s d = some r) :
    ∃ t, s = t ++ '*' :: '/' :: r := by
  fun_induction P.block s d with
  | case1 c0 c1 s d hc ih =>
    obtain ⟨t, rfl⟩ := ih (by omega) h
    exact ⟨c0 :: c1 :: t, rfl⟩
  | case2 c0 c1 s d hc1 hc2 hd =>
    simp at h; subst h
    obtain ⟨rfl, rfl⟩ := hc2
    exact ⟨[], rfl⟩
  | case3 c0 c1 s d hc1 hc2 hd' ih =>
    obtain ⟨t, rfl⟩ := ih (by omega) h
    exact ⟨c0 :: c1 :: t, rfl⟩
  | case4 c0 c1 s d hc1 hc2 ih =>
    obtain ⟨t, ht⟩ := ih hd h
    exact ⟨c0 :: t, by simp [ht]⟩
  | case5 => simp at h

theorem P.blockComment_open {s r : List Char} (h : P.blockComment s = some r) :
    ∃ t, s = '/' :: '*' :: (t ++ '*' :: '/' :: r) ∧ P.block (t ++ '*' :: '/' :: r) 1 = some r := by
  unfold P.blockComment at h
  split at h
  · rename_i hs
    obtain ⟨u, rfl⟩ := startsWith_iff.mp hs
    simp only [List.cons_append, List.nil_append, P.block, and_self, if_true] at h
    obtain ⟨t, rfl⟩ := P.block_open (by omega) h
    exact ⟨t, rfl, h⟩
  · simp at h

/-- The text of a block doc comment starting with `/*c`, when it is not closed at once. -/
theorem P.docBlock {s r u : List Char} {c : Char} (hs : s = '/' :: '*' :: c :: u)
    (hc : c = '*' → startsWithChar u '/' = false) (h : P.blockComment s = some r) :
    ∃ t, s = '/' :: '*' :: c :: (t ++ '*' :: '/' :: r) ∧
      ((P.eaten s r).drop 3).dropLast.dropLast = t ∧
      P.eaten s r = '/' :: '*' :: c :: (t ++ ['*', '/']) := by
  obtain ⟨t, ht, -⟩ := P.blockComment_open h
  rw [hs] at ht
  simp only [List.cons.injEq, true_and] at ht
  cases t with
  | nil =>
    simp only [List.nil_append, List.cons.injEq] at ht
    obtain ⟨h1, h2⟩ := ht
    have := hc h1
    simp [h2, startsWithChar] at this
  | cons c' t =>
    simp only [List.cons_append, List.cons.injEq] at ht
    obtain ⟨rfl, rfl⟩ := ht
    have he : P.eaten s r = '/' :: '*' :: c :: (t ++ ['*', '/']) :=
      eaten_eq (by rw [hs]; simp)
    refine ⟨t, hs, ?_, he⟩
    rw [he]
    simp only [List.drop_succ_cons, List.drop_zero]
    rw [show t ++ ['*', '/'] = (t ++ ['*']) ++ ['/'] by simp, List.dropLast_concat,
      List.dropLast_concat]

theorem slice_doc {ε : Type} {c : Char} (hc : c.utf8Size = 1) (t : List Char) :
    (if strLen ('/' :: '*' :: c :: (t ++ ['*', '/'])) < 2 then Res.panic
      else slice (ε := ε) ('/' :: '*' :: c :: (t ++ ['*', '/'])) 3
        (strLen ('/' :: '*' :: c :: (t ++ ['*', '/'])) - 2)) = .ok t := by
  have h1 : '/'.utf8Size = 1 := rfl
  have h2 : '*'.utf8Size = 1 := rfl
  have hl : strLen ('/' :: '*' :: c :: (t ++ ['*', '/'])) = strLen t + 5 := by
    simp only [strLen_cons, strLen_append, strLen_nil, h1, h2, hc]; omega
  rw [hl, if_neg (by omega)]
  unfold slice
  rw [if_neg (by omega)]
  rw [splitAtByte_eq (s := '/' :: '*' :: c :: (t ++ ['*', '/'])) (a := ['/', '*', c])
      (b := t ++ ['*', '/']) rfl (by simp [h1, h2, hc])]
  rw [splitAtByte_eq (s := '/' :: '*' :: c :: (t ++ ['*', '/'])) (a := '/' :: '*' :: c :: t)
      (b := ['*', '/']) rfl (by simp [h1, h2, hc]; omega)]
  simp

theorem docCommentContents_eq {c : Cursor ο} (hb : Bnd c)
    (hne : startsWith c.rest ['/', '*', '*', '/'] = false) :
    docCommentContents c =
      lift2 c (·.2.2) (fun x => (x.1, x.2.1)) (P.docContents c.rest) := by
  unfold docCommentContents P.docContents
  have hdrop : c.rest.drop 3 <:+ c.rest := List.drop_suffix _ _
  have htu := P.takeUntil_suffix (c.rest.drop 3)
  split
  · rename_i h
    rw [advance_eq (n := 3) hb (startsWith_drop h) rfl, Res.ok_bind]
    simp only [List.length_cons, List.length_nil]
    rw [takeUntil_eq (hb.to hdrop), Res.ok_bind]
    simp only [Cursor.to_rest]
    rw [Cursor.to_to hdrop htu]; rfl
  · split
    · rename_i h
      obtain ⟨u, hu⟩ := startsWith_iff.mp h
      rw [blockComment_eq hb]
      cases hbc : P.blockComment c.rest with
      | none => rfl
      | some r =>
        obtain ⟨t, h1, h2, h3⟩ := P.docBlock (c := '!') (u := u) hu (fun h => absurd h (by decide)) hbc
        simp only [lift2_some, Res.ok_bind, h3, Option.map_some]
        rw [slice_doc rfl t]
        rw [h3] at h2; rw [h2]; rfl
    · split
      · rename_i h
        rw [advance_eq (n := 3) hb (startsWith_drop h) rfl, Res.ok_bind]
        simp only [List.length_cons, List.length_nil, Cursor.to_rest]
        by_cases hsl : startsWithChar (c.rest.drop 3) '/' = true
        · rw [if_pos hsl]; exact if_pos hsl
        · rw [if_neg hsl]
          refine (if_neg hsl).trans ?_
          rw [takeUntil_eq (hb.to hdrop), Res.ok_bind]
          simp only [Cursor.to_rest]
          rw [Cursor.to_to hdrop htu]; rfl
      · split
        · rename_i h
          obtain ⟨u, hu⟩ := startsWith_iff.mp h
          rw [sliceFrom_eq (n := 3) (startsWith_drop h) rfl, Res.ok_bind]
          simp only [List.length_cons, List.length_nil]
          split
          · rfl
          · rw [blockComment_eq hb]
            cases hbc : P.blockComment c.rest with
            | none => rfl
            | some r =>
              obtain ⟨t, h1, h2, h3⟩ := P.docBlock (c := '*') (u := u) hu (by
                intro _
                rw [hu] at hne
                cases u with
                | nil => rfl
                | cons x u => simpa [startsWithChar] using hne) hbc
              simp only [lift2_some, Res.ok_bind, h3, Option.map_some]
              rw [slice_doc rfl t]
              rw [h3] at h2; rw [h2]; rfl
        · rfl

theorem strFind_none {s : List Char} (h : strFind s '\r' = none) : P.noBareCr s = true := by
  induction s with
  | nil => rfl
  | cons c s ih =>
    simp only [strFind] at h
    split at h
    · simp at h
    · rename_i hc
      simp at h
      simp [P.noBareCr, hc, ih h]

theorem strFind_some {s : List Char} {i : Nat} (h : strFind s '\r' = some i) :
    ∃ t r, s = t ++ '\r' :: r ∧ i = strLen t ∧
      P.noBareCr s = (startsWithChar r '\n' && P.noBareCr r) := by
  induction s generalizing i with
  | nil => simp [strFind] at h
  | cons c s ih =>
    simp only [strFind] at h
    split at h
    · rename_i hc
      simp at h; subst h
      exact ⟨[], s, by simp [hc], by simp, by simp [P.noBareCr, hc]⟩
    · rename_i hc
      cases hf : strFind s '\r' with
      | none => rw [hf] at h; simp at h
      | some j =>
        rw [hf] at h; simp at h; subst h
        obtain ⟨t, r, rfl, rfl, hn⟩ := ih hf
        exact ⟨c :: t, r, rfl, by simp [Nat.add_comm], by simp [P.noBareCr, hc, hn]⟩

theorem scanBareCr_eq (fuel : Nat) (s : List Char) (h : s.length < fuel) :
    scanBareCr fuel s = if P.noBareCr s then .ok () else reject := by
  induction fuel generalizing s with
  | zero => omega
  | succ fuel ih =>
    unfold scanBareCr
    cases hf : strFind s '\r' with
    | none => simp [strFind_none hf]
    | some i =>
      obtain ⟨t, r, rfl, rfl, hn⟩ := strFind_some hf
      simp only
      rw [sliceFrom_eq (t := t ++ ['\r']) (r := r) (by simp) (by simp; rfl), Res.ok_bind, hn]
      simp at h
      cases hx : startsWithChar r '\n' with
      | false => rfl
      | true =>
        simp only [Bool.not_true, Bool.true_and]
        rw [if_neg (by simp), ih r (by omega)]

theorem P.docContents_suffix {s r content : List Char} {inner : Bool}
    (h : P.docContents s = some (content, inner, r)) : r <:+ s ∧ r.length < s.length := by
  have hdrop : s.drop 3 <:+ s := List.drop_suffix _ _
  have htu := P.takeUntil_suffix (s.drop 3)
  have line : ∀ {p : List Char}, startsWith s p = true → p.length = 3 →
      (P.takeUntil (s.drop 3)).2 <:+ s ∧ (P.takeUntil (s.drop 3)).2.length < s.length := by
    intro p hp hl
    refine ⟨htu.trans hdrop, ?_⟩
    obtain ⟨u, rfl⟩ := startsWith_iff.mp hp
    have := htu.length_le
    simp at this ⊢; omega
  have blk : ∀ {r : List Char}, P.blockComment s = some r → r <:+ s ∧ r.length < s.length := by
    intro r hr
    have := P.blockComment_suffix hr
    exact ⟨this.1, by omega⟩
  unfold P.docContents at h
  split at h
  · rename_i hp
    simp at h; obtain ⟨-, -, rfl⟩ := h; exact line hp rfl
  · split at h
    · cases hb : P.blockComment s with
      | none => rw [hb] at h; simp at h
      | some r' => rw [hb] at h; simp at h; obtain ⟨-, -, rfl⟩ := h; exact blk hb
    · split at h
      · rename_i hp
        split at h
        · simp at h
        · simp at h; obtain ⟨-, -, rfl⟩ := h; exact line hp rfl
      · split at h
        · split at h
          · simp at h
          · cases hb : P.blockComment s with
            | none => rw [hb] at h; simp at h
            | some r' => rw [hb] at h; simp at h; obtain ⟨-, -, rfl⟩ := h; exact blk hb
        · simp at h

theorem P.doc_some {s r content : List Char} {inner : Bool}
    (h : P.doc s = some (content, inner, r)) :
    P.docContents s = some (content, inner, r) ∧ P.noBareCr content = true := by
  unfold P.doc at h
  cases hd : P.docContents s with
  | none => rw [hd] at h; simp at h
  | some x =>
    obtain ⟨c', i', r'⟩ := x
    rw [hd] at h
    simp only at h
    split at h
    · rename_i hn
      simp at h; obtain ⟨rfl, rfl, rfl⟩ := h; exact ⟨rfl, hn⟩
    · simp at h

theorem P.doc_suffix {s r content : List Char} {inner : Bool}
    (h : P.doc s = some (content, inner, r)) : r <:+ s ∧ r.length < s.length :=
  P.docContents_suffix (P.doc_some h).1

theorem docComment_eq {c : Cursor ο} (hb : Bnd c)
    (hne : startsWith c.rest ['/', '*', '*', '/'] = false) :
    docComment c = lift2 c (·.2.2)
      (fun x => P.docTokens x.1 x.2.1 (Pos.span c.off (c.to x.2.2).off)) (P.doc c.rest) := by
  unfold docComment P.doc
  rw [docCommentContents_eq hb hne]
  cases h : P.docContents c.rest with
  | none => rfl
  | some x =>
    obtain ⟨content, inner, r⟩ := x
    simp only [lift2_some, Res.ok_bind]
    rw [scanBareCr_eq _ _ (by omega)]
    cases P.noBareCr content with
    | false => rfl
    | true =>
      rw [punctNew_eq (by decide), punctNew_eq (by decide), punctNew_eq (by decide)]
      cases inner <;> rfl

theorem P.triv1_skipWs (s : List Char) : P.triv1 (P.skipWs s) = none := by
  induction hn : s.length using Nat.strongRecOn generalizing s with
  | _ n ih =>
    rw [P.skipWs_eq]
    cases h : P.triv1 s with
    | none => exact h
    | some r =>
      have := P.triv1_suffix h
      exact ih _ (by omega) r rfl

theorem P.triv1_none_doc {s : List Char} (h : P.triv1 s = none) :
    startsWith s ['/', '*', '*', '/'] = false := by
  cases hs : startsWith s ['/', '*', '*', '/'] with
  | false => rfl
  | true =>
    exfalso
    obtain ⟨u, rfl⟩ := startsWith_iff.mp hs
    simp [P.triv1] at h

/-! ### The token stream machine on the remaining text -/

/-- What follows at the head of the remaining text. `s1` is the text after skipping trivia, `r` the
text after the item. -/
inductive P.Next where
  | doc (content : List Char) (inner : Bool) (s1 r : List Char)
  | eof
  | opn (d : Delimiter) (s1 r : List Char)
  | cls (d : Delimiter) (s1 r : List Char)
  | leaf (l : P.Leaf) (s1 r : List Char)
  | bad (s1 : List Char)

def P.openD (s : List Char) (c : Char) : Option Delimiter :=
  if c = '(' && !startsWith s errorRepr then some .parenthesis
  else if c = '[' then some .bracket
  else if c = '{' then some .brace
  else none

def P.closeD (c : Char) : Option Delimiter :=
  if c = ')' then some .parenthesis
  else if c = ']' then some .bracket
  else if c = '}' then some .brace
  else none

/-- the item at the head of `s1`, which has no leading trivia -/
def P.next1 (s1 : List Char) : P.Next :=
  match P.doc s1 with
  | some (content, inner, r) => .doc content inner s1 r
  | none =>
    match s1 with
    | [] => .eof
    | c :: r =>
      match P.openD s1 c with
      | some d => .opn d s1 r
      | none =>
        match P.closeD c with
        | some d => .cls d s1 r
        | none =>
          match P.leaf s1 with
          | some (l, r) => .leaf l s1 r
          | none => .bad s1

def P.next (s : List Char) : P.Next := P.next1 (P.skipWs s)

structure P.St where
  rest : List Char
  tokens : List TokenTree
  stack : List Frame

/-- `lexStep` on the remaining text. `E` is the position of the end of the source, so the position
of a suffix `r` is `E - r.length`. -/
def P.step (E : Nat) (st : P.St) : Res Span (P.St ⊕ List TokenTree) :=
  match P.next st.rest with
  | .doc content inner s1 r =>
    .ok (.inl ⟨r, st.tokens ++ P.docTokens content inner ⟨E - s1.length, E - r.length⟩, st.stack⟩)
  | .eof =>
    match st.stack with
    | [] => .ok (.inr st.tokens)
    | f :: _ => .err ⟨f.lo, f.lo⟩
  | .opn d s1 r => .ok (.inl ⟨r, [], ⟨E - s1.length, d, st.tokens⟩ :: st.stack⟩)
  | .cls d s1 r =>
    match st.stack with
    | [] => .err ⟨E - s1.length, E - s1.length⟩
    | f :: stack =>
      if f.delim ≠ d then .err ⟨E - s1.length, E - s1.length⟩
      else .ok (.inl ⟨r, f.outer ++ [.group f.delim st.tokens ⟨f.lo, E - r.length⟩], stack⟩)
  | .leaf l s1 r => .ok (.inl ⟨r, st.tokens ++ [l.tok ⟨E - s1.length, E - r.length⟩], st.stack⟩)
  | .bad s1 => .err ⟨E - s1.length, E - s1.length⟩

def P.run (E : Nat) : Nat → P.St → Res Span (List TokenTree)
  | 0, _ => .diverge
  | fuel + 1, st =>
    match P.step E st with
    | .ok (.inl st) => P.run E fuel st
    | .ok (.inr ts) => .ok ts
    | .err e => .err e
    | .panic => .panic
    | .diverge => .diverge

/-- The state of the transcription at remaining text `r`. -/
def P.St.at (E : Nat) (st : P.St) : LState Nat := ⟨⟨st.rest, E - st.rest.length⟩, st.tokens, st.stack⟩

def P.liftSt (E : Nat) : Res Span (P.St ⊕ List TokenTree) → Res Span (LState Nat ⊕ List TokenTree)
  | .ok (.inl st) => .ok (.inl (st.at E))
  | .ok (.inr ts) => .ok (.inr ts)
  | .err e => .err e
  | .panic => .panic
  | .diverge => .diverge

theorem P.next1_suffix (s : List Char) :
    match P.next1 s with
    | .doc _ _ s1 r => s1 = s ∧ r <:+ s ∧ r.length < s.length
    | .opn _ s1 r => s1 = s ∧ r <:+ s ∧ r.length < s.length
    | .cls _ s1 r => s1 = s ∧ r <:+ s ∧ r.length < s.length
    | .leaf _ s1 r => s1 = s ∧ r <:+ s ∧ r.length < s.length
    | .eof => s = []
    | .bad s1 => s1 = s := by
  unfold P.next1
  cases hd : P.doc s with
  | some x => obtain ⟨content, inner, r⟩ := x; exact ⟨rfl, P.doc_suffix hd⟩
  | none =>
    cases s with
    | nil => rfl
    | cons c r =>
      simp only
      cases ho : P.openD (c :: r) c with
      | some d => exact ⟨rfl, List.suffix_cons _ _, by simp⟩
      | none =>
        simp only
        cases hc : P.closeD c with
        | some d => exact ⟨rfl, List.suffix_cons _ _, by simp⟩
        | none =>
          simp only
          cases hl : P.leaf (c :: r) with
          | some x => obtain ⟨l, r'⟩ := x; exact ⟨rfl, P.leaf_suffix hl⟩
          | none => rfl

theorem openDelimiter_eq (cur : Cursor ο) {c : Char} {r : List Char} (h : cur.rest = c :: r)
    {b : UInt8} (hB : ∀ d : Char, d.toNat < 128 → (b = B d ↔ c = d)) :
    openDelimiter cur b = P.openD (c :: r) c := by
  unfold openDelimiter P.openD
  have h1 := hB '(' (by decide)
  have h2 := hB '[' (by decide)
  have h3 := hB '{' (by decide)
  simp only [h1, h2, h3, h]

theorem closeDelimiter_eq {c : Char} {b : UInt8}
    (hB : ∀ d : Char, d.toNat < 128 → (b = B d ↔ c = d)) :
    closeDelimiter b = P.closeD c := by
  unfold closeDelimiter P.closeD
  have h1 := hB ')' (by decide)
  have h2 := hB ']' (by decide)
  have h3 := hB '}' (by decide)
  simp only [h1, h2, h3]

theorem P.openD_ascii {s : List Char} {c : Char} {d : Delimiter} (h : P.openD s c = some d) :
    c.utf8Size = 1 := by
  unfold P.openD at h
  split at h
  · rename_i hc; simp at hc; rw [hc.1]; rfl
  · split at h
    · rename_i hc; rw [hc]; rfl
    · split at h
      · rename_i hc; rw [hc]; rfl
      · simp at h

theorem P.closeD_ascii {c : Char} {d : Delimiter} (h : P.closeD c = some d) :
    c.utf8Size = 1 := by
  unfold P.closeD at h
  split at h
  · rename_i hc; rw [hc]; rfl
  · split at h
    · rename_i hc; rw [hc]; rfl
    · split at h
      · rename_i hc; rw [hc]; rfl
      · simp at h

theorem P.Leaf.setSpan_tok (l : P.Leaf) (a b : Span) : (l.tok a).setSpan b = l.tok b := by
  cases l <;> rfl

theorem lexStep_eq {E : Nat} (hE : E < u32Size) (st : P.St) (hlen : st.rest.length ≤ E) :
    lexStep (st.at E) = P.liftSt E (P.step E st) := by
  have hb : Bnd (⟨st.rest, E - st.rest.length⟩ : Cursor Nat) := by
    show E - st.rest.length + st.rest.length < u32Size; omega
  have hs := P.skipWs_suffix st.rest
  have hto : ∀ r : List Char, r <:+ st.rest →
      (⟨st.rest, E - st.rest.length⟩ : Cursor Nat).to r = ⟨r, E - r.length⟩ := by
    intro r hr
    have := hr.length_le
    simp only [Cursor.to, Nat.move_eq]; congr 1; omega
  unfold lexStep P.step P.next
  simp only [P.St.at]
  rw [skipWhitespace_eq hb, Res.ok_bind, hto _ hs]
  simp only
  have htriv := P.triv1_skipWs st.rest
  generalize hs1 : P.skipWs st.rest = s1 at *
  have hl1 := hs.length_le
  have hb1 : Bnd (⟨s1, E - s1.length⟩ : Cursor Nat) := by
    show E - s1.length + s1.length < u32Size; omega
  have hto1 : ∀ r : List Char, r <:+ s1 →
      (⟨s1, E - s1.length⟩ : Cursor Nat).to r = ⟨r, E - r.length⟩ := by
    intro r hr
    have := hr.length_le
    simp only [Cursor.to, Nat.move_eq]; congr 1; omega
  rw [docComment_eq hb1 (P.triv1_none_doc htriv)]
  unfold P.next1
  simp only
  cases hd : P.doc s1 with
  | some x =>
    obtain ⟨content, inner, r⟩ := x
    simp only [lift2_some, Res.ifOk_ok]
    rw [hto1 r (P.doc_suffix hd).1]
    rfl
  | none =>
    simp only [lift2_none, Res.ifOk_err]
    cases s1 with
    | nil =>
      simp only [bytesOf_nil]
      cases st.stack <;> rfl
    | cons c r =>
      obtain ⟨b, l, e, hl, hB, hlt, hasc, hsz⟩ := bytes_cons c r
      rw [e]
      simp only
      rw [openDelimiter_eq ⟨c :: r, E - (c :: r).length⟩ rfl hB, closeDelimiter_eq hB]
      cases ho : P.openD (c :: r) c with
      | some d =>
        simp only
        rw [advance_eq hb1 (t := [c]) (r := r) rfl (by simp [P.openD_ascii ho]), Res.ok_bind,
          hto1 r (List.suffix_cons _ _)]
        rfl
      | none =>
        simp only
        cases hc : P.closeD c with
        | some d =>
          simp only
          cases st.stack with
          | nil => rfl
          | cons f stack =>
            simp only
            split
            · rfl
            · rw [advance_eq hb1 (t := [c]) (r := r) rfl (by simp [P.closeD_ascii hc]), Res.ok_bind,
                hto1 r (List.suffix_cons _ _)]
              rfl
        | none =>
          simp only
          rw [leafToken_eq hb1]
          simp only
          cases hlf : P.leaf (c :: r) with
          | none => rfl
          | some x =>
            obtain ⟨lf, r'⟩ := x
            simp only [lift2_some]
            rw [hto1 r' (P.leaf_suffix hlf).1, P.Leaf.setSpan_tok]
            rfl

theorem P.step_lt {E : Nat} {st st' : P.St} (h : P.step E st = .ok (.inl st')) :
    st'.rest <:+ st.rest ∧ st'.rest.length < st.rest.length := by
  have hs := P.skipWs_suffix st.rest
  have hl := hs.length_le
  have hn := P.next1_suffix (P.skipWs st.rest)
  unfold P.step P.next at h
  cases hx : P.next1 (P.skipWs st.rest) with
  | doc content inner s1 r =>
    rw [hx] at h hn; simp at h hn; subst h
    exact ⟨hn.2.1.trans hs, by simp; omega⟩
  | eof =>
    rw [hx] at h; simp only at h
    split at h <;> simp at h
  | opn d s1 r =>
    rw [hx] at h hn; simp at h hn; subst h
    exact ⟨hn.2.1.trans hs, by simp; omega⟩
  | cls d s1 r =>
    rw [hx] at h hn; simp only at h hn
    split at h
    · simp at h
    · split at h
      · simp at h
      · simp at h; subst h
        exact ⟨hn.2.1.trans hs, by simp; omega⟩
  | leaf l s1 r =>
    rw [hx] at h hn; simp at h hn; subst h
    exact ⟨hn.2.1.trans hs, by simp; omega⟩
  | bad s1 => rw [hx] at h; simp at h

theorem lexLoop_eq {E : Nat} (hE : E < u32Size) (fuel : Nat) : ∀ (st : P.St),
    st.rest.length ≤ E → lexLoop fuel (st.at E) = P.run E fuel st := by
  induction fuel with
  | zero => intro st h; rfl
  | succ fuel ih =>
    intro st h
    simp only [lexLoop, P.run]
    rw [lexStep_eq hE st h]
    cases hx : P.step E st with
    | ok y =>
      cases y with
      | inl st' =>
        simp only [P.liftSt]
        exact ih st' (by have := P.step_lt hx; omega)
      | inr ts => rfl
    | err e => rfl
    | panic => rfl
    | diverge => rfl

theorem P.step_total (E : Nat) (st : P.St) : P.step E st ≠ .panic ∧ P.step E st ≠ .diverge := by
  unfold P.step
  split
  · simp
  · split <;> simp
  · simp
  · split
    · simp
    · split <;> simp
  · simp
  · simp

theorem P.run_total (E : Nat) (fuel : Nat) : ∀ (st : P.St), st.rest.length < fuel →
    (∃ ts, P.run E fuel st = .ok ts) ∨ (∃ e, P.run E fuel st = .err e) := by
  induction fuel with
  | zero => intro st h; omega
  | succ fuel ih =>
    intro st h
    have ht := P.step_total E st
    simp only [P.run]
    cases hx : P.step E st with
    | ok y =>
      cases y with
      | inl st' => exact ih st' (by have := P.step_lt hx; omega)
      | inr ts => exact .inl ⟨ts, rfl⟩
    | err e => exact .inr ⟨e, rfl⟩
    | panic => exact absurd hx ht.1
    | diverge => exact absurd hx ht.2

/-- `token_stream` in terms of the pure machine. -/
theorem tokenStream_eq {c : Cursor Nat} (hb : Bnd c) :
    tokenStream c = P.run (c.off + c.rest.length) (c.rest.length + 1) ⟨c.rest, [], []⟩ := by
  have := lexLoop_eq (E := c.off + c.rest.length) hb (c.rest.length + 1) ⟨c.rest, [], []⟩ (by simp)
  unfold tokenStream
  rw [← this]
  simp [P.St.at]

/-- the source without a leading byte order mark -/
def P.stripBom (s : List Char) : List Char := if startsWith s ['\ufeff'] then s.drop 1 else s

theorem fromStrAt_eq {src : List Char} {off : Nat} (hb : off + src.length < u32Size) :
    fromStrAt src off =
      P.run (off + src.length) ((P.stripBom src).length + 1) ⟨P.stripBom src, [], []⟩ := by
  have hb' : Bnd (⟨src, off⟩ : Cursor Nat) := hb
  unfold fromStrAt P.stripBom
  by_cases h : startsWith src ['\ufeff'] = true
  · simp only [h, if_true]
    rw [advance_eq (n := 3) hb' (startsWith_drop h) rfl, Res.ok_bind]
    have hs : src.drop ['\ufeff'].length <:+ src := List.drop_suffix _ _
    have hl := hs.length_le
    rw [tokenStream_eq (hb'.to hs)]
    simp only [Cursor.to, Nat.move_eq, List.length_cons, List.length_nil]
    congr 1
    simp at hl ⊢; omega
  · simp only [h]
    rw [if_neg (by simp), Res.ok_bind, tokenStream_eq hb']
    simp

end
end PM2
