import Verif.Spec.Size
import Verif.Spec.Tokens
import Verif.Proof.Big
import Verif.Proof.Leaves
import Verif.Proof.Print
import Verif.Proof.Tile
/-! # Proofs about the size of parsed streams -/

set_option linter.unusedSectionVars false

namespace PM2
open Spec

theorem sum_utf8 (s : List Char) : (s.map Char.utf8Size).sum = strLen s := by
  induction s with
  | nil => rfl
  | cons c s ih => simp [ih]

theorem delims_size (d : Delimiter) (e : Bool) :
    strLen (displayOpen d) + strLen (displayClose d) + strLen (if d == .brace && !e then [' '] else []) ≤ 4 := by
  cases d <;> cases e <;> decide

theorem sep_size (first joint : Bool) : strLen (if !first && !joint then [' '] else []) ≤ 1 := by
  cases first <;> cases joint <;> decide

@[simp] theorem treesCount_append (a b : List TokenTree) : treesCount (a ++ b) = treesCount a + treesCount b := by
  induction a with
  | nil => simp [treesCount]
  | cons t a ih => simp only [List.cons_append, treesCount, ih]; omega

@[simp] theorem treesBytes_append (a b : List TokenTree) : treesBytes (a ++ b) = treesBytes a + treesBytes b := by
  induction a with
  | nil => simp [treesBytes]
  | cons t a ih => simp only [List.cons_append, treesBytes, ih]; omega

mutual
theorem treeCount_mapSpan (f : Span → Span) : ∀ t : TokenTree, treeCount (mapSpanTree f t) = treeCount t
  | .group d ts s => by simp [mapSpanTree, treeCount, treesCount_mapSpan f ts]
  | .ident _ _ _ => rfl
  | .punct _ _ _ => rfl
  | .literal _ _ => rfl
theorem treesCount_mapSpan (f : Span → Span) : ∀ ts : List TokenTree, treesCount (mapSpan f ts) = treesCount ts
  | [] => rfl
  | t :: ts => by simp [mapSpan, treesCount, treeCount_mapSpan f t, treesCount_mapSpan f ts]
end

mutual
theorem treeBytes_mapSpan (f : Span → Span) : ∀ t : TokenTree, treeBytes (mapSpanTree f t) = treeBytes t
  | .group d ts s => by simp [mapSpanTree, treeBytes, treesBytes_mapSpan f ts]
  | .ident _ _ _ => rfl
  | .punct _ _ _ => rfl
  | .literal _ _ => rfl
theorem treesBytes_mapSpan (f : Span → Span) : ∀ ts : List TokenTree, treesBytes (mapSpan f ts) = treesBytes ts
  | [] => rfl
  | t :: ts => by simp [mapSpan, treesBytes, treeBytes_mapSpan f t, treesBytes_mapSpan f ts]
end

theorem treesDepth_append (a b : List TokenTree) : treesDepth (a ++ b) = max (treesDepth a) (treesDepth b) := by
  induction a with
  | nil => simp [treesDepth]
  | cons t a ih => simp only [List.cons_append, treesDepth, ih, Nat.max_assoc]

mutual
theorem treeDepth_mapSpan (f : Span → Span) : ∀ t : TokenTree, treeDepth (mapSpanTree f t) = treeDepth t
  | .group d ts s => by simp [mapSpanTree, treeDepth, treesDepth_mapSpan f ts]
  | .ident _ _ _ => rfl
  | .punct _ _ _ => rfl
  | .literal _ _ => rfl
theorem treesDepth_mapSpan (f : Span → Span) : ∀ ts : List TokenTree, treesDepth (mapSpan f ts) = treesDepth ts
  | [] => rfl
  | t :: ts => by simp [mapSpan, treesDepth, treeDepth_mapSpan f t, treesDepth_mapSpan f ts]
end

/-! ### Escapes -/

theorem hexDigitLower_size (n : Nat) : (hexDigitLower (n % 16)).utf8Size = 1 := by
  have : ∀ d < 16, (hexDigitLower d).utf8Size = 1 := by decide
  exact this _ (Nat.mod_lt _ (by decide))

theorem stripZeros_length (s : List Char) : (stripZeros s).length ≤ s.length := by
  fun_induction stripZeros s <;> simp_all <;> omega

theorem stripZeros_bytes (s : List Char) : strLen (stripZeros s) ≤ strLen s := by
  fun_induction stripZeros s with
  | case1 d t ih => simp only [strLen_cons] at ih ⊢; omega
  | case2 => omega
  | case3 => omega

theorem escapeUnicode_bytes (c : Char) : strLen (escapeUnicode c) ≤ 6 * c.utf8Size := by
  have hd := hexDigitLower_size
  have h6 : '\\'.utf8Size = 1 ∧ 'u'.utf8Size = 1 ∧ '{'.utf8Size = 1 ∧ '}'.utf8Size = 1 ∧ '0'.utf8Size = 1 := by decide
  obtain ⟨e1, e2, e3, e4, e5⟩ := h6
  unfold escapeUnicode
  simp only [strLen_append, strLen_cons, strLen_nil, e1, e2, e3, e4]
  by_cases h : c.toNat < 128
  · have hz : ∀ k, 2 ≤ k → c.toNat / 16 ^ k % 16 = 0 := by
      intro k hk
      have : 16 ^ 2 ≤ 16 ^ k := Nat.pow_le_pow_right (by decide) hk
      rw [Nat.div_eq_of_lt (by omega)]
    rw [hz 5 (by decide), hz 4 (by decide), hz 3 (by decide), hz 2 (by decide)]
    have h0 : hexDigitLower 0 = '0' := by decide
    rw [h0]
    have h1 := hd (c.toNat / 16 ^ 1)
    have h2 := hd (c.toNat / 16 ^ 0)
    have hp := utf8Size_pos c
    generalize hexDigitLower (c.toNat / 16 ^ 1 % 16) = x at h1
    generalize hexDigitLower (c.toNat / 16 ^ 0 % 16) = y at h2
    have : strLen (stripZeros ['0', '0', '0', '0', x, y]) ≤ 2 := by
      refine Nat.le_trans (m := strLen (stripZeros [x, y])) ?_ (Nat.le_trans (stripZeros_bytes _) ?_)
      · simp [stripZeros]
      · simp [h1, h2]
    omega
  · have hs : 2 ≤ c.utf8Size := by
      rcases Nat.lt_or_ge c.utf8Size 2 with h' | h'
      · have hp := utf8Size_pos c
        have h1 : c.utf8Size = 1 := by omega
        rw [Char.utf8Size_eq_one_iff] at h1
        have : c.val.toNat ≤ 127 := h1
        have : c.toNat ≤ 127 := this
        omega
      · exact h'
    have h1 := stripZeros_bytes [hexDigitLower (c.toNat / 16 ^ 5 % 16), hexDigitLower (c.toNat / 16 ^ 4 % 16),
      hexDigitLower (c.toNat / 16 ^ 3 % 16), hexDigitLower (c.toNat / 16 ^ 2 % 16), hexDigitLower (c.toNat / 16 ^ 1 % 16),
      hexDigitLower (c.toNat / 16 ^ 0 % 16)]
    simp only [strLen_cons, strLen_nil, hd] at h1
    omega

section
variable [UnicodeTables]

theorem escapeDebug_bytes (c : Char) : strLen (escapeDebug c) ≤ 6 * c.utf8Size := by
  unfold escapeDebug
  have := escapeUnicode_bytes c
  have hp := utf8Size_pos c
  have h2 : ∀ d : Char, d.utf8Size = 1 → strLen ['\\', d] ≤ 6 * c.utf8Size := by
    intro d hd
    have : '\\'.utf8Size = 1 := by decide
    simp only [strLen_cons, strLen_nil, hd, this]
    omega
  repeat' split
  all_goals first | exact this | exact h2 _ (by decide) | (simp; omega)

theorem escapeUtf8_bytes (s : List Char) : strLen (escapeUtf8 s) ≤ 6 * strLen s := by
  induction s with
  | nil => simp [escapeUtf8]
  | cons c s ih =>
    have h1 := escapeDebug_bytes c
    have hp := utf8Size_pos c
    unfold escapeUtf8
    rw [strLen_append, strLen_cons]
    refine Nat.le_trans (Nat.add_le_add (b := 6 * c.utf8Size) ?_ ih) (by omega)
    clear ih
    have h4 : strLen ['\\', 'x', '0', '0'] = 4 := by decide
    have h2 : strLen ['\\', '0'] = 2 := by decide
    repeat' split
    all_goals first | exact h1 | (rw [h4]; omega) | (rw [h2]; omega) | (simp; omega)

theorem litString_bytes (s : List Char) : strLen (litString s) ≤ 6 * strLen s + 2 := by
  have := escapeUtf8_bytes s
  have hq : '"'.utf8Size = 1 := by decide
  simp only [litString, strLen_cons, strLen_append, strLen_nil, hq]
  omega

/-! ### One item -/

theorem strLen_sub {a b s : List Char} (h : s = a ++ b) : strLen s = strLen a + strLen b := by rw [h, strLen_append]

theorem strLen_drop_le (n : Nat) (s : List Char) : strLen (s.drop n) ≤ strLen s := by
  have h := strLen_sub (List.take_append_drop n s).symm
  omega

theorem strLen_dropLast_le (s : List Char) : strLen s.dropLast ≤ strLen s := by
  rcases s.eq_nil_or_concat with rfl | ⟨t, c, rfl⟩
  · simp
  · simp

theorem doc_bytes {s content r : List Char} {inner : Bool} (h : P.doc s = some (content, inner, r)) :
    strLen content + 3 + strLen r ≤ strLen s := by
  have hline : ∀ p : List Char, p.length = 3 → strLen p = 3 → p <+: s → strLen (P.takeUntil (s.drop 3)).1 + 3 + strLen (P.takeUntil (s.drop 3)).2 ≤ strLen s := by
    rintro p hp hl ⟨t, rfl⟩
    have : (p ++ t).drop 3 = t := by rw [← hp]; simp
    rw [this, strLen_append, hl]
    obtain ⟨cr, h, -⟩ := P.takeUntil_spec t
    have := congrArg strLen h
    simp only [strLen_append] at this
    omega
  have hblock : ∀ p : List Char, p.length = 3 → strLen p = 3 → p <+: s → ∀ r', P.blockComment s = some r' →
      strLen ((P.eaten s r').drop 3).dropLast.dropLast + 3 + strLen r' ≤ strLen s := by
    intro p hp hl hs r' hr
    obtain ⟨t, ht, -⟩ := P.blockComment_open hr
    have he : P.eaten s r' = '/' :: '*' :: (t ++ ['*', '/']) := eaten_eq (by rw [ht]; simp)
    have e1 : '/'.utf8Size = 1 := rfl
    have e2 : '*'.utf8Size = 1 := rfl
    rw [he]
    rw [ht]
    cases t with
    | nil => simp [e1, e2]; omega
    | cons c t =>
      have : ((('/' :: '*' :: ((c :: t) ++ ['*', '/'])).drop 3).dropLast).dropLast = t := by
        simp only [List.cons_append, List.drop_succ_cons, List.drop_zero]
        rw [show t ++ ['*', '/'] = (t ++ ['*']) ++ ['/'] by simp, List.dropLast_concat, List.dropLast_concat]
      rw [this]
      simp only [strLen_cons, strLen_append, e1, e2]
      omega
  unfold P.doc at h
  split at h
  · rename_i content' inner' r' hc
    split at h
    · cases h
      unfold P.docContents at hc
      split at hc
      · rename_i hs
        cases hc
        exact hline _ rfl (by decide) (List.isPrefixOf_iff_prefix.mp hs)
      · split at hc
        · rename_i hs
          obtain ⟨r', h1, h2⟩ := Option.map_eq_some_iff.mp hc
          cases h2
          exact hblock _ rfl (by decide) (List.isPrefixOf_iff_prefix.mp hs) _ h1
        · split at hc
          · rename_i hs
            split at hc
            · cases hc
            · cases hc
              exact hline _ rfl (by decide) (List.isPrefixOf_iff_prefix.mp hs)
          · split at hc
            · rename_i hs
              split at hc
              · cases hc
              · obtain ⟨r', h1, h2⟩ := Option.map_eq_some_iff.mp hc
                cases h2
                exact hblock _ rfl (by decide) (List.isPrefixOf_iff_prefix.mp hs) _ h1
            · cases hc
    · cases h
  · cases h

theorem leaf_bytes {s r : List Char} {l : P.Leaf} (h : P.leaf s = some (l, r)) (sp : Span) :
    1 + strLen r ≤ strLen s ∧ treeBytes (l.tok sp) + strLen r ≤ strLen s ∧ treeCount (l.tok sp) = 1 ∧ treeDepth (l.tok sp) = 0 := by
  obtain ⟨x, h1, h2⟩ := P.leaf_spec h sp
  have h3 := (P.leaf_suffix h).2
  have h4 := strLen_sub h1
  have h5 := length_le_strLen x
  rw [h1, List.length_append] at h3
  refine ⟨by omega, ?_, ?_, ?_⟩
  · cases l <;> simp only [P.Leaf.tok] at h2 <;> cases h2 <;> simp only [P.Leaf.tok, treeBytes, sum_utf8] at *
    · omega
    · simp only [strLen_cons] at h4; omega
    · omega
    · omega
  · cases l <;> rfl
  · cases l <;> rfl

/-- the size of what is read from a text -/
structure Small (s : List Char) (ts : List TokenTree) (q : List Char) : Prop where
  count : treesCount ts + 2 * strLen q ≤ 2 * strLen s
  bytes : treesBytes ts + 6 * strLen q ≤ 6 * strLen s
  depth : 2 * treesDepth ts + strLen q ≤ strLen s

theorem P.skipWs_len (s : List Char) : strLen (P.skipWs s) ≤ strLen s := by
  obtain ⟨t, h⟩ := P.skipWs_suffix s
  have := strLen_sub h.symm
  omega

theorem P.next_doc_bytes {s content s1 r : List Char} {inner : Bool} (h : P.next s = .doc content inner s1 r) :
    strLen content + 3 + strLen r ≤ strLen s := by
  have hw := P.skipWs_len s
  unfold P.next P.next1 at h
  split at h
  · rename_i hd
    cases h
    have := doc_bytes hd
    omega
  · repeat' split at h
    all_goals cases h

theorem P.next_leaf_bytes {s s1 r : List Char} {l : P.Leaf} (h : P.next s = .leaf l s1 r) (sp : Span) :
    1 + strLen r ≤ strLen s ∧ treeBytes (l.tok sp) + strLen r ≤ strLen s ∧ treeCount (l.tok sp) = 1 ∧ treeDepth (l.tok sp) = 0 := by
  have hw := P.skipWs_len s
  unfold P.next P.next1 at h
  split at h
  · cases h
  · split at h
    · cases h
    · split at h
      · cases h
      · split at h
        · cases h
        · split at h
          · rename_i hl
            cases h
            obtain ⟨h1, h2, h3⟩ := leaf_bytes hl sp
            exact ⟨by omega, by omega, h3⟩
          · cases h

theorem suffix_lt {r s : List Char} (h : r <:+ s) (hl : r.length < s.length) : 1 + strLen r ≤ strLen s := by
  obtain ⟨t, rfl⟩ := h
  have := length_le_strLen t
  simp only [List.length_append] at hl
  rw [strLen_append]
  omega

theorem P.Lex.small {E : Nat} {s q : List Char} {ts : List TokenTree} (h : P.Lex E s ts q) : Small s ts q := by
  induction h with
  | eof _ => exact ⟨by simp [treesCount], by simp [treesBytes], by simp [treesDepth]⟩
  | @cls s d s1 r hn =>
    have := P.next_facts s
    rw [hn] at this
    have hw := P.skipWs_len s
    rw [this.1]
    exact ⟨by simp [treesCount]; omega, by simp [treesBytes]; omega, by simp [treesDepth]; omega⟩
  | @doc s content inner s1 r ts q hn _ ih =>
    have h1 := P.next_doc_bytes hn
    have h2 := litString_bytes content
    obtain ⟨i1, i2, i3⟩ := ih
    have hd : strLen ['d', 'o', 'c'] = 3 := by decide
    refine ⟨?_, ?_, ?_⟩
    · rw [treesCount_append]
      have : treesCount (P.docTokens content inner ⟨E - s1.length, E - r.length⟩) ≤ 6 := by
        cases inner <;> simp [P.docTokens, treesCount, treeCount]
      omega
    · rw [treesBytes_append]
      have : treesBytes (P.docTokens content inner ⟨E - s1.length, E - r.length⟩) = 3 + strLen (litString content) := by
        cases inner <;> simp only [P.docTokens, treesBytes, treeBytes, sum_utf8, hd, List.append_nil, List.cons_append, List.nil_append,
          Bool.false_eq_true, if_false, if_true] <;> omega
      omega
    · rw [treesDepth_append]
      have : treesDepth (P.docTokens content inner ⟨E - s1.length, E - r.length⟩) = 1 := by
        cases inner <;> simp [P.docTokens, treesDepth, treeDepth]
      omega
  | @leaf s l s1 r ts q hn _ ih =>
    obtain ⟨h1, h2, h3, h4⟩ := P.next_leaf_bytes hn ⟨E - s1.length, E - r.length⟩
    obtain ⟨i1, i2, i3⟩ := ih
    exact ⟨by simp only [treesCount, h3]; omega, by simp only [treesBytes]; omega, by simp only [treesDepth, h4]; omega⟩
  | @group s d s1 r inner c r1 ts q hn _ hc _ ih1 ih2 =>
    have h1 := P.next_facts s
    rw [hn] at h1
    have h2 := suffix_lt h1.2.1 h1.2.2
    have h3 := utf8Size_pos c
    obtain ⟨i1, i2, i3⟩ := ih1
    obtain ⟨j1, j2, j3⟩ := ih2
    simp only [strLen_cons] at i1 i2 i3
    exact ⟨by simp only [treesCount, treeCount]; omega, by simp only [treesBytes, treeBytes]; omega,
      by simp only [treesDepth, treeDepth]; omega⟩

theorem stripBom_len (s : List Char) : strLen (P.stripBom s) ≤ strLen s := by
  unfold P.stripBom
  split
  · exact strLen_drop_le _ _
  · omega

theorem run_small {E : Nat} {src : List Char} {ts : List TokenTree}
    (h : P.run E ((P.stripBom src).length + 1) ⟨P.stripBom src, [], []⟩ = .ok ts) :
    treesCount ts ≤ 2 * strLen src ∧ treesBytes ts ≤ 6 * strLen src ∧ 2 * treesDepth ts ≤ strLen src := by
  rw [P.run_ok_iff (by omega)] at h
  obtain ⟨h1, h2, h3⟩ := h.small
  have := stripBom_len src
  simp only [strLen_nil] at h1 h2 h3
  omega

/-! ### Printed -/

theorem leafText_display {t : TokenTree} {x : List Char} (h : LeafText t x) : displayTree t = x := by
  cases h <;> simp [displayTree, displayIdent]

theorem P.next_leaf_printed {s s1 r : List Char} {l : P.Leaf} (h : P.next s = .leaf l s1 r) (sp : Span) :
    strLen (displayTree (l.tok sp)) + 1 + 6 * strLen r ≤ 6 * strLen s := by
  obtain ⟨h1, -⟩ := P.next_leaf_bytes h sp
  have hl := (P.next_leaf h).1
  obtain ⟨x, h2, h3⟩ := P.leaf_spec hl sp
  have h4 := strLen_sub h2
  have hf := P.next_facts s
  rw [h] at hf
  have hw := P.skipWs_len s
  rw [← hf.1] at hw
  rw [leafText_display h3]
  omega

theorem P.Lex.printed {E : Nat} {s q : List Char} {ts : List TokenTree} (h : P.Lex E s ts q) :
    ∀ first joint, strLen (displayLoop ts first joint) + 6 * strLen q ≤ 6 * strLen s := by
  induction h with
  | eof _ => intro f j; simp [displayLoop]
  | @cls s d s1 r hn =>
    intro f j
    have := P.next_facts s
    rw [hn] at this
    have hw := P.skipWs_len s
    rw [this.1]
    simp [displayLoop]
    omega
  | @doc s content inner s1 r ts q hn _ ih =>
    intro f j
    have h1 := P.next_doc_bytes hn
    have h2 := litString_bytes content
    have i := ih false false
    have h3 := sep_size f j
    have hc : ∀ c ∈ ['#', '!', '[', ']', 'd', 'o', 'c', '=', ' '], c.utf8Size = 1 := by decide
    have c1 := hc '#' (by decide); have c2 := hc '!' (by decide); have c3 := hc '[' (by decide)
    have c4 := hc ']' (by decide); have c5 := hc 'd' (by decide); have c6 := hc 'o' (by decide)
    have c7 := hc 'c' (by decide); have c8 := hc '=' (by decide); have c9 := hc ' ' (by decide)
    have hd : strLen (displayLoop (P.docTokens content inner ⟨E - s1.length, E - r.length⟩ ++ ts) f j) ≤
        strLen (if !f && !j then [' '] else []) + 12 + strLen (litString content) + strLen (displayLoop ts false false) := by
      cases inner <;>
      · simp [P.docTokens, displayLoop, displayTree, displayOpen, displayClose, displayIdent, jointAfter, c1, c2, c3, c4, c5, c6,
          c7, c8, c9]
        omega
    omega
  | @leaf s l s1 r ts q hn _ ih =>
    intro f j
    have h1 := P.next_leaf_printed hn ⟨E - s1.length, E - r.length⟩
    have i := ih false (jointAfter (l.tok ⟨E - s1.length, E - r.length⟩))
    have h3 := sep_size f j
    simp only [displayLoop, strLen_append]
    omega
  | @group s d s1 r inner c r1 ts q hn _ hc _ ih1 ih2 =>
    intro f j
    have h1 := P.next_facts s
    rw [hn] at h1
    have h2 := suffix_lt h1.2.1 h1.2.2
    have i1 := ih1 true false
    have i2 := ih2 false false
    have h3 := sep_size f j
    have h4 := delims_size d inner.isEmpty
    have hp := utf8Size_pos c
    simp only [displayLoop, displayTree, jointAfter, strLen_append, strLen_cons] at *
    omega

theorem run_printed {E : Nat} {src : List Char} {ts : List TokenTree}
    (h : P.run E ((P.stripBom src).length + 1) ⟨P.stripBom src, [], []⟩ = .ok ts) : strLen (display ts) ≤ 6 * strLen src := by
  rw [P.run_ok_iff (by omega)] at h
  have h1 := h.printed true false
  have := stripBom_len src
  unfold display
  simp only [strLen_nil] at h1
  omega

end

end PM2
