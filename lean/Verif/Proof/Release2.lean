import Verif.Model.Release
import Verif.Proof.SourceMap2
/-! # Span queries do not depend on overflow checks -/

namespace PM2
variable {ε : Type}

theorem Release.wrapSubU32_eq {a b : Nat} (h : b ≤ a) : Release.wrapSubU32 a b = a - b := by
  unfold Release.wrapSubU32; rw [if_neg (by omega)]

theorem Release.wrapSubUsize_eq {a b : Nat} (h : b ≤ a) : Release.wrapSubUsize a b = a - b := by
  unfold Release.wrapSubUsize; rw [if_neg (by omega)]

theorem Release.byte_eq {f : FileInfo} {ch : Nat} (h : f.span.lo ≤ ch) :
    Release.byte (ε := ε) f ch = f.byte ch := by
  unfold Release.byte FileInfo.byte
  rw [Release.wrapSubU32_eq h, if_neg (by omega)]

theorem Res.bind_ok {α β : Type} {r : Res ε α} {g : α → Res ε β} {y : β} (h : (r >>= g) = .ok y) :
    ∃ b, r = .ok b ∧ g b = .ok y := by
  cases r with
  | ok b => exact ⟨b, rfl, h⟩
  | err e => simp at h
  | panic => simp at h
  | diverge => simp at h

/-- looking up a byte offset only fills the cache -/
theorem FileInfo.byteAt_span {f f' : FileInfo} {k b : Nat} (h : f.byteAt (ε := ε) k = .ok (f', b)) :
    f'.span = f.span := by
  unfold FileInfo.byteAt at h
  revert h
  generalize (f.cache.floor k).getD (0, 0) = p
  obtain ⟨pc, pb⟩ := p
  simp only
  intro h
  split at h
  · simp at h; rw [← h.1]
  · obtain ⟨b', -, h⟩ := Res.bind_ok h
    simp at h; rw [← h.1]

theorem FileInfo.byte_span {f f' : FileInfo} {ch b : Nat} (h : f.byte (ε := ε) ch = .ok (f', b)) :
    f'.span = f.span := by
  unfold FileInfo.byte at h
  split at h
  · simp at h
  · exact FileInfo.byteAt_span h

theorem Release.byteRangeOf_eq {f : FileInfo} {s : Span} (h1 : f.span.lo ≤ s.lo) (h2 : f.span.lo ≤ s.hi) :
    Release.byteRangeOf (ε := ε) f s = f.byteRange s := by
  unfold Release.byteRangeOf FileInfo.byteRange
  rw [Release.byte_eq h1]
  cases hb : f.byte (ε := ε) s.lo with
  | ok x =>
    obtain ⟨g, a⟩ := x
    rw [Res.ok_bind, Res.ok_bind]
    simp only
    rw [Release.byte_eq (by rw [FileInfo.byte_span hb]; exact h2)]
  | err e => rfl
  | panic => rfl
  | diverge => rfl

theorem Release.sourceTextOf_eq {f : FileInfo} {s : Span} (h1 : f.span.lo ≤ s.lo) (h2 : f.span.lo ≤ s.hi) :
    Release.sourceTextOf (ε := ε) f s = f.sourceTextOf s := by
  unfold Release.sourceTextOf FileInfo.sourceTextOf
  rw [Release.byteRangeOf_eq h1 h2]

theorem withFile_congr {α : Type} {sm : SourceMap} {s : Span} {k k' : FileInfo → Res ε (FileInfo × α)}
    (h : ∀ f : FileInfo, f.span.lo ≤ s.lo → f.span.lo ≤ s.hi → k f = k' f) :
    sm.withFile s k = sm.withFile s k' := by
  unfold SourceMap.withFile
  cases hf : sm.find (ε := ε) s with
  | ok i =>
    obtain ⟨f, e, h1, -, h2, -⟩ := find_some hf
    rw [Res.ok_bind, Res.ok_bind, e]
    simp only
    rw [h f h1 h2]
  | err e => rfl
  | panic => rfl
  | diverge => rfl

/-- where the binary search stops -/
theorem bsearchLoop_stop {α : Type} {f : α → Res ε Ordering} {a : List α} :
    ∀ (fuel size base b : Nat), bsearchLoop f a fuel size base = .ok b →
      (base = 0 ∨ ∃ x c, a[base]? = some x ∧ f x = .ok c ∧ c ≠ .gt) →
      b = 0 ∨ ∃ x c, a[b]? = some x ∧ f x = .ok c ∧ c ≠ .gt := by
  intro fuel
  induction fuel with
  | zero => intro size base b h; simp [bsearchLoop] at h
  | succ fuel ih =>
    intro size base b h hb
    unfold bsearchLoop at h
    split at h
    · simp only at h
      split at h
      · simp at h
      · rename_i x hx
        cases hc : f x with
        | ok c =>
          rw [hc, Res.ok_bind] at h
          refine ih _ _ _ h ?_
          split
          · exact hb
          · rename_i hgt; exact .inr ⟨x, c, hx, hc, hgt⟩
        | err e => rw [hc] at h; simp at h
        | panic => rw [hc] at h; simp at h
        | diverge => rw [hc] at h; simp at h
    · simp at h; subst h; exact hb

theorem binarySearchBy_inr {α : Type} {f : α → Res ε Ordering} {a : List α} {i : Nat}
    (h : binarySearchBy f a = .ok (.inr i)) : i = 0 ∨ ∃ x, a[i - 1]? = some x ∧ f x = .ok .lt := by
  unfold binarySearchBy at h
  split at h
  · simp at h; exact .inl h.symm
  · cases hb : bsearchLoop f a (a.length + 1) a.length 0 with
    | ok base =>
      have hs := bsearchLoop_stop _ _ _ _ hb (.inl rfl)
      rw [hb, Res.ok_bind] at h
      cases hg : a[base]? with
      | none => rw [hg] at h; simp at h
      | some x =>
        rw [hg] at h
        simp only at h
        cases hf : f x with
        | ok c =>
          rw [hf, Res.ok_bind] at h
          cases c with
          | eq => simp at h
          | lt => simp at h; subst h; exact .inr ⟨x, by simpa using hg, hf⟩
          | gt =>
            simp at h; subst h
            rcases hs with rfl | ⟨y, c, hy, hc, hne⟩
            · exact .inl rfl
            · rw [hg] at hy
              cases hy
              rw [hf] at hc
              cases hc
              exact absurd rfl hne
        | err e => rw [hf] at h; simp at h
        | panic => rw [hf] at h; simp at h
        | diverge => rw [hf] at h; simp at h
    | err e => rw [hb] at h; simp at h
    | panic => rw [hb] at h; simp at h
    | diverge => rw [hb] at h; simp at h

theorem Release.offsetLineColumn_eq {f : FileInfo} {off : Nat} (hl : f.lines.length < 2 ^ 64)
    (h : f.span.lo ≤ off) : Release.offsetLineColumn (ε := ε) f off = f.offsetLineColumn off := by
  unfold Release.offsetLineColumn FileInfo.offsetLineColumn
  split
  · rfl
  · rw [if_neg (by omega), Release.wrapSubUsize_eq h]
    simp only
    generalize off - f.span.lo = k
    cases hb : binarySearchBy (ε := ε) (fun x => .ok (compare x k)) f.lines with
    | ok r =>
      rw [Res.ok_bind, Res.ok_bind]
      cases r with
      | inl i => rfl
      | inr i =>
        simp only
        rcases binarySearchBy_inr hb with rfl | ⟨x, hx, hc⟩
        · have e : f.lines[Release.wrapSubUsize 0 1]? = none := by
            apply List.getElem?_eq_none
            show _ ≤ 0 + 2 ^ 64 - 1
            omega
          rw [e, if_pos rfl]
        · by_cases hi : i = 0
          · subst hi
            have e : f.lines[Release.wrapSubUsize 0 1]? = none := by
              apply List.getElem?_eq_none
              show _ ≤ 0 + 2 ^ 64 - 1
              omega
            rw [e, if_pos rfl]
          · have hx' : x < k := by
              simp only [Res.ok.injEq] at hc
              exact Nat.compare_eq_lt.mp hc
            rw [if_neg hi, Release.wrapSubUsize_eq (by omega), hx]
            simp only
            rw [if_neg (by omega), Release.wrapSubUsize_eq (by omega)]
    | err e => rfl
    | panic => rfl
    | diverge => rfl

theorem fileinfo_some {sm : SourceMap} {s : Span} {f : FileInfo} (h : sm.fileinfo (ε := ε) s = .ok f) :
    f ∈ sm.files ∧ f.span.lo ≤ s.lo ∧ f.span.lo ≤ s.hi := by
  unfold SourceMap.fileinfo at h
  cases hf : sm.find (ε := ε) s with
  | ok i =>
    obtain ⟨g, e, h1, -, h2, -⟩ := find_some hf
    rw [hf, Res.ok_bind, e] at h
    simp at h; subst h
    exact ⟨List.mem_of_getElem? e, h1, h2⟩
  | err e => rw [hf] at h; simp at h
  | panic => rw [hf] at h; simp at h
  | diverge => rw [hf] at h; simp at h

end PM2
