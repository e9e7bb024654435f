import Verif.Proof.BSearch
import Verif.Spec.Text
/-! # Invariants of the source map -/

namespace PM2

variable {ε : Type}

/-! ### Lines -/

/-- positions following a line feed -/
def nlPos : List Char → Nat → List Nat
  | [], _ => []
  | c :: s, i => if c = '\n' then (i + 1) :: nlPos s (i + 1) else nlPos s (i + 1)

theorem linesOffsetsLoop_eq (s : List Char) (i : Nat) (ls : List Nat) :
    linesOffsetsLoop s i ls = (i + s.length, ls ++ nlPos s i) := by
  induction s generalizing i ls with
  | nil => simp [linesOffsetsLoop, nlPos]
  | cons c s ih =>
    simp only [linesOffsetsLoop, nlPos, ih]
    split <;> simp <;> omega

theorem linesOffsets_eq (s : List Char) : linesOffsets s = (s.length, 0 :: nlPos s 0) := by
  simp [linesOffsets, linesOffsetsLoop_eq]

theorem nlPos_gt (s : List Char) (i : Nat) : ∀ x ∈ nlPos s i, i < x := by
  induction s generalizing i with
  | nil => simp [nlPos]
  | cons c s ih =>
    intro x hx
    simp only [nlPos] at hx
    split at hx
    · simp at hx
      rcases hx with rfl | hx
      · omega
      · have := ih _ x hx; omega
    · have := ih _ x hx; omega

/-- Where the position `p` falls in the list of line starts. -/
theorem lines_find (s : List Char) : ∀ (i start p : Nat) (line : Nat), start ≤ i → i ≤ p →
    p ≤ i + s.length →
    ∃ K st, (start :: nlPos s i)[K]? = some st ∧ st ≤ p ∧
      (∀ j v, (start :: nlPos s i)[j]? = some v → j < K → v < st) ∧
      (∀ j v, (start :: nlPos s i)[j]? = some v → K < j → p < v) ∧
      (s.take (p - i)).foldl Spec.step ⟨line, i - start⟩ = ⟨line + K, p - st⟩ := by
  induction s with
  | nil =>
    intro i start p line h1 h2 h3
    simp at h3
    have : p = i := by omega
    subst this
    refine ⟨0, start, by simp, h1, by intros; omega, ?_, by simp⟩
    intro j v hv hj
    cases j with
    | zero => omega
    | succ j => simp [nlPos] at hv
  | cons c s ih =>
    intro i start p line h1 h2 h3
    by_cases hpi : p = i
    · subst hpi
      refine ⟨0, start, by simp, h1, by intros; omega, ?_, by simp⟩
      intro j v hv hj
      cases j with
      | zero => omega
      | succ j =>
        simp at hv
        exact nlPos_gt _ _ v (List.mem_of_getElem? hv)
    · have e : p - i = (p - (i + 1)) + 1 := by omega
      simp at h3
      by_cases hc : c = '\n'
      · obtain ⟨K, st, g1, g2, g3, g4, g5⟩ := ih (i + 1) (i + 1) p (line + 1) (by omega) (by omega)
          (by omega)
        refine ⟨K + 1, st, ?_, g2, ?_, ?_, ?_⟩
        · simp [nlPos, hc]; exact g1
        · intro j v hv hj
          cases j with
          | zero =>
            simp at hv; subst hv
            have : i + 1 ≤ st := by
              cases K with
              | zero => simp at g1; omega
              | succ K =>
                simp at g1
                exact Nat.le_of_lt (nlPos_gt _ _ _ (List.mem_of_getElem? g1))
            omega
          | succ j =>
            simp [nlPos, hc] at hv
            exact g3 j v hv (by omega)
        · intro j v hv hj
          cases j with
          | zero => omega
          | succ j =>
            simp [nlPos, hc] at hv
            exact g4 j v hv (by omega)
        · rw [e, List.take_succ_cons, List.foldl_cons]
          have : Spec.step ⟨line, i - start⟩ c = ⟨line + 1, (i + 1) - (i + 1)⟩ := by
            simp [Spec.step, hc]
          rw [this, g5]
          congr 1; omega
      · obtain ⟨K, st, g1, g2, g3, g4, g5⟩ := ih (i + 1) start p line (by omega) (by omega)
          (by omega)
        have hn : nlPos (c :: s) i = nlPos s (i + 1) := by simp [nlPos, hc]
        rw [hn]
        refine ⟨K, st, g1, g2, g3, g4, ?_⟩
        rw [e, List.take_succ_cons, List.foldl_cons]
        have : Spec.step ⟨line, i - start⟩ c = ⟨line, (i + 1) - start⟩ := by
          simp [Spec.step, hc]; omega
        rw [this, g5]

/-! ### Files -/

/-- What every registered file satisfies. -/
structure FileInfo.Good (f : FileInfo) : Prop where
  hi : f.span.hi = f.span.lo + f.sourceText.length
  bound : f.span.hi < u32Size
  lines : f.lines = (linesOffsets f.sourceText).2
  cache : ∀ e ∈ f.cache, e.1 ≤ f.sourceText.length ∧ e.2 = strLen (f.sourceText.take e.1)
  sorted : f.cache.Pairwise (fun a b => a.1 < b.1)

theorem offsetLineColumn_eq {f : FileInfo} (hf : f.Good) {off : Nat} (h1 : f.span.lo ≤ off)
    (h2 : off ≤ f.span.hi) :
    f.offsetLineColumn (ε := ε) off = .ok (Spec.lineColumn f.sourceText (off - f.span.lo)) := by
  have hb := hf.bound
  have hh := hf.hi
  have hu : asU32 off = off := Nat.mod_eq_of_lt (by omega)
  unfold FileInfo.offsetLineColumn FileInfo.spanWithin
  rw [hu]
  simp only [ge_iff_le, h1, h2, decide_true, Bool.and_true, Bool.not_true, Bool.false_eq_true,
    if_false]
  rw [if_neg (by omega), hf.lines, linesOffsets_eq]
  simp only
  obtain ⟨K, st, g1, g2, g3, g4, g5⟩ := lines_find f.sourceText 0 0 (off - f.span.lo) 1 (by omega)
    (by omega) (by omega)
  simp only [Nat.sub_zero] at g5
  have hK : K < (0 :: nlPos f.sourceText 0).length := by
    rw [List.getElem?_eq_some_iff] at g1
    exact g1.1
  generalize hp : off - f.span.lo = p at *
  generalize hl : 0 :: nlPos f.sourceText 0 = l at *
  by_cases he : st = p
  · have hs : Sorted3 (fun x => compare x p) l K (K + 1) := by
      refine ⟨by omega, by omega, ?_, ?_, ?_⟩
      · intro i x hx hi
        have := g3 i x hx hi
        exact Nat.compare_eq_lt.mpr (by omega)
      · intro i x hx hi hi'
        have : i = K := by omega
        subst this
        rw [g1] at hx; simp at hx; subst hx
        exact Nat.compare_eq_eq.mpr he
      · intro i x hx hi
        exact Nat.compare_eq_gt.mpr (g4 i x hx (by omega))
    rw [binarySearchBy_spec (g := fun x => compare x p) (fun _ _ => rfl) hs, Res.ok_bind,
      if_pos (by omega)]
    simp only [Spec.lineColumn, g5]
    congr 2
    · omega
    · omega
  · have hs : Sorted3 (fun x => compare x p) l (K + 1) (K + 1) := by
      refine ⟨by omega, by omega, ?_, ?_, ?_⟩
      · intro i x hx hi
        by_cases hiK : i = K
        · subst hiK
          rw [g1] at hx; simp at hx; subst hx
          exact Nat.compare_eq_lt.mpr (by omega)
        · have := g3 i x hx (by omega)
          exact Nat.compare_eq_lt.mpr (by omega)
      · intro i x hx hi hi'; omega
      · intro i x hx hi
        exact Nat.compare_eq_gt.mpr (g4 i x hx (by omega))
    rw [binarySearchBy_spec (g := fun x => compare x p) (fun _ _ => rfl) hs, Res.ok_bind,
      if_neg (by omega)]
    simp only [Nat.add_sub_cancel, g1]
    rw [if_neg (by omega), if_neg (by omega)]
    simp only [Spec.lineColumn, g5]
    congr 2; omega

/-! ### Byte offsets -/

theorem charIndicesFrom_get (s : List Char) (i k : Nat) :
    (charIndicesFrom s i)[k]? = (s[k]?).map (fun c => (i + strLen (s.take k), c)) := by
  induction s generalizing i k with
  | nil => simp [charIndicesFrom]
  | cons c s ih =>
    cases k with
    | zero => simp [charIndicesFrom]
    | succ k =>
      simp only [charIndicesFrom, List.getElem?_cons_succ, ih, List.take_succ_cons, strLen_cons]
      congr 1
      funext d
      congr 1; omega

theorem charIndicesFrom_length (s : List Char) (i : Nat) : (charIndicesFrom s i).length = s.length := by
  induction s generalizing i with
  | nil => rfl
  | cons c s ih => simp [charIndicesFrom, ih]

theorem ByteCache.mem_insert {m : ByteCache} {k v : Nat} {e : Nat × Nat}
    (h : e ∈ m.insert k v) : e = (k, v) ∨ e ∈ m := by
  induction m with
  | nil => simp [ByteCache.insert] at h; exact .inl h
  | cons x m ih =>
    obtain ⟨k', v'⟩ := x
    simp only [ByteCache.insert] at h
    split at h
    · simp at h ⊢; exact h
    · split at h
      · simp at h ⊢
        rcases h with h | h
        · exact .inl h
        · exact .inr (.inr h)
      · simp at h ⊢
        rcases h with h | h
        · exact .inr (.inl h)
        · rcases ih h with h | h
          · exact .inl h
          · exact .inr (.inr h)

theorem ByteCache.insert_sorted {m : ByteCache} {k v : Nat}
    (h : m.Pairwise (fun a b => a.1 < b.1)) :
    (m.insert k v).Pairwise (fun a b => a.1 < b.1) := by
  induction m with
  | nil => simp [ByteCache.insert]
  | cons x m ih =>
    obtain ⟨k', v'⟩ := x
    rw [List.pairwise_cons] at h
    simp only [ByteCache.insert]
    split
    · rename_i hk
      refine List.pairwise_cons.mpr ⟨?_, List.pairwise_cons.mpr h⟩
      intro e he
      simp at he
      rcases he with rfl | he
      · exact hk
      · have := h.1 e he; simp at this ⊢; omega
    · split
      · rename_i hk
        subst hk
        exact List.pairwise_cons.mpr h
      · refine List.pairwise_cons.mpr ⟨?_, ih h.2⟩
        intro e he
        rcases ByteCache.mem_insert he with rfl | he
        · simp; omega
        · exact h.1 e he

theorem getLast_sorted {l : List (Nat × Nat)} (h : l.Pairwise (fun a b => a.1 < b.1))
    {e : Nat × Nat} (he : l.getLast? = some e) : ∀ x ∈ l, x.1 ≤ e.1 := by
  induction l with
  | nil => simp
  | cons a l ih =>
    rw [List.pairwise_cons] at h
    cases l with
    | nil => simp at he; subst he; simp
    | cons b l =>
      rw [List.getLast?_cons_cons] at he
      have ih := ih h.2 he
      intro x hx
      simp only [List.mem_cons] at hx
      rcases hx with rfl | hx
      · have h1 := h.1 b (by simp); have h2 := ih b (by simp); omega
      · exact ih x (by simpa using hx)

theorem strLen_take_add (s : List Char) (a b : Nat) :
    strLen (s.take (a + b)) = strLen (s.take a) + strLen ((s.drop a).take b) := by
  rw [← strLen_append, ← List.take_add]

theorem byte_spec {f : FileInfo} (hf : f.Good) {ch : Nat} (h1 : f.span.lo ≤ ch)
    (h2 : ch ≤ f.span.hi) :
    ∃ cache, FileInfo.byte (ε := ε) f ch =
        .ok ({ f with cache := cache }, Spec.byteOffset f.sourceText (ch - f.span.lo)) ∧
      FileInfo.Good { f with cache := cache } := by
  have hhi := hf.hi
  have hsp : ∀ p, Spec.byteOffset f.sourceText p = strLen (f.sourceText.take p) := fun _ => rfl
  unfold FileInfo.byte
  rw [if_neg (by omega)]
  unfold FileInfo.byteAt
  generalize hk : ch - f.span.lo = k
  have hkl : k ≤ f.sourceText.length := by omega
  simp only [hsp]
  -- the previous entry
  have hprev : ∃ pc pb, (f.cache.floor k).getD (0, 0) = (pc, pb) ∧ pc ≤ k ∧
      pb = strLen (f.sourceText.take pc) := by
    cases hfl : f.cache.floor k with
    | none => exact ⟨0, 0, rfl, by omega, by simp⟩
    | some e =>
      obtain ⟨pc, pb⟩ := e
      have hm := List.mem_of_getLast? hfl
      simp at hm
      exact ⟨pc, pb, rfl, hm.2, (hf.cache _ hm.1).2⟩
  obtain ⟨pc, pb, hpe, hpk, hpb⟩ := hprev
  rw [hpe]
  simp only
  by_cases hpk' : pc = k
  · rw [if_pos hpk']
    refine ⟨f.cache, ?_, hf⟩
    rw [hpb, hpk']
  · rw [if_neg hpk']
    have hfrom : (do
        let tail ← sliceFrom (ε := ε) f.sourceText pb
        match (charIndices tail)[k - pc]? with
        | some (b, _) => .ok (pb + b)
        | none => .ok (strLen f.sourceText) : Res ε Nat) =
        .ok (strLen (f.sourceText.take k)) := by
      rw [sliceFrom_eq (t := f.sourceText.take pc) (r := f.sourceText.drop pc) (by simp) hpb,
        Res.ok_bind]
      unfold charIndices
      rw [charIndicesFrom_get]
      have hadd := strLen_take_add f.sourceText pc (k - pc)
      rw [show pc + (k - pc) = k by omega] at hadd
      by_cases hkl' : k < f.sourceText.length
      · rw [List.getElem?_eq_getElem (by simp; omega)]
        simp only [Option.map_some]
        congr 1; omega
      · rw [List.getElem?_eq_none (by simp; omega)]
        simp only [Option.map_none]
        rw [List.take_of_length_le (by omega)]
    have hbo : ∀ (r : Res ε Nat), r = .ok (strLen (f.sourceText.take k)) →
        ∃ cache, (r >>= fun byteOffset =>
          .ok ({ f with cache := f.cache.insert k byteOffset }, byteOffset)) =
            .ok ({ f with cache := cache }, strLen (f.sourceText.take k)) ∧
          FileInfo.Good { f with cache := cache } := by
      rintro r rfl
      refine ⟨_, rfl, hf.hi, hf.bound, hf.lines, ?_, ByteCache.insert_sorted hf.sorted⟩
      intro e he
      rcases ByteCache.mem_insert he with rfl | he
      · exact ⟨hkl, rfl⟩
      · exact hf.cache e he
    refine hbo _ ?_
    · clear hbo
      cases hce : f.cache.ceil k with
      | none => exact hfrom
      | some e =>
        obtain ⟨nc, nb⟩ := e
        simp only
        by_cases hlt : nc - k < k - pc
        · rw [if_pos hlt]
          have hm := List.mem_of_head? hce
          simp at hm
          obtain ⟨hm, hkn⟩ := hm
          obtain ⟨hnl, hnb⟩ := hf.cache _ hm
          simp only at hnl hnb
          -- `k` itself is not in the cache
          have hne : nc ≠ k := by
            intro hnk
            subst hnk
            have hin : (nc, nb) ∈ f.cache.filter (fun e => decide (e.1 ≤ nc)) := by
              simp [hm]
            cases hfl : f.cache.floor nc with
            | none =>
              unfold ByteCache.floor at hfl
              rw [List.getLast?_eq_none_iff] at hfl
              rw [hfl] at hin; simp at hin
            | some e =>
              rw [hfl] at hpe
              simp at hpe; subst hpe
              have := getLast_sorted (hf.sorted.filter _) hfl _ hin
              simp at this
              omega
          rw [sliceTo_eq (t := f.sourceText.take nc) (r := f.sourceText.drop nc) (by simp) hnb,
            Res.ok_bind, if_neg (by omega)]
          have hlen : (charIndices (f.sourceText.take nc)).length = nc := by
            unfold charIndices
            rw [charIndicesFrom_length]; simp; omega
          rw [List.getElem?_reverse (by omega), hlen]
          rw [show nc - 1 - (nc - k - 1) = k by omega]
          unfold charIndices
          rw [charIndicesFrom_get, List.getElem?_eq_getElem (by simp; omega)]
          simp only [Option.map_some, Nat.zero_add]
          rw [List.take_take, Nat.min_eq_left (by omega)]
        · rw [if_neg hlt]
          exact hfrom

end PM2
