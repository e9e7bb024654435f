import Verif.Model.SourceMap
import Verif.Proof.Refine1
/-! # Binary search finds what it should on sorted slices -/

namespace PM2

variable {α ε : Type}

/-- `g` splits `a` into elements below, equal and above, at the indices `L ≤ M`. -/
structure Sorted3 (g : α → Ordering) (a : List α) (L M : Nat) : Prop where
  le : L ≤ M
  len : M ≤ a.length
  lt : ∀ i x, a[i]? = some x → i < L → g x = .lt
  eq : ∀ i x, a[i]? = some x → L ≤ i → i < M → g x = .eq
  gt : ∀ i x, a[i]? = some x → M ≤ i → g x = .gt

theorem bsearchLoop_spec {f : α → Res ε Ordering} {g : α → Ordering} {a : List α}
    (hf : ∀ x ∈ a, f x = .ok (g x)) {L M : Nat} (hs : Sorted3 g a L M) :
    ∀ (fuel size base : Nat), size < fuel → 0 < size → base + size ≤ a.length →
      (base = 0 ∨ base < M) → M ≤ base + size →
      bsearchLoop f a fuel size base = .ok (M - 1) := by
  intro fuel
  induction fuel with
  | zero => intro size base h; omega
  | succ fuel ih =>
    intro size base h1 h2 h3 h4 h5
    unfold bsearchLoop
    by_cases hsz : 1 < size
    · rw [if_pos hsz]
      have hmid : base + size / 2 < a.length := by omega
      have hget : a[base + size / 2]? = some a[base + size / 2] := List.getElem?_eq_getElem hmid
      simp only [hget]
      rw [hf _ (List.getElem_mem hmid), Res.ok_bind]
      by_cases hM : base + size / 2 < M
      · have hng : g a[base + size / 2] ≠ .gt := by
          by_cases hL : base + size / 2 < L
          · rw [hs.lt _ _ hget hL]; simp
          · rw [hs.eq _ _ hget (by omega) hM]; simp
        rw [if_neg hng]
        exact ih _ _ (by omega) (by omega) (by omega) (by omega) (by omega)
      · rw [hs.gt _ _ hget (by omega)]
        simp only [if_true]
        exact ih _ _ (by omega) (by omega) (by omega) h4 (by omega)
    · rw [if_neg hsz]
      congr 1
      omega

theorem binarySearchBy_spec {f : α → Res ε Ordering} {g : α → Ordering} {a : List α}
    (hf : ∀ x ∈ a, f x = .ok (g x)) {L M : Nat} (hs : Sorted3 g a L M) :
    binarySearchBy f a = .ok (if L < M then .inl (M - 1) else .inr L) := by
  unfold binarySearchBy
  have hlen := hs.len
  have hle := hs.le
  by_cases h0 : a.length = 0
  · rw [if_pos h0, if_neg (by omega)]
    congr 2; omega
  · rw [if_neg h0]
    rw [bsearchLoop_spec hf hs (a.length + 1) a.length 0 (by omega) (by omega) (by omega)
      (.inl rfl) (by omega), Res.ok_bind]
    have hb : M - 1 < a.length := by omega
    have hget : a[M - 1]? = some a[M - 1] := List.getElem?_eq_getElem hb
    simp only [hget]
    rw [hf _ (List.getElem_mem hb), Res.ok_bind]
    by_cases hLM : L < M
    · rw [if_pos hLM, hs.eq _ _ hget (by omega) (by omega)]
    · rw [if_neg hLM]
      by_cases hM : M = 0
      · rw [hs.gt _ _ hget (by omega)]
        simp only; congr 2; omega
      · rw [hs.lt _ _ hget (by omega)]
        simp only; congr 2; omega

end PM2
