import Verif.Proof.Timed
import Verif.Proof.History
import Verif.Model.TimedMap
import Verif.Spec.MapCost
/-! # The source map with a count of the steps: results and costs -/

set_option linter.unusedSectionVars false

namespace PM2.TM
open Timed Spec

variable {ε : Type}

/-! ### Results -/

@[simp] theorem bsearchLoop_val {α : Type} (f : α → Res ε Ordering) (a : List α) (fuel size b : Nat) :
    (TM.bsearchLoop f a fuel size b).val = PM2.bsearchLoop f a fuel size b := by
  induction fuel generalizing size b with
  | zero => rfl
  | succ fuel ih =>
    simp only [TM.bsearchLoop, PM2.bsearchLoop, val_ite, val_tick]
    split
    · split <;> simp [*]
    · rfl

@[simp] theorem binarySearchBy_val {α : Type} (f : α → Res ε Ordering) (a : List α) :
    (TM.binarySearchBy f a).val = PM2.binarySearchBy f a := by
  simp only [TM.binarySearchBy, PM2.binarySearchBy, val_ite, val_tick]
  split
  · rfl
  · simp only [val_bind, bsearchLoop_val]
    congr 1
    funext b
    cases a[b]? with
    | none => rfl
    | some x =>
      simp only [val_tick, val_bind]
      congr 1
      funext c
      cases c <;> rfl

@[simp] theorem linesOffsets_val (s : List Char) :
    (TM.linesOffsets s : Timed ε _).val = .ok (PM2.linesOffsets s) := rfl

@[simp] theorem offsetLineColumn_val (fi : FileInfo) (off : Nat) :
    (TM.offsetLineColumn fi off : Timed ε _).val = fi.offsetLineColumn off := by
  simp only [TM.offsetLineColumn, FileInfo.offsetLineColumn, val_ite, val_tick]
  split
  · rfl
  · split
    · rfl
    · simp only [val_bind, binarySearchBy_val]
      congr 1
      funext r
      cases r with
      | inl i => rfl
      | inr i =>
        simp only
        split
        · rfl
        · cases fi.lines[i - 1]? with
          | none => rfl
          | some st => simp only; split <;> rfl

@[simp] theorem byteAt_val (fi : FileInfo) (k : Nat) : (TM.byteAt fi k : Timed ε _).val = fi.byteAt k := by
  simp only [TM.byteAt, FileInfo.byteAt, val_ite, val_tick]
  split
  · rfl
  · simp only [val_bind, val_tick]
    have hp : ∀ pc pb, ((do
        let tail ← (⟨sliceFrom fi.sourceText pb, 0⟩ : Timed ε (List Char))
        match (charIndices tail)[k - pc]? with
        | some (b, _) => .ok (pb + b)
        | none => .ok (strLen fi.sourceText) : Timed ε Nat)).val = (do
        let tail ← sliceFrom (ε := ε) fi.sourceText pb
        match (charIndices tail)[k - pc]? with
        | some (b, _) => .ok (pb + b)
        | none => .ok (strLen fi.sourceText)) := by
      intro pc pb
      simp only [val_bind]
      congr 1
      funext t
      cases (charIndices t)[k - pc]? <;> rfl
    congr 1
    cases fi.cache.ceil k with
    | none => exact hp _ _
    | some e =>
      obtain ⟨nc, nb⟩ := e
      simp only
      split
      · simp only [val_tick, val_bind]
        congr 1
        funext t
        split
        · rfl
        · cases (charIndices t).reverse[nc - k - 1]? <;> rfl
      · exact hp _ _

@[simp] theorem byte_val (fi : FileInfo) (ch : Nat) : (TM.byte fi ch : Timed ε _).val = fi.byte ch := by
  simp [TM.byte, FileInfo.byte]

@[simp] theorem byteRange_val (fi : FileInfo) (s : Span) :
    (TM.byteRange fi s : Timed ε _).val = fi.byteRange s := by
  simp [TM.byteRange, FileInfo.byteRange]

@[simp] theorem sourceTextOf_val (fi : FileInfo) (s : Span) :
    (TM.sourceTextOf fi s : Timed ε _).val = fi.sourceTextOf s := by
  simp [TM.sourceTextOf, FileInfo.sourceTextOf]

@[simp] theorem addFile_val (sm : SourceMap) (src : List Char) :
    (TM.addFile sm src : Timed ε _).val = sm.addFile src := by
  simp [TM.addFile, SourceMap.addFile]

@[simp] theorem find_val (sm : SourceMap) (s : Span) : (TM.find sm s : Timed ε _).val = sm.find s := by
  simp only [TM.find, SourceMap.find, val_bind, binarySearchBy_val]
  congr 1
  funext r
  cases r <;> rfl

@[simp] theorem fileinfo_val (sm : SourceMap) (s : Span) :
    (TM.fileinfo sm s : Timed ε _).val = sm.fileinfo s := by
  simp only [TM.fileinfo, SourceMap.fileinfo, val_bind, find_val]
  congr 1
  funext i
  cases sm.files[i]? <;> rfl

@[simp] theorem filepath_val (sm : SourceMap) (s : Span) :
    (TM.filepath sm s : Timed ε _).val = sm.filepath s := by
  simp only [TM.filepath, SourceMap.filepath, SourceMap.filepathIndex, val_bind, find_val, val_tick, val_ok]
  cases sm.find (ε := ε) s <;> rfl

@[simp] theorem withFile_val {α : Type} (sm : SourceMap) (s : Span) (k : FileInfo → Timed ε (FileInfo × α)) :
    (TM.withFile sm s k).val = sm.withFile s (fun f => (k f).val) := by
  simp only [TM.withFile, SourceMap.withFile, val_bind, find_val]
  congr 1
  funext i
  cases sm.files[i]? <;> simp

@[simp] theorem spanByteRange_val (sm : SourceMap) (s : Span) :
    (TM.spanByteRange sm s : Timed ε _).val = s.byteRange sm := by
  simp [TM.spanByteRange, Span.byteRange]

@[simp] theorem spanStart_val (sm : SourceMap) (s : Span) : (TM.spanStart sm s : Timed ε _).val = s.start sm := by
  simp [TM.spanStart, Span.start]

@[simp] theorem spanEnd_val (sm : SourceMap) (s : Span) : (TM.spanEnd sm s : Timed ε _).val = s.end_ sm := by
  simp [TM.spanEnd, Span.end_]

@[simp] theorem spanFile_val (sm : SourceMap) (s : Span) : (TM.spanFile sm s : Timed ε _).val = s.file sm := by
  simp [TM.spanFile, Span.file]

@[simp] theorem spanJoin_val (sm : SourceMap) (s o : Span) :
    (TM.spanJoin sm s o : Timed ε _).val = s.join sm o := by
  simp [TM.spanJoin, Span.join]

@[simp] theorem spanSourceText_val (sm : SourceMap) (s : Span) :
    (TM.spanSourceText sm s : Timed ε _).val = s.sourceText sm := by
  simp [TM.spanSourceText, Span.sourceText]

section
variable [UnicodeTables]

@[simp] theorem getCursor_val (sm : SourceMap) (src : List Char) :
    (TM.getCursor sm src : Timed ε _).val = PM2.getCursor sm src := by
  simp [TM.getCursor, PM2.getCursor]

theorem streamFromStr_val (sm : SourceMap) (src : List Char) :
    (TM.streamFromStr sm src).1 = (TokenStream.fromStr sm src).1 ∧
    (TM.streamFromStr sm src).2.val = (TokenStream.fromStr sm src).2 := by
  unfold TM.streamFromStr TokenStream.fromStr
  rw [← getCursor_val]
  generalize (TM.getCursor sm src : Timed Span _) = x
  obtain ⟨v, c⟩ := x
  cases v <;> simp [T.fromStrAt_val]

theorem literalFromStr_val (sm : SourceMap) (src : List Char) :
    (TM.literalFromStr sm src).1 = (Literal.fromStr sm src).1 ∧
    (TM.literalFromStr sm src).2.val = (Literal.fromStr sm src).2 := by
  unfold TM.literalFromStr Literal.fromStr
  rw [← getCursor_val]
  generalize (TM.getCursor sm src : Timed Span _) = x
  obtain ⟨v, c⟩ := x
  cases v <;> simp [T.literalFromStrAt_val]

end

/-! ### Costs -/

theorem cost_bind {α β : Type} {x : Timed ε α} {f : α → Timed ε β} {A B : Nat} (hx : x.cost ≤ A)
    (hf : ∀ a, x.val = .ok a → (f a).cost ≤ B) : (x >>= f).cost ≤ A + B := by
  show (Timed.bind x f).cost ≤ A + B
  unfold Timed.bind
  cases e : x.val with
  | ok a => have := hf a e; simp only; omega
  | err | panic | diverge => simp only; omega

theorem cost_bind_eq {α β : Type} {x : Timed ε α} {f : α → Timed ε β} {a : α} (h : x.val = .ok a) :
    (x >>= f).cost = x.cost + (f a).cost := by
  show (Timed.bind x f).cost = _
  unfold Timed.bind
  rw [h]

@[simp] theorem cost_tick {α : Type} (n : Nat) (x : Timed ε α) : (tick n x).cost = n + x.cost := rfl
@[simp] theorem cost_ok {α : Type} (a : α) : (Timed.ok a : Timed ε α).cost = 0 := rfl
@[simp] theorem cost_panic {α : Type} : (Timed.panic : Timed ε α).cost = 0 := rfl

theorem bsearchLoop_cost {α : Type} (f : α → Res ε Ordering) (a : List α) (fuel size b : Nat) :
    (TM.bsearchLoop f a fuel size b).cost ≤ if size ≤ 1 then 0 else Nat.log2 (size - 1) + 1 := by
  induction fuel generalizing size b with
  | zero => exact Nat.zero_le _
  | succ fuel ih =>
    unfold TM.bsearchLoop
    by_cases h1 : 1 < size
    · rw [if_pos h1, if_neg (by omega), cost_tick]
      simp only
      split
      · simp
      · rename_i x hx
        have : ((⟨f x, 0⟩ : Timed ε Ordering) >>= fun c =>
            TM.bsearchLoop f a fuel (size - size / 2) (if c = .gt then b else b + size / 2)).cost ≤
            0 + Nat.log2 (size - 1) := by
          refine cost_bind (Nat.le_refl _) (fun c _ => Nat.le_trans (ih _ _) ?_)
          split
          · exact Nat.zero_le _
          · rename_i h2
            have e1 : size - size / 2 - 1 = (size - 1) / 2 := by omega
            rw [e1]
            conv => rhs; rw [Nat.log2_def]
            rw [if_pos (by omega)]
            exact Nat.le_refl _
        omega
    · rw [if_neg h1]
      exact Nat.zero_le _

theorem log2_mono {a b : Nat} (h : a ≤ b) : Nat.log2 a ≤ Nat.log2 b := by
  by_cases ha : a = 0
  · subst ha; simp
  · exact (Nat.le_log2 (by omega)).mpr (Nat.le_trans (Nat.log2_self_le ha) h)

theorem binarySearchBy_cost {α : Type} (f : α → Res ε Ordering) (a : List α) :
    (TM.binarySearchBy f a).cost ≤ Nat.log2 a.length + 3 := by
  unfold TM.binarySearchBy
  rw [cost_tick]
  split
  · simp
  · have h := bsearchLoop_cost f a (a.length + 1) a.length 0
    have h1 : (if a.length ≤ 1 then 0 else Nat.log2 (a.length - 1) + 1) ≤ Nat.log2 a.length + 1 := by
      split
      · omega
      · have := log2_mono (show a.length - 1 ≤ a.length by omega); omega
    refine Nat.le_trans (Nat.add_le_add_left (cost_bind (B := 1) (Nat.le_trans h h1) (fun b _ => ?_)) _) (by omega)
    cases a[b]? with
    | none => exact Nat.zero_le _
    | some x =>
      simp only
      rw [cost_tick]
      refine Nat.le_trans (Nat.add_le_add_left (cost_bind (A := 0) (B := 0) (Nat.le_refl _) (fun c _ => ?_)) _)
        (Nat.le_refl _)
      cases c <;> exact Nat.le_refl _

theorem find_cost (sm : SourceMap) (s : Span) :
    (TM.find sm s : Timed ε _).cost ≤ Nat.log2 sm.files.length + 3 := by
  unfold TM.find
  refine cost_bind (B := 0) (binarySearchBy_cost _ _) (fun r _ => ?_)
  cases r <;> exact Nat.le_refl _

theorem fileinfo_cost (sm : SourceMap) (s : Span) :
    (TM.fileinfo sm s : Timed ε _).cost ≤ Nat.log2 sm.files.length + 3 := by
  unfold TM.fileinfo
  refine cost_bind (B := 0) (find_cost _ _) (fun r _ => ?_)
  split <;> exact Nat.le_refl _

theorem offsetLineColumn_cost (fi : FileInfo) (off : Nat) :
    (TM.offsetLineColumn fi off : Timed ε _).cost ≤ Nat.log2 fi.lines.length + 4 := by
  unfold TM.offsetLineColumn
  rw [cost_tick]
  split
  · simp
  · split
    · simp
    · refine Nat.le_trans (Nat.add_le_add_left (cost_bind (B := 0) (binarySearchBy_cost _ _) (fun r _ => ?_)) _)
        (by omega)
      cases r with
      | inl i => exact Nat.le_refl _
      | inr i =>
        simp only
        split
        · exact Nat.le_refl _
        · cases fi.lines[i - 1]? with
          | none => exact Nat.le_refl _
          | some st => simp only; split <;> exact Nat.le_refl _

/-- A position from which the counting can start. -/
def Known (f : FileInfo) (p : Nat) : Prop := p = 0 ∨ ∃ b, (p, b) ∈ f.cache

theorem insert_mem (m : ByteCache) (k v : Nat) : (k, v) ∈ m.insert k v := by
  induction m with
  | nil => simp [ByteCache.insert]
  | cons e m ih =>
    obtain ⟨k', v'⟩ := e
    unfold ByteCache.insert
    split
    · simp
    · split
      · simp
      · simp [ih]

theorem insert_keeps {m : ByteCache} {k v p : Nat} (h : ∃ b, (p, b) ∈ m) : ∃ b, (p, b) ∈ m.insert k v := by
  obtain ⟨b, h⟩ := h
  induction m with
  | nil => cases h
  | cons e m ih =>
    obtain ⟨k', v'⟩ := e
    unfold ByteCache.insert
    split
    · exact ⟨b, List.mem_cons_of_mem _ h⟩
    · rcases List.mem_cons.mp h with h | h
      · injection h with h1 h2
        split
        · rename_i hk
          exact ⟨v, by simp [h1, hk]⟩
        · exact ⟨b, by simp [h1, h2]⟩
      · split
        · exact ⟨b, List.mem_cons_of_mem _ h⟩
        · obtain ⟨b', h'⟩ := ih h
          exact ⟨b', List.mem_cons_of_mem _ h'⟩

theorem head_sorted {l : List (Nat × Nat)} (h : l.Pairwise (fun a b => a.1 < b.1))
    {e : Nat × Nat} (he : l.head? = some e) : ∀ x ∈ l, e.1 ≤ x.1 := by
  cases l with
  | nil => cases he
  | cons a l =>
    simp at he
    subst he
    intro x hx
    rcases List.mem_cons.mp hx with rfl | hx
    · exact Nat.le_refl _
    · exact Nat.le_of_lt ((List.pairwise_cons.mp h).1 x hx)

/-- Looking up a position costs the distance to any known position. Afterwards it is known. -/
theorem byteAt_cost {f : FileInfo} (hf : f.cache.Pairwise (fun a b => a.1 < b.1)) {p : Nat} (hp : Known f p) (k : Nat) :
    (TM.byteAt f k : Timed ε _).cost ≤ 3 * TM.mapCost f.cache + gap p k + 1 ∧
    ∀ f' b, (TM.byteAt f k : Timed ε _).val = .ok (f', b) → Known f' k ∧ ∀ q, Known f q → Known f' q := by
  generalize hM : TM.mapCost f.cache = M
  have hfl : ((f.cache.floor k).getD (0, 0)).1 ≤ k ∧ (p ≤ k → p ≤ ((f.cache.floor k).getD (0, 0)).1) := by
    cases e : f.cache.floor k with
    | none =>
      refine ⟨Nat.zero_le _, fun hpk => ?_⟩
      rcases hp with rfl | ⟨b, hb⟩
      · exact Nat.zero_le _
      · unfold ByteCache.floor at e
        rw [List.getLast?_eq_none_iff] at e
        have : (p, b) ∈ f.cache.filter (fun e => e.1 ≤ k) := by simp [hb, hpk]
        rw [e] at this
        cases this
    | some x =>
      have hm := List.mem_of_getLast? e
      simp at hm
      refine ⟨hm.2, fun hpk => ?_⟩
      rcases hp with rfl | ⟨b, hb⟩
      · exact Nat.zero_le _
      · exact getLast_sorted (hf.filter _) e (p, b) (by simp [hb, hpk])
  have hkn : ((f.cache.floor k).getD (0, 0)).1 = k → Known f k := by
    intro he
    cases e : f.cache.floor k with
    | none => rw [e] at he; exact .inl he.symm
    | some x =>
      rw [e] at he
      have hm := List.mem_of_getLast? e
      simp at hm he
      subst he
      exact .inr ⟨x.2, hm.1⟩
  unfold TM.byteAt
  rw [cost_tick, val_tick, hM]
  generalize hq : (f.cache.floor k).getD (0, 0) = q at hfl hkn
  obtain ⟨pc, pb⟩ := q
  simp only at hfl hkn ⊢
  by_cases hpc : pc = k
  · rw [if_pos hpc]
    constructor
    · rw [cost_ok]; omega
    · intro f' b e
      cases e
      exact ⟨hkn hpc, fun _ h => h⟩
  · rw [if_neg hpc]
    have hfrom : (tick (k - pc + 1) (do
        let tail ← (⟨sliceFrom f.sourceText pb, 0⟩ : Timed ε (List Char))
        match (charIndices tail)[k - pc]? with
        | some (b, _) => .ok (pb + b)
        | none => .ok (strLen f.sourceText) : Timed ε Nat)).cost ≤ k - pc + 1 := by
      rw [cost_tick]
      refine Nat.le_trans (Nat.add_le_add_left (cost_bind (A := 0) (B := 0) (Nat.le_refl _) (fun t _ => ?_)) _) (by omega)
      cases (charIndices t)[k - pc]? <;> exact Nat.le_refl _
    constructor
    · refine Nat.le_trans (Nat.add_le_add_left (cost_bind (A := M + gap p k + 1) (B := M) ?_ (fun b _ => ?_)) _) (by omega)
      · rw [cost_tick]
        suffices h : _ ≤ gap p k + 1 by
          exact Nat.le_trans (Nat.add_le_add_left h _) (by omega)
        cases e : f.cache.ceil k with
        | none =>
          refine Nat.le_trans hfrom ?_
          have hpk : p ≤ k := by
            rcases hp with rfl | ⟨b, hb⟩
            · exact Nat.zero_le _
            · apply Classical.byContradiction
              intro hn
              unfold ByteCache.ceil at e
              rw [List.head?_eq_none_iff] at e
              have : (p, b) ∈ f.cache.filter (fun e => k ≤ e.1) := by simp [hb]; omega
              rw [e] at this
              cases this
          have := hfl.2 hpk
          unfold gap
          omega
        | some x =>
          obtain ⟨nc, nb⟩ := x
          have hnc : k ≤ p → nc ≤ p ∨ p = 0 := by
            intro hpk
            rcases hp with rfl | ⟨b, hb⟩
            · exact .inr rfl
            · exact .inl (head_sorted (hf.filter _) e (p, b) (by simp [hb, hpk]))
          have hkn2 : k ≤ nc := by
            have hm := List.mem_of_head? e
            simp at hm
            exact hm.2
          simp only
          by_cases hlt : nc - k < k - pc
          · rw [if_pos hlt, cost_tick]
            refine Nat.le_trans (Nat.add_le_add_left (cost_bind (A := 0) (B := 0) (Nat.le_refl _) (fun t _ => ?_)) _) ?_
            · split
              · exact Nat.le_refl _
              · cases (charIndices t).reverse[nc - k - 1]? <;> exact Nat.le_refl _
            · unfold gap
              by_cases hpk : p ≤ k
              · have := hfl.2 hpk; omega
              · have := hnc (by omega); omega
          · rw [if_neg hlt]
            refine Nat.le_trans hfrom ?_
            unfold gap
            by_cases hpk : p ≤ k
            · have := hfl.2 hpk; omega
            · have := hnc (by omega); omega
      · rw [cost_tick, cost_ok]
        omega
    · intro f' b e
      rw [val_bind] at e
      generalize Timed.val _ = r at e
      cases r with
      | ok v =>
        cases e
        exact ⟨.inr ⟨_, insert_mem _ _ _⟩, fun q h => h.imp id insert_keeps⟩
      | err | panic | diverge => cases e

/-! ### The size of the cache -/

theorem sorted_length {l : List (Nat × Nat)} (h : l.Pairwise (fun a b => a.1 < b.1)) {a n : Nat}
    (hb : ∀ e ∈ l, a ≤ e.1 ∧ e.1 ≤ n) : l.length ≤ n + 1 - a := by
  induction l generalizing a with
  | nil => exact Nat.zero_le _
  | cons e l ih =>
    rw [List.pairwise_cons] at h
    have h0 := hb e (by simp)
    have := ih h.2 (a := e.1 + 1) (fun x hx => ⟨h.1 x hx, (hb x (by simp [hx])).2⟩)
    simp only [List.length_cons]
    omega

theorem mapCost_le {f : FileInfo} (hf : f.Good) : TM.mapCost f.cache ≤ Nat.log2 (f.sourceText.length + 1) + 1 := by
  have := sorted_length hf.sorted (a := 0) (fun e he => ⟨Nat.zero_le _, (hf.cache e he).1⟩)
  exact Nat.add_le_add_right (log2_mono this) 1

/-! ### Bytes of a span -/

theorem byte_cost {f : FileInfo} (hf : f.Good) {p : Nat} (hp : Known f p) {ch : Nat} (h1 : f.span.lo ≤ ch)
    (h2 : ch ≤ f.span.hi) :
    ∃ cache b, (TM.byte f ch : Timed ε _).val = .ok ({ f with cache := cache }, b) ∧
      FileInfo.Good { f with cache := cache } ∧ Known { f with cache := cache } (ch - f.span.lo) ∧
      (∀ q, Known f q → Known { f with cache := cache } q) ∧
      (TM.byte f ch : Timed ε _).cost ≤ 3 * Nat.log2 (f.sourceText.length + 1) + gap p (ch - f.span.lo) + 5 := by
  obtain ⟨c, e, g⟩ := byte_spec (ε := ε) hf h1 h2
  have hc := byteAt_cost (ε := ε) hf.sorted hp (ch - f.span.lo)
  have hm := mapCost_le hf
  have e' := e
  rw [FileInfo.byte, if_neg (by omega)] at e'
  obtain ⟨k1, k2⟩ := hc.2 _ _ (by rw [byteAt_val]; exact e')
  refine ⟨c, _, by rw [byte_val]; exact e, g, k1, k2, ?_⟩
  · unfold TM.byte
    rw [cost_tick, if_neg (by omega)]
    omega

theorem byteRange_cost {f : FileInfo} (hf : f.Good) {p : Nat} (hp : Known f p) {s : Span} {p' : Nat}
    (hp' : Known f p' ∨ p' = s.lo - f.span.lo) (h1 : f.span.lo ≤ s.lo)
    (h2 : s.lo ≤ s.hi) (h3 : s.hi ≤ f.span.hi) :
    ∃ cache a b, (TM.byteRange f s : Timed ε _).val = .ok ({ f with cache := cache }, a, b) ∧
      FileInfo.Good { f with cache := cache } ∧ Known { f with cache := cache } (s.lo - f.span.lo) ∧
      Known { f with cache := cache } (s.hi - f.span.lo) ∧
      (TM.byteRange f s : Timed ε _).cost ≤
        6 * Nat.log2 (f.sourceText.length + 1) + gap p (s.lo - f.span.lo) +
          gap p' (s.hi - f.span.lo) + 10 := by
  obtain ⟨c1, a, e1, g1, k1, m1, b1⟩ := byte_cost (ε := ε) hf hp h1 (by omega)
  obtain ⟨c2, b, e2, g2, k2, m2, b2⟩ := byte_cost (ε := ε) g1 (p := p')
    (hp'.elim (m1 _) (fun h => h ▸ k1)) (ch := s.hi) (by simp only; omega) h3
  refine ⟨c2, a, b, ?_, g2, m2 _ k1, k2, ?_⟩
  · unfold TM.byteRange
    rw [val_bind, e1]
    simp only [Res.ok_bind]
    rw [val_bind, e2]
    rfl
  · unfold TM.byteRange
    rw [cost_bind_eq e1]
    simp only
    rw [cost_bind_eq e2, cost_ok]
    simp only at b2
    omega

theorem sourceTextOf_cost {f : FileInfo} (hf : f.Good) {p : Nat} (hp : Known f p) {s : Span} {p' : Nat}
    (hp' : Known f p' ∨ p' = s.lo - f.span.lo) (h1 : f.span.lo ≤ s.lo)
    (h2 : s.lo ≤ s.hi) (h3 : s.hi ≤ f.span.hi) :
    ∃ cache r, (TM.sourceTextOf f s : Timed ε _).val = .ok ({ f with cache := cache }, r) ∧
      FileInfo.Good { f with cache := cache } ∧ Known { f with cache := cache } (s.lo - f.span.lo) ∧
      Known { f with cache := cache } (s.hi - f.span.lo) ∧
      (TM.sourceTextOf f s : Timed ε _).cost ≤
        6 * Nat.log2 (f.sourceText.length + 1) + gap p (s.lo - f.span.lo) +
          gap p' (s.hi - f.span.lo) + (s.hi - s.lo) + 10 := by
  obtain ⟨c, a, b, e, g, k0, k, hb⟩ := byteRange_cost (ε := ε) hf hp hp' h1 h2 h3
  obtain ⟨c', e', -⟩ := byteRange_good (ε := ε) hf h1 (by omega) (by omega) h3
  rw [byteRange_val] at e
  rw [e'] at e
  have hsl := slice_eq (ε := ε) (s := f.sourceText) (a := s.lo - f.span.lo) (b := s.hi - f.span.lo) (by omega)
  injection e with e
  injection e with ec eab
  injection eab with ea eb
  have ecc : c' = c := by injection ec
  subst ea eb ecc
  have ev := (byteRange_val (ε := ε) f s).trans e'
  refine ⟨c', Spec.substring f.sourceText (s.lo - f.span.lo) (s.hi - f.span.lo), ?_, g, k0, k, ?_⟩
  · unfold TM.sourceTextOf
    rw [val_bind, ev]
    simp only [Res.ok_bind]
    rw [val_bind]
    simp only
    rw [hsl]
    rfl
  · unfold TM.sourceTextOf
    rw [cost_bind_eq ev]
    simp only
    rw [cost_bind_eq (a := Spec.substring f.sourceText (s.lo - f.span.lo) (s.hi - f.span.lo)) hsl]
    simp only [cost_tick, cost_ok]
    have : (Spec.substring f.sourceText (s.lo - f.span.lo) (s.hi - f.span.lo)).length ≤
        (s.hi - f.span.lo) - (s.lo - f.span.lo) := by
      unfold Spec.substring
      simp only [List.length_take, List.length_drop]
      omega
    omega

/-! ### Questions to the source map -/

theorem set_known {sm : SourceMap} {k : Nat} {f g : FileInfo} (hk : sm.files[k]? = some f) :
    (sm.files.set k g)[k]? = some g := by
  have : k < sm.files.length := by
    rcases Nat.lt_or_ge k sm.files.length with h | h
    · exact h
    · rw [List.getElem?_eq_none h] at hk; cases hk
  simp [this]

theorem withFile_cost {α : Type} {sm : SourceMap} (h : sm.WF) {k : Nat} {f : FileInfo} {s : Span}
    (hw : Within sm k f s) {q : FileInfo → Timed ε (FileInfo × α)} {g : FileInfo} {r : α} {n : Nat}
    (hv : (q f).val = .ok (g, r)) (hc : (q f).cost ≤ n) :
    (TM.withFile sm s q).val = .ok (⟨sm.files.set k g⟩, r) ∧
    (TM.withFile sm s q).cost ≤ Nat.log2 sm.files.length + 3 + n := by
  have hf : (TM.find sm s : Timed ε _).val = .ok k := by rw [find_val]; exact find_eq h hw
  have hfc := find_cost (ε := ε) sm s
  constructor
  · unfold TM.withFile
    rw [val_bind, hf]
    simp only [Res.ok_bind, hw.file]
    rw [val_bind, hv]
    rfl
  · unfold TM.withFile
    rw [cost_bind_eq hf]
    simp only [hw.file]
    rw [cost_bind_eq hv]
    simp only [cost_ok]
    omega

/-- One question: the map keeps its texts, the end of the span is known afterwards. -/
theorem ask_cost {sm : SourceMap} (h : sm.WF) {k : Nat} {f : FileInfo} (q : Query)
    (hw : Within sm k f q.span) (hc : q.span.isCallSite = false) {p : Nat} (hp : Known f p)
    {p' : Nat} (hp' : Known f p' ∨ p' = q.span.lo - f.span.lo) :
    ∃ sm' f', (q.ask sm).val = .ok sm' ∧ sm'.WF ∧ sm.Same sm' ∧ sm'.files[k]? = some f' ∧
      f'.span = f.span ∧ f'.sourceText = f.sourceText ∧ Known f' (q.span.lo - f.span.lo) ∧
      Known f' (q.span.hi - f.span.lo) ∧
      (q.ask sm).cost ≤ Nat.log2 sm.files.length + 6 * Nat.log2 (f.sourceText.length + 1) +
        gap p (q.span.lo - f.span.lo) + gap p' (q.span.hi - f.span.lo) +
        q.copied + 14 := by
  cases q with
  | byteRange s =>
    simp only [Query.span, Query.copied] at hw hc hp' ⊢
    obtain ⟨c, a, b, e, g, k0, kn, hb⟩ := byteRange_cost (ε := Unit) (h.files.good hw.file) hp hp' hw.lo hw.le hw.hi
    obtain ⟨hs1, hs2⟩ := set_wf h (g := { f with cache := c }) hw.file (hw.not_dummy h hc) g rfl rfl
    obtain ⟨v, n⟩ := withFile_cost h hw (q := fun f => TM.byteRange f s) e hb
    have v' : (TM.spanByteRange sm s : Timed Unit _).val = .ok (⟨sm.files.set k { f with cache := c }⟩, a, b) := by
      unfold TM.spanByteRange
      rw [val_tick, hc]
      exact v
    refine ⟨⟨sm.files.set k { f with cache := c }⟩, { f with cache := c }, ?_, hs1, hs2, set_known hw.file, rfl, rfl, k0, kn, ?_⟩
    · unfold Query.ask
      rw [val_bind, v']
      rfl
    · unfold Query.ask
      simp only
      rw [cost_bind_eq v', cost_ok]
      unfold TM.spanByteRange
      rw [cost_tick, hc]
      simp only [Bool.false_eq_true, if_false]
      omega
  | sourceText s =>
    simp only [Query.span, Query.copied] at hw hc hp' ⊢
    obtain ⟨c, r, e, g, k0, kn, hb⟩ := sourceTextOf_cost (ε := Unit) (h.files.good hw.file) hp hp' hw.lo hw.le hw.hi
    obtain ⟨hs1, hs2⟩ := set_wf h (g := { f with cache := c }) hw.file (hw.not_dummy h hc) g rfl rfl
    have e2 : (TM.sourceTextOf f s >>= fun x => Timed.ok (x.1, some x.2) : Timed Unit _).val =
        .ok ({ f with cache := c }, some r) := by rw [val_bind, e]; rfl
    have hb2 : (TM.sourceTextOf f s >>= fun x => Timed.ok (x.1, some x.2) : Timed Unit _).cost ≤ _ :=
      Nat.le_trans (Nat.le_of_eq (by rw [cost_bind_eq e, cost_ok, Nat.add_zero])) hb
    obtain ⟨v, n⟩ := withFile_cost h hw
      (q := fun f => TM.sourceTextOf f s >>= fun x => Timed.ok (x.1, some x.2)) e2 hb2
    have v' : (TM.spanSourceText sm s : Timed Unit _).val = .ok (⟨sm.files.set k { f with cache := c }⟩, some r) := by
      unfold TM.spanSourceText
      rw [val_tick, hc]
      exact v
    refine ⟨⟨sm.files.set k { f with cache := c }⟩, { f with cache := c }, ?_, hs1, hs2, set_known hw.file, rfl, rfl, k0, kn, ?_⟩
    · unfold Query.ask
      rw [val_bind, v']
      rfl
    · unfold Query.ask
      simp only
      rw [cost_bind_eq v', cost_ok]
      unfold TM.spanSourceText
      rw [cost_tick, hc]
      simp only [Bool.false_eq_true, if_false]
      omega

theorem same_length {a b : SourceMap} (h : a.Same b) : b.files.length = a.files.length := by
  have := congrArg List.length h
  simpa using this.symm

/-- Many questions about one text. -/
theorem askAll_cost {sm : SourceMap} (h : sm.WF) {k : Nat} {f : FileInfo} (hk : sm.files[k]? = some f) (hk0 : f.span.lo ≠ 0)
    {p : Nat} (hp : Known f (p - f.span.lo)) (hpl : f.span.lo ≤ p) {qs : List Query}
    (hq : ∀ q ∈ qs, f.span.lo ≤ q.span.lo ∧ q.span.lo ≤ q.span.hi ∧ q.span.hi ≤ f.span.hi) :
    (∃ sm', (askAll sm qs).val = .ok sm' ∧ sm'.WF ∧ sm.Same sm') ∧
    (askAll sm qs).cost ≤ 2 * travel p qs +
      qs.length * (Nat.log2 sm.files.length + 6 * Nat.log2 (f.sourceText.length + 1) + 14) := by
  induction qs generalizing sm f p with
  | nil => exact ⟨⟨sm, rfl, h, .refl _⟩, Nat.zero_le _⟩
  | cons q qs ih =>
    obtain ⟨h1, h2, h3⟩ := hq q (by simp)
    have hc : q.span.isCallSite = false := by
      unfold Span.isCallSite
      simp
      omega
    obtain ⟨sm', f', v, w, sa, hf', hs, ht, -, kn, hb⟩ := ask_cost h q ⟨hk, h1, h2, h3⟩ hc hp (.inr rfl)
    have hcp : q.copied ≤ gap q.span.lo q.span.hi := by
      cases q <;> simp [Query.span, Query.copied, gap]
    obtain ⟨⟨sm2, v2, w2, sa2⟩, hb2⟩ := ih w hf' (by rw [hs]; exact hk0) (p := q.span.hi) (by rw [hs]; exact kn)
      (by rw [hs]; omega) (fun q' hq' => by rw [hs]; exact hq q' (by simp [hq']))
    rw [same_length sa, ht] at hb2
    refine ⟨⟨sm2, ?_, w2, sa.trans sa2⟩, ?_⟩
    · unfold askAll
      rw [val_bind, v]
      exact v2
    · unfold askAll
      rw [cost_bind_eq v]
      simp only [travel, List.length_cons, Nat.add_mul, Nat.one_mul]
      have g1 : gap (p - f.span.lo) (q.span.lo - f.span.lo) = gap p q.span.lo := by unfold gap; omega
      have g2 : gap (q.span.lo - f.span.lo) (q.span.hi - f.span.lo) = gap q.span.lo q.span.hi := by unfold gap; omega
      rw [g1, g2] at hb
      generalize qs.length * _ = X at *
      omega

/-! ### Parsing -/

theorem length_le_strLen (s : List Char) : s.length ≤ strLen s := by
  induction s with
  | nil => exact Nat.le_refl _
  | cons c s ih =>
    have := c.utf8Size_pos
    simp only [List.length_cons, strLen_cons]
    omega

section
variable [UnicodeTables]

theorem getCursor_cost (sm : SourceMap) (src : List Char) :
    (TM.getCursor sm src : Timed ε _).cost ≤ 2 * strLen src + 3 := by
  have hl := length_le_strLen src
  unfold TM.getCursor
  rw [cost_tick]
  refine Nat.le_trans (Nat.add_le_add_left (cost_bind (A := 2 * strLen src + 2) (B := 0) ?_ (fun _ _ => Nat.le_refl _)) _)
    (by omega)
  unfold TM.addFile
  refine Nat.le_trans (cost_bind (A := 1 + strLen src) (B := 1 + strLen src) ?_ (fun r _ => ?_)) (by omega)
  · unfold TM.linesOffsets
    rw [cost_tick, cost_ok]
    omega
  · refine cost_bind (A := 1) (B := strLen src) (Nat.le_refl _) (fun lo _ => ?_)
    refine Nat.le_trans (cost_bind (A := 0) (B := strLen src) (Nat.le_refl _) (fun hi _ => ?_)) (by omega)
    rw [cost_tick, cost_ok]
    omega

end

end PM2.TM
