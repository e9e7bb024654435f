import Verif.Spec.Stream
/-! # The heap refines values -/

namespace PM2
open Heap Spec

/-! ### Lists of counted references -/

theorem count_flatMap_set {α β : Type} [BEq β] (f : α → List β) (x : β) : ∀ {l : List α} {i : Nat} {a : α} (b : α),
    l[i]? = some a →
    ((l.set i b).flatMap f).count x + (f a).count x = (l.flatMap f).count x + (f b).count x
  | [], _, _, _, h => by simp at h
  | y :: l, 0, a, b, h => by
    simp at h
    subst h
    simp [List.count_append]
    omega
  | y :: l, i + 1, a, b, h => by
    simp at h
    have := count_flatMap_set f x b h
    simp [List.count_append]
    omega

theorem count_flatMap_mem {α β : Type} [BEq β] (f : α → List β) (x : β) {l : List α} {a : α} (h : a ∈ l) :
    (f a).count x ≤ (l.flatMap f).count x := by
  obtain ⟨s, t, rfl⟩ := List.append_of_mem h
  simp [List.count_append]
  omega

/-! ### References -/

def _root_.PM2.Heap.HTree.ref : HTree → List Nat
  | .group _ a _ => [a]
  | _ => []

def refs (l : List HTree) : List Nat := l.flatMap HTree.ref

@[simp] theorem refs_nil : refs [] = [] := rfl
@[simp] theorem refs_cons (t : HTree) (l : List HTree) : refs (t :: l) = t.ref ++ refs l := rfl
@[simp] theorem refs_append (l l' : List HTree) : refs (l ++ l') = refs l ++ refs l' := by
  simp [refs]

def cellRefs : Option Cell → List Nat
  | some c => refs c.vec
  | none => []

def heapRefs (h : Heap) : List Nat := h.flatMap cellRefs

theorem get_lt {h : Heap} {a : Nat} {c : Cell} (hg : h.get a = some c) : h[a]? = some (some c) := by
  unfold Heap.get at hg
  cases e : h[a]? with
  | none => rw [e] at hg; simp at hg
  | some o => rw [e] at hg; simp at hg; rw [hg]

theorem get_length {h : Heap} {a : Nat} {c : Cell} (hg : h.get a = some c) : a < h.length := by
  have := get_lt hg
  exact (List.getElem?_eq_some_iff.mp this).1

theorem get_set_self {h : Heap} {a : Nat} {c : Cell} (hg : h.get a = some c) (o : Option Cell) :
    (Heap.get (h.set a o) a) = o := by
  unfold Heap.get
  rw [List.getElem?_set_self (get_length hg)]
  rfl

theorem get_set_ne {h : Heap} {a b : Nat} (hne : b ≠ a) (o : Option Cell) :
    (Heap.get (h.set a o) b) = h.get b := by
  unfold Heap.get
  rw [List.getElem?_set_ne (Ne.symm hne)]

theorem heapRefs_set {h : Heap} {a : Nat} {c : Cell} (hg : h.get a = some c) (o : Option Cell) (x : Nat) :
    (heapRefs (h.set a o)).count x + (refs c.vec).count x =
      (heapRefs h).count x + (cellRefs o).count x :=
  count_flatMap_set cellRefs x o (get_lt hg)

theorem refs_heap {h : Heap} {a : Nat} {c : Cell} (hg : h.get a = some c) (x : Nat) :
    (refs c.vec).count x ≤ (heapRefs h).count x :=
  count_flatMap_mem cellRefs x (List.mem_of_getElem? (get_lt hg))

/-! ### Meanings -/

theorem Spec.Shows.present {h : Heap} {l : List HTree} {ts : List TokenTree} (hs : Shows h l ts) :
    ∀ a ∈ refs l, ∃ c, h.get a = some c := by
  induction hs with
  | nil => simp
  | ident _ ih | punct _ ih | literal _ ih => simpa [HTree.ref] using ih
  | group hg _ _ _ ih =>
    intro a ha
    simp [HTree.ref] at ha
    rcases ha with rfl | ha
    · exact ⟨_, hg⟩
    · exact ih a ha

/-- the meaning depends only on the cells that can be reached -/
theorem Spec.Shows.frame {h h' : Heap} {P : Nat → Prop}
    (hP : ∀ a c, P a → h.get a = some c → ∃ c', h'.get a = some c' ∧ c'.vec = c.vec)
    (hc : ∀ a c, h.get a = some c → ∀ b ∈ refs c.vec, P b)
    {l : List HTree} {ts : List TokenTree} (hs : Shows h l ts) (hl : ∀ a ∈ refs l, P a) :
    Shows h' l ts := by
  induction hs with
  | nil => exact .nil
  | ident _ ih => exact .ident (ih (by simpa [HTree.ref] using hl))
  | punct _ ih => exact .punct (ih (by simpa [HTree.ref] using hl))
  | literal _ ih => exact .literal (ih (by simpa [HTree.ref] using hl))
  | group hg _ _ ih1 ih2 =>
    simp only [refs_cons, HTree.ref, List.singleton_append, List.mem_cons, forall_eq_or_imp] at hl
    obtain ⟨c', h1, h2⟩ := hP _ _ hl.1 hg
    exact .group h1 (by rw [h2]; exact ih1 (hc _ _ hg)) (ih2 hl.2)

theorem Spec.Shows.append {h : Heap} {l l' : List HTree} {ts ts' : List TokenTree} (hs : Shows h l ts)
    (hs' : Shows h l' ts') : Shows h (l ++ l') (ts ++ ts') := by
  induction hs with
  | nil => exact hs'
  | ident _ ih => exact .ident ih
  | punct _ ih => exact .punct ih
  | literal _ ih => exact .literal ih
  | group hg h1 _ _ ih => exact .group hg h1 ih

theorem Spec.Shows.unique {h : Heap} {l : List HTree} {ts : List TokenTree} (hs : Shows h l ts) :
    ∀ {ts'}, Shows h l ts' → ts = ts' := by
  induction hs with
  | nil => intro ts' h'; cases h'; rfl
  | ident _ ih => intro ts' h'; cases h' with | ident h' => rw [ih h']
  | punct _ ih => intro ts' h'; cases h' with | punct h' => rw [ih h']
  | literal _ ih => intro ts' h'; cases h' with | literal h' => rw [ih h']
  | group hg _ _ ih1 ih2 =>
    intro ts' h'
    cases h' with
    | group hg' h1 h2 =>
      rw [hg] at hg'
      cases hg'
      rw [ih1 h1, ih2 h2]

/-! ### The invariant -/

/-- The counts are right, where `n a` is the number of references to `a` from outside of the heap. -/
structure Inv (h : Heap) (n : Nat → Nat) : Prop where
  rc : ∀ a c, h.get a = some c → c.rc = n a + (heapRefs h).count a
  dead : ∀ a, h.get a = none → n a + (heapRefs h).count a = 0
  pos : ∀ a c, h.get a = some c → 0 < c.rc
  shows : ∀ a c, h.get a = some c → ∃ ts, Shows h c.vec ts

theorem Inv.live {h : Heap} {n : Nat → Nat} (hi : Inv h n) {a : Nat} (ha : 0 < n a) :
    ∃ c, h.get a = some c := by
  cases e : h.get a with
  | some c => exact ⟨c, rfl⟩
  | none => have := hi.dead a e; omega

/-- `HFrame h h' n`: what is referenced at most as often as `n` says means the same in `h'` as in `h`. -/
def HFrame (h h' : Heap) (n : Nat → Nat) : Prop :=
  ∀ l ts, (∀ x, (refs l).count x ≤ n x) → Shows h l ts → Shows h' l ts

theorem HFrame.refl (h : Heap) (n : Nat → Nat) : HFrame h h n := fun _ _ _ h => h

theorem HFrame.trans {h1 h2 h3 : Heap} {n m : Nat → Nat} (h : HFrame h1 h2 n) (h' : HFrame h2 h3 m)
    (hle : ∀ x, m x ≤ n x) : HFrame h1 h3 m :=
  fun l ts hl hs => h' l ts hl (h l ts (fun x => Nat.le_trans (hl x) (hle x)) hs)

theorem HFrame.mono {h1 h2 : Heap} {n m : Nat → Nat} (h : HFrame h1 h2 n) (hle : ∀ x, m x ≤ n x) :
    HFrame h1 h2 m :=
  fun l ts hl hs => h l ts (fun x => Nat.le_trans (hl x) (hle x)) hs

/-- changing the count of a cell -/
theorem shows_setRc {h : Heap} {a : Nat} {c : Cell} (hg : h.get a = some c) (k : Nat) {l : List HTree}
    {ts : List TokenTree} (hs : Shows h l ts) : Shows (h.set a (some ⟨k, c.vec⟩)) l ts := by
  refine hs.frame (P := fun _ => True) (fun b c' _ hb => ?_) (fun _ _ _ _ _ => trivial) (fun _ _ => trivial)
  by_cases e : b = a
  · subst e
    rw [hg] at hb
    cases hb
    exact ⟨_, get_set_self hg _, rfl⟩
  · exact ⟨c', by rw [get_set_ne e]; exact hb, rfl⟩

theorem Inv.setRc {h : Heap} {n n' : Nat → Nat} (hi : Inv h n) {a : Nat} {c : Cell}
    (hg : h.get a = some c) {k : Nat} (hk : 0 < k) (ha : n' a + c.rc = n a + k)
    (hx : ∀ x, x ≠ a → n' x = n x) :
    Inv (h.set a (some ⟨k, c.vec⟩)) n' ∧ (∀ x, (heapRefs (h.set a (some ⟨k, c.vec⟩))).count x =
      (heapRefs h).count x) := by
  have hr : ∀ x, (heapRefs (h.set a (some ⟨k, c.vec⟩))).count x = (heapRefs h).count x := by
    intro x
    have := heapRefs_set hg (some ⟨k, c.vec⟩) x
    simp only [cellRefs] at this
    omega
  refine ⟨⟨?_, ?_, ?_, ?_⟩, hr⟩
  · intro b d hb
    rw [hr]
    by_cases e : b = a
    · subst e
      rw [get_set_self hg] at hb
      cases hb
      have := hi.rc _ _ hg
      simp only
      omega
    · rw [get_set_ne e] at hb
      rw [hx b e]
      exact hi.rc _ _ hb
  · intro b hb
    rw [hr]
    by_cases e : b = a
    · subst e
      rw [get_set_self hg] at hb
      cases hb
    · rw [get_set_ne e] at hb
      rw [hx b e]
      exact hi.dead _ hb
  · intro b d hb
    by_cases e : b = a
    · subst e
      rw [get_set_self hg] at hb
      cases hb
      exact hk
    · rw [get_set_ne e] at hb
      exact hi.pos _ _ hb
  · intro b d hb
    by_cases e : b = a
    · subst e
      rw [get_set_self hg] at hb
      cases hb
      obtain ⟨ts, hs⟩ := hi.shows _ _ hg
      exact ⟨ts, shows_setRc hg k hs⟩
    · rw [get_set_ne e] at hb
      obtain ⟨ts, hs⟩ := hi.shows _ _ hb
      exact ⟨ts, shows_setRc hg k hs⟩

/-- changing or freeing a cell that no cell refers to -/
theorem shows_setVec {h : Heap} {a : Nat} {c : Cell} (hg : h.get a = some c) (o : Option Cell)
    (h0 : (heapRefs h).count a = 0) {l : List HTree} {ts : List TokenTree} (hs : Shows h l ts)
    (hl : a ∉ refs l) : Shows (h.set a o) l ts := by
  refine hs.frame (P := fun b => b ≠ a) (fun b c' hne hb => ?_) (fun b c' hb x hx => ?_)
    (fun x hx => ?_)
  · exact ⟨c', by rw [get_set_ne hne]; exact hb, rfl⟩
  · rintro rfl
    have := refs_heap hb x
    have := List.count_pos_iff.mpr hx
    omega
  · rintro rfl
    exact hl hx

theorem Inv.setVec {h : Heap} {n n' : Nat → Nat} (hi : Inv h n) {a : Nat} {c : Cell}
    (hg : h.get a = some c) (h1 : c.rc = 1) (hna : n a = 1) (hna' : n' a = 1) {v : List HTree}
    {ts : List TokenTree} (hv : Shows h v ts)
    (hx : ∀ x, n' x + (refs v).count x = n x + (refs c.vec).count x) :
    Inv (h.set a (some ⟨1, v⟩)) n' ∧ (∀ x, (heapRefs (h.set a (some ⟨1, v⟩))).count x + (refs c.vec).count x =
      (heapRefs h).count x + (refs v).count x) := by
  have h0 : (heapRefs h).count a = 0 := by have := hi.rc _ _ hg; omega
  have hca : (refs c.vec).count a = 0 := by have := refs_heap hg a; omega
  have hva : (refs v).count a = 0 := by have := hx a; omega
  have hr := heapRefs_set hg (some ⟨1, v⟩)
  simp only [cellRefs] at hr
  have hva' : a ∉ refs v := List.count_eq_zero.mp hva
  refine ⟨⟨?_, ?_, ?_, ?_⟩, hr⟩
  · intro b d hb
    have := hr b
    have := hx b
    by_cases e : b = a
    · subst e
      rw [get_set_self hg] at hb
      cases hb
      simp only
      omega
    · rw [get_set_ne e] at hb
      have := hi.rc _ _ hb
      omega
  · intro b hb
    have := hr b
    have := hx b
    by_cases e : b = a
    · subst e
      rw [get_set_self hg] at hb
      cases hb
    · rw [get_set_ne e] at hb
      have := hi.dead _ hb
      omega
  · intro b d hb
    by_cases e : b = a
    · subst e
      rw [get_set_self hg] at hb
      cases hb
      exact Nat.one_pos
    · rw [get_set_ne e] at hb
      exact hi.pos _ _ hb
  · intro b d hb
    by_cases e : b = a
    · subst e
      rw [get_set_self hg] at hb
      cases hb
      exact ⟨ts, shows_setVec hg _ h0 hv hva'⟩
    · rw [get_set_ne e] at hb
      obtain ⟨ts, hs⟩ := hi.shows _ _ hb
      refine ⟨ts, shows_setVec hg _ h0 hs (fun hm => ?_)⟩
      have := refs_heap hb a
      have := List.count_pos_iff.mpr hm
      omega

theorem Inv.free {h : Heap} {n n' : Nat → Nat} (hi : Inv h n) {a : Nat} {c : Cell}
    (hg : h.get a = some c) (h1 : c.rc = 1) (hna : n a = 1) (hna' : n' a = 0) (hv : c.vec = [])
    (hx : ∀ x, x ≠ a → n' x = n x) :
    Inv (h.set a none) n' ∧ ∀ x, (heapRefs (h.set a none)).count x = (heapRefs h).count x := by
  have h0 : (heapRefs h).count a = 0 := by have := hi.rc _ _ hg; omega
  have hr : ∀ x, (heapRefs (h.set a none)).count x = (heapRefs h).count x := by
    intro x
    have := heapRefs_set hg none x
    simpa [cellRefs, hv] using this
  refine ⟨⟨?_, ?_, ?_, ?_⟩, hr⟩
  · intro b d hb
    rw [hr]
    by_cases e : b = a
    · subst e
      rw [get_set_self hg] at hb
      cases hb
    · rw [get_set_ne e] at hb
      rw [hx b e]
      exact hi.rc _ _ hb
  · intro b hb
    rw [hr]
    by_cases e : b = a
    · subst e
      omega
    · rw [get_set_ne e] at hb
      rw [hx b e]
      exact hi.dead _ hb
  · intro b d hb
    by_cases e : b = a
    · subst e
      rw [get_set_self hg] at hb
      cases hb
    · rw [get_set_ne e] at hb
      exact hi.pos _ _ hb
  · intro b d hb
    by_cases e : b = a
    · subst e
      rw [get_set_self hg] at hb
      cases hb
    · rw [get_set_ne e] at hb
      obtain ⟨ts, hs⟩ := hi.shows _ _ hb
      refine ⟨ts, shows_setVec hg _ h0 hs (fun hm => ?_)⟩
      have := refs_heap hb a
      have := List.count_pos_iff.mpr hm
      omega

theorem get_alloc {h : Heap} {v : List HTree} (x : Nat) :
    (h.alloc v).1.get x = if x = h.length then some ⟨1, v⟩ else h.get x := by
  unfold Heap.alloc Heap.get
  by_cases e : x = h.length
  · subst e; simp
  · rw [if_neg e]
    by_cases e' : x < h.length
    · simp [List.getElem?_append_left e']
    · rw [List.getElem?_eq_none (l := h ++ _) (by simp; omega), List.getElem?_eq_none (l := h) (by omega)]

theorem get_ge {h : Heap} : h.get h.length = none := by
  unfold Heap.get
  rw [List.getElem?_eq_none (by omega)]
  rfl

theorem shows_alloc {h : Heap} {v l : List HTree} {ts : List TokenTree} (hs : Shows h l ts) :
    Shows (h.alloc v).1 l ts := by
  refine hs.frame (P := fun _ => True) (fun b c' _ hb => ?_) (fun _ _ _ _ _ => trivial) (fun _ _ => trivial)
  refine ⟨c', ?_, rfl⟩
  rw [get_alloc, if_neg]
  · exact hb
  · rintro rfl
    rw [get_ge] at hb
    cases hb

theorem Inv.alloc {h : Heap} {n n' : Nat → Nat} (hi : Inv h n) {v : List HTree} {ts : List TokenTree}
    (hv : Shows h v ts)
    (hx : ∀ x, n' x + (refs v).count x = n x + if x = h.length then 1 else 0) :
    Inv (h.alloc v).1 n' ∧ ∀ x, (heapRefs (h.alloc v).1).count x = (heapRefs h).count x + (refs v).count x := by
  have hr : ∀ x, (heapRefs (h.alloc v).1).count x = (heapRefs h).count x + (refs v).count x := by
    intro x
    simp [Heap.alloc, heapRefs, cellRefs, List.count_append]
  refine ⟨⟨?_, ?_, ?_, ?_⟩, hr⟩
  · intro b d hb
    rw [hr]
    have := hx b
    rw [get_alloc] at hb
    split at hb
    · rename_i e
      cases hb
      have := hi.dead h.length get_ge
      subst e
      simp at *
      omega
    · have := hi.rc _ _ hb
      rename_i e
      rw [if_neg e] at *
      omega
  · intro b hb
    rw [hr]
    have := hx b
    rw [get_alloc] at hb
    split at hb
    · cases hb
    · have := hi.dead _ hb
      rename_i e
      rw [if_neg e] at *
      omega
  · intro b d hb
    rw [get_alloc] at hb
    split at hb
    · cases hb; exact Nat.one_pos
    · exact hi.pos _ _ hb
  · intro b d hb
    rw [get_alloc] at hb
    split at hb
    · cases hb; exact ⟨ts, shows_alloc hv⟩
    · obtain ⟨ts, hs⟩ := hi.shows _ _ hb
      exact ⟨ts, shows_alloc hs⟩

/-! ### The functions -/

theorem read_some {h : Heap} {a : Nat} {c : Cell} (hg : h.get a = some c) : h.read a = .ok c := by
  unfold Heap.read
  rw [hg]

theorem rcClone_spec {h : Heap} {n : Nat → Nat} (hi : Inv h n) {a : Nat} {c : Cell} (hg : h.get a = some c) :
    rcClone h a = .ok (h.set a (some ⟨c.rc + 1, c.vec⟩)) ∧
    Inv (h.set a (some ⟨c.rc + 1, c.vec⟩)) (fun x => n x + [a].count x) ∧
    (∀ l ts, Shows h l ts → Shows (h.set a (some ⟨c.rc + 1, c.vec⟩)) l ts) ∧
    (∀ x, (heapRefs (h.set a (some ⟨c.rc + 1, c.vec⟩))).count x = (heapRefs h).count x) := by
  obtain ⟨h1, h2⟩ := hi.setRc (n' := fun x => n x + [a].count x) hg (k := c.rc + 1) (by omega) (by simp; omega)
    (fun x hx => by simp [Ne.symm hx])
  refine ⟨?_, h1, fun l ts hs => shows_setRc hg _ hs, h2⟩
  unfold rcClone
  rw [read_some hg]
  rfl

theorem cloneVec_spec : ∀ (l : List HTree) {h : Heap} {n : Nat → Nat}, Inv h n →
    (∀ a ∈ refs l, ∃ c, h.get a = some c) →
    ∃ h', cloneVec h l = .ok h' ∧ Inv h' (fun x => n x + (refs l).count x) ∧
      (∀ l ts, Shows h l ts → Shows h' l ts) ∧
      (∀ x, (heapRefs h').count x = (heapRefs h).count x) ∧
      (∀ a c, h.get a = some c → ∃ c', h'.get a = some c' ∧ c'.vec = c.vec)
  | [], h, n, hi, _ => ⟨h, rfl, by simpa using hi, fun _ _ h => h, fun _ => rfl, fun a c h => ⟨c, h, rfl⟩⟩
  | t :: l, h, n, hi, hp => by
    by_cases ht : ∃ d a s, t = .group d a s
    · obtain ⟨d, a, s, rfl⟩ := ht
      obtain ⟨c, hg⟩ := hp a (by simp [HTree.ref])
      obtain ⟨e, h1, h2, h3⟩ := rcClone_spec hi hg
      have hv : ∀ b c', h.get b = some c' →
          ∃ c'', Heap.get (h.set a (some ⟨c.rc + 1, c.vec⟩)) b = some c'' ∧ c''.vec = c'.vec := by
        intro b c' hb
        by_cases e : b = a
        · subst e
          rw [hg] at hb
          cases hb
          exact ⟨_, get_set_self hg _, rfl⟩
        · exact ⟨c', by rw [get_set_ne e]; exact hb, rfl⟩
      obtain ⟨h', e', g1, g2, g3, g4⟩ := cloneVec_spec l h1 (fun b hb => by
        obtain ⟨c', hc'⟩ := hp b (by simp [hb])
        obtain ⟨c'', h4, -⟩ := hv b c' hc'
        exact ⟨c'', h4⟩)
      refine ⟨h', ?_, ?_, fun l ts hs => g2 _ _ (h2 _ _ hs), fun x => by rw [g3, h3], ?_⟩
      · unfold cloneVec Heap.cloneTree
        simp only [e]
        exact e'
      · have e : (fun x => n x + (refs (HTree.group d a s :: l)).count x) =
            fun x => n x + [a].count x + (refs l).count x := by
          funext x
          simp [HTree.ref, List.count_append, List.count_cons]
          omega
        rw [e]
        exact g1
      · intro b c' hb
        obtain ⟨c'', h4, h5⟩ := hv b c' hb
        obtain ⟨c3, h6, h7⟩ := g4 _ _ h4
        exact ⟨c3, h6, by rw [h7, h5]⟩
    · have e0 : t.ref = [] := by cases t <;> simp_all [HTree.ref]
      obtain ⟨h', e', g⟩ := cloneVec_spec l hi (fun a ha => hp a (by simp [ha]))
      refine ⟨h', ?_, by simpa [e0] using g⟩
      unfold cloneVec
      have : Heap.cloneTree h t = .ok h := by
        cases t with
        | group d a s => exact absurd ⟨_, _, _, rfl⟩ ht
        | _ => rfl
      rw [this]
      exact e'

theorem rcDrop_shared {dropT : Heap → HTree → Res Unit Heap} {h : Heap} {a : Nat} {c : Cell}
    (hg : h.get a = some c) (hc : c.rc ≠ 1) : rcDrop dropT h a = .ok (h.set a (some ⟨c.rc - 1, c.vec⟩)) := by
  unfold rcDrop
  rw [read_some hg]
  simp only [bind, Res.bind, if_neg hc]

theorem rcDrop_empty {dropT : Heap → HTree → Res Unit Heap} {h : Heap} {a : Nat}
    (hg : h.get a = some ⟨1, []⟩) : rcDrop dropT h a = .ok (h.set a none) := by
  unfold rcDrop
  rw [read_some hg]
  simp [bind, Res.bind, dropVec]

theorem dropStream_shared {d : Nat} {h : Heap} {a : Nat} {c : Cell}
    (hg : h.get a = some c) (hc : c.rc ≠ 1) :
    dropStream (d + 1) h a = .ok (h.set a (some ⟨c.rc - 1, c.vec⟩)) := by
  unfold dropStream
  rw [read_some hg]
  simp only [bind, Res.bind, if_neg hc]
  exact rcDrop_shared hg hc

theorem dropStream_empty {d : Nat} {h : Heap} {a : Nat} (hg : h.get a = some ⟨1, []⟩) :
    dropStream (d + 1) h a = .ok (h.set a none) := by
  unfold dropStream
  rw [read_some hg]
  simp only [bind, Res.bind, if_true]
  unfold dropLoop
  simp only
  rw [rcDrop_empty (get_set_self hg _)]
  simp

/-! ### `Drop` -/

theorem tokens_set {h : Heap} {a : Nat} {c : Cell} (hg : h.get a = some c) (o : Option Cell) :
    Heap.tokens (h.set a o) + c.vec.length = h.tokens + (match o with | some c => c.vec.length | none => 0) := by
  have key : ∀ (f : Option Cell → Nat) (l : List (Option Cell)) (i : Nat) (x y : Option Cell), l[i]? = some x →
      ((l.set i y).map f).sum + f x = (l.map f).sum + f y := by
    intro f l
    induction l with
    | nil => intro i x y h; simp at h
    | cons z l ih =>
      intro i x y h
      cases i with
      | zero => simp at h; subst h; simp; omega
      | succ i => simp at h; have := ih i x y h; rw [List.set_cons_succ, List.map_cons, List.map_cons, List.sum_cons, List.sum_cons]; omega
  exact key (fun o => match o with | some c => c.vec.length | none => 0) h a (some c) o (get_lt hg)

def stackLen (stack : List (List HTree)) : Nat := (stack.map List.length).sum

theorem dropLoop_spec {d : Nat} {dropT : Heap → HTree → Res Unit Heap}
    (hT : ∀ h dl b s, dropT h (.group dl b s) = dropStream (d + 1) h b) :
    ∀ (fuel : Nat) {h : Heap} {n : Nat → Nat} {current : List HTree} {stack : List (List HTree)},
    Inv h (fun x => n x + ((refs current).count x + (refs stack.flatten).count x)) →
    2 * (h.tokens + current.length + stackLen stack) + stack.length < fuel →
    ∃ h', dropLoop dropT fuel h current stack = .ok h' ∧ Inv h' n ∧ HFrame h h' n ∧
      (∀ x, (heapRefs h').count x ≤ (heapRefs h).count x)
  | 0, _, _, _, _, _, hf => by omega
  | fuel + 1, h, n, [], [], hi, _ => by
    refine ⟨h, rfl, by simpa using hi, HFrame.refl _ _, fun _ => Nat.le_refl _⟩
  | fuel + 1, h, n, [], next :: stack, hi, hf => by
    have := dropLoop_spec hT fuel (h := h) (n := n) (current := next) (stack := stack)
      (by simpa [List.count_append] using hi) (by simp [stackLen] at hf ⊢; omega)
    obtain ⟨h', e, g⟩ := this
    exact ⟨h', by unfold dropLoop; exact e, g⟩
  | fuel + 1, h, n, t :: current, stack, hi, hf => by
    by_cases ht : ∃ d a s, t = .group d a s
    · obtain ⟨dl, a, s, rfl⟩ := ht
      obtain ⟨c, hg⟩ := hi.live (a := a) (by simp [HTree.ref]; omega)
      have hrc := hi.rc _ _ hg
      simp only [refs_cons, HTree.ref, List.singleton_append, List.count_cons_self] at hrc
      by_cases hc : c.rc = 1
      · -- unique
        have h0 : (heapRefs h).count a = 0 := by omega
        have hca : (refs c.vec).count a = 0 := by have := refs_heap hg a; omega
        obtain ⟨i1, r1⟩ := hi.setVec (n' := fun x => n x + (((refs (.group dl a s :: current)).count x +
            (refs stack.flatten).count x)) + (refs c.vec).count x) hg hc
          (by simp [HTree.ref]; omega) (by simp [HTree.ref]; omega) (v := []) .nil (by intro x; simp)
        obtain ⟨i2, r2⟩ := i1.free (n' := fun x => n x + ((refs c.vec).count x +
            (refs (current :: stack).flatten).count x)) (get_set_self hg _) rfl
          (by simp [HTree.ref]; omega) (by simp [List.count_append]; omega) rfl
          (fun x hx => by simp [HTree.ref, List.count_append, List.count_cons, Ne.symm hx]; omega)
        have tk := tokens_set hg (some ⟨1, []⟩)
        have tk2 := tokens_set (get_set_self hg (some ⟨1, []⟩)) none
        simp only [List.set_set, List.length_nil] at i2 r1 r2 tk tk2
        obtain ⟨h', e, g1, g2, g3⟩ := dropLoop_spec hT fuel (n := n) (current := c.vec)
          (stack := current :: stack) i2 (by simp [stackLen] at hf ⊢; omega)
        refine ⟨h', ?_, g1, ?_, ?_⟩
        · unfold dropLoop
          simp only [read_some hg, bind, Res.bind, if_pos hc, hT]
          rw [hc, dropStream_empty (get_set_self hg _)]
          simp only [List.set_set]
          exact e
        · refine HFrame.trans (n := n) (fun l ts hl hs => ?_) g2 (fun _ => Nat.le_refl _)
          refine shows_setVec hg none h0 hs (fun hm => ?_)
          have := hl a
          have := List.count_pos_iff.mpr hm
          omega
        · intro x
          have := g3 x
          have := r1 x
          have := r2 x
          simp at *
          omega
      · -- shared
        have hpos := hi.pos _ _ hg
        obtain ⟨i1, r1⟩ := hi.setRc (n' := fun x => n x + ((refs current).count x +
          (refs stack.flatten).count x)) hg (k := c.rc - 1) (by omega) (by simp [HTree.ref]; omega)
          (fun x hx => by simp [HTree.ref, List.count_cons, Ne.symm hx])
        have tk := tokens_set hg (some ⟨c.rc - 1, c.vec⟩)
        obtain ⟨h', e, g1, g2, g3⟩ := dropLoop_spec hT fuel (n := n) i1 (by
          simp [stackLen] at hf tk ⊢; omega)
        refine ⟨h', ?_, g1, ?_, ?_⟩
        · unfold dropLoop
          simp only [read_some hg, bind, Res.bind, if_neg hc, hT]
          rw [dropStream_shared hg hc]
          exact e
        · exact HFrame.trans (fun l ts _ hs => shows_setRc hg _ hs) g2 (fun _ => Nat.le_refl _)
        · intro x
          have := g3 x
          have := r1 x
          omega
    · have e0 : t.ref = [] := by cases t <;> simp_all [HTree.ref]
      obtain ⟨h', e, g⟩ := dropLoop_spec hT fuel (h := h) (n := n) (current := current) (stack := stack)
        (by simpa [e0] using hi) (by simp at hf ⊢; omega)
      refine ⟨h', ?_, g⟩
      unfold dropLoop
      cases t with
      | group d a s => exact absurd ⟨_, _, _, rfl⟩ ht
      | _ => exact e

/-- Dropping a stream, with calls nested at most twice. -/
theorem dropStream_spec {d : Nat} {h : Heap} {n n' : Nat → Nat} {a : Nat} (hi : Inv h n) (ha : 0 < n a)
    (hn : ∀ x, n x = n' x + [a].count x) :
    ∃ h', dropStream (d + 2) h a = .ok h' ∧ Inv h' n' ∧ HFrame h h' n' ∧
      (∀ x, (heapRefs h').count x ≤ (heapRefs h).count x) := by
  obtain ⟨c, hg⟩ := hi.live ha
  have hrc := hi.rc _ _ hg
  have hna := hn a
  simp at hna
  by_cases hc : c.rc = 1
  · have h0 : (heapRefs h).count a = 0 := by omega
    have hca : (refs c.vec).count a = 0 := by have := refs_heap hg a; omega
    obtain ⟨i1, r1⟩ := hi.setVec (n' := fun x => n x + (refs c.vec).count x) hg hc (by omega) (by omega)
      (v := []) .nil (by intro x; simp)
    have tk := tokens_set hg (some ⟨1, []⟩)
    -- the loop
    obtain ⟨h1, e1, g1, g2, g3⟩ := dropLoop_spec (d := d)
      (dropT := dropTreeWith (dropStream (d + 1)))
      (fun _ _ _ _ => rfl) (2 * h.tokens + 1) (n := n) (current := c.vec) (stack := []) (by simpa using i1)
      (by simp [stackLen] at tk ⊢; omega)
    obtain ⟨c1, hg1⟩ := g1.live ha
    have hrc1 := g1.rc _ _ hg1
    have := g3 a
    have hr1 := r1 a
    simp at hr1
    have hc1 : c1.rc = 1 := by omega
    have hv1 : c1.vec = [] := by
      have := g2 [.group .none a Span.callSite] [.group .none [] Span.callSite] (by
        intro x
        by_cases e : x = a
        · subst e; simp [HTree.ref]; omega
        · simp [HTree.ref, Ne.symm e]) (.group (get_set_self hg _) .nil .nil)
      cases this with
      | group hgx hs _ =>
        rw [hg1] at hgx
        cases hgx
        generalize c1.vec = v at hs
        cases hs
        rfl
    have ec1 : c1 = ⟨1, []⟩ := by cases c1; simp_all
    subst ec1
    obtain ⟨i2, r2⟩ := g1.free (n' := n') hg1 rfl (by omega) (by omega) rfl
      (fun x hx => by have := hn x; simp [Ne.symm hx] at this; omega)
    refine ⟨h1.set a none, ?_, i2, ?_, ?_⟩
    · unfold dropStream
      rw [read_some hg]
      simp only [bind, Res.bind, if_pos hc]
      rw [hc, e1]
      exact rcDrop_empty hg1
    · intro l ts hl hs
      have hal : a ∉ refs l := fun hm => by
        have := hl a
        have := List.count_pos_iff.mpr hm
        omega
      refine shows_setVec hg1 none (by omega) (g2 l ts (fun x => ?_) (shows_setVec hg _ h0 hs hal)) hal
      have := hl x
      have := hn x
      omega
    · intro x
      have := r2 x
      have := g3 x
      have := r1 x
      simp at this
      omega
  · have hpos := hi.pos _ _ hg
    obtain ⟨i1, r1⟩ := hi.setRc (n' := n') hg (k := c.rc - 1) (by omega) (by omega)
      (fun x hx => by have := hn x; simp [Ne.symm hx] at this; omega)
    exact ⟨_, dropStream_shared hg hc, i1, fun l ts _ hs => shows_setRc hg _ hs, fun x => Nat.le_of_eq (r1 x)⟩

theorem dropTree_spec {d : Nat} {h : Heap} {n n' : Nat → Nat} {t : HTree} (hi : Inv h n)
    (hn : ∀ x, n x = n' x + t.ref.count x) :
    ∃ h', Heap.dropTree (d + 2) h t = .ok h' ∧ Inv h' n' ∧ HFrame h h' n' ∧
      (∀ x, (heapRefs h').count x ≤ (heapRefs h).count x) := by
  cases t with
  | group dl a s =>
    exact dropStream_spec hi (by have := hn a; simp [HTree.ref] at this; omega) hn
  | _ =>
    have e : n = n' := by funext x; simpa [HTree.ref] using hn x
    subst e
    exact ⟨h, rfl, hi, HFrame.refl _ _, fun _ => Nat.le_refl _⟩

theorem dropVec_spec {d : Nat} : ∀ (l : List HTree) {h : Heap} {n n' : Nat → Nat}, Inv h n →
    (∀ x, n x = n' x + (refs l).count x) →
    ∃ h', dropVec (Heap.dropTree (d + 2)) h l = .ok h' ∧ Inv h' n' ∧ HFrame h h' n' ∧
      (∀ x, (heapRefs h').count x ≤ (heapRefs h).count x)
  | [], h, n, n', hi, hn => by
    have e : n = n' := by funext x; simpa using hn x
    subst e
    exact ⟨h, rfl, hi, HFrame.refl _ _, fun _ => Nat.le_refl _⟩
  | t :: l, h, n, n', hi, hn => by
    obtain ⟨h1, e1, i1, f1, r1⟩ := dropTree_spec (d := d) (t := t) (n' := fun x => n' x + (refs l).count x) hi
      (fun x => by rw [hn x]; simp [List.count_append]; omega)
    obtain ⟨h2, e2, i2, f2, r2⟩ := dropVec_spec (d := d) l i1 (fun x => rfl)
    refine ⟨h2, ?_, i2, f1.trans f2 (fun x => by simp), fun x => Nat.le_trans (r2 x) (r1 x)⟩
    unfold dropVec
    simp only [bind, Res.bind, e1]
    exact e2

/-! ### `make_mut`, `take_inner` -/

theorem makeMut_spec {h : Heap} {n n' : Nat → Nat} {a : Nat} (hi : Inv h n) (ha : 0 < n a)
    (hn : ∀ x, n x = n' x + [a].count x) {c : Cell} (hg : h.get a = some c) {ts : List TokenTree}
    (hs : Shows h c.vec ts) :
    ∃ h' b c', Heap.makeMut h a = .ok (h', b) ∧ Inv h' (fun x => n' x + [b].count x) ∧
      (∀ l ts, Shows h l ts → Shows h' l ts) ∧
      h'.get b = some c' ∧ Shows h' c'.vec ts ∧ n' b + (heapRefs h').count b = 0 ∧
      (∀ x, (heapRefs h').count x ≤ 2 * (heapRefs h).count x) := by
  have hrc := hi.rc _ _ hg
  have hna := hn a
  simp at hna
  by_cases hc : c.rc = 1
  · refine ⟨h, a, c, ?_, ?_, fun _ _ h => h, hg, hs, by omega, fun x => by omega⟩
    · unfold Heap.makeMut
      rw [read_some hg]
      simp only [bind, Res.bind, if_pos hc]
    · have e : n = fun x => n' x + [a].count x := by funext x; exact hn x
      rw [← e]; exact hi
  · obtain ⟨h1, e1, i1, s1, r1, v1⟩ := cloneVec_spec c.vec hi hs.present
    obtain ⟨c1, hg1, hv1⟩ := v1 _ _ hg
    obtain ⟨i2, r2⟩ := i1.alloc (n' := fun x => n x + [h1.length].count x) (s1 _ _ hs) (by
      intro x
      by_cases e : x = h1.length
      · subst e; simp; omega
      · simp [e, Ne.symm e])
    have hne : a ≠ h1.length := by
      rintro rfl
      rw [get_ge] at hg1
      cases hg1
    have hg2 : (h1.alloc c.vec).1.get a = some c1 := by rw [get_alloc, if_neg hne]; exact hg1
    have hrc2 := i2.rc _ _ hg2
    simp [Ne.symm hne] at hrc2
    have := r1 a
    have := r2 a
    obtain ⟨i3, r3⟩ := i2.setRc (n' := fun x => n' x + [h1.length].count x) hg2 (k := c1.rc - 1)
      (by have := hi.pos _ _ hg; omega) (by simp [Ne.symm hne]; omega)
      (fun x hx => by have := hn x; simp [Ne.symm hx] at this; simp [this])
    refine ⟨(h1.alloc c.vec).1.set a (some ⟨c1.rc - 1, c1.vec⟩), h1.length, ⟨1, c.vec⟩, ?_, i3,
      fun l ts h => shows_setRc hg2 _ (shows_alloc (s1 _ _ h)), ?_, ?_, ?_, ?_⟩
    · unfold Heap.makeMut
      rw [read_some hg]
      simp only [bind, Res.bind, if_neg hc]
      rw [e1]
      show (match (h1.alloc c.vec).1.read a with | _ => _) = _
      rw [read_some hg2]
      rfl
    · rw [get_set_ne (Ne.symm hne), get_alloc, if_pos rfl]
    · exact shows_setRc hg2 _ (shows_alloc (s1 _ _ hs))
    · have := i1.dead h1.length get_ge
      have h4 := r3 h1.length
      have h5 := r2 h1.length
      have := hn h1.length
      omega
    · intro x
      have := r1 x
      have := r2 x
      have := r3 x
      have := refs_heap hg x
      omega

theorem takeInner_spec {d : Nat} {h : Heap} {n n' : Nat → Nat} {a : Nat} (hi : Inv h n) (ha : 0 < n a)
    (hn : ∀ x, n x = n' x + [a].count x) {c : Cell} (hg : h.get a = some c) {ts : List TokenTree}
    (hs : Shows h c.vec ts) :
    ∃ h', takeInner d h a = .ok (h', c.vec) ∧ Inv h' (fun x => n' x + (refs c.vec).count x) ∧
      HFrame h h' n' ∧ Shows h' c.vec ts ∧ (∀ x, (heapRefs h').count x ≤ (heapRefs h).count x) := by
  have hrc := hi.rc _ _ hg
  have hna := hn a
  simp at hna
  by_cases hc : c.rc = 1
  · have h0 : (heapRefs h).count a = 0 := by omega
    have hca : (refs c.vec).count a = 0 := by have := refs_heap hg a; omega
    obtain ⟨i1, r1⟩ := hi.setVec (n' := fun x => n x + (refs c.vec).count x) hg hc (by omega) (by omega)
      (v := []) .nil (by intro x; simp)
    obtain ⟨i2, r2⟩ := i1.free (n' := fun x => n' x + (refs c.vec).count x) (get_set_self hg _) rfl
      (by omega) (by omega) rfl (fun x hx => by have := hn x; simp [Ne.symm hx] at this; omega)
    simp only [List.set_set] at i2 r2
    refine ⟨h.set a none, ?_, i2, ?_, ?_, ?_⟩
    · unfold takeInner
      rw [read_some hg]
      simp only [bind, Res.bind, if_pos hc]
      rw [hc, rcDrop_empty (get_set_self hg _)]
      simp
    · intro l ts hl hs
      refine shows_setVec hg none h0 hs (fun hm => ?_)
      have := hl a
      have := List.count_pos_iff.mpr hm
      omega
    · exact shows_setVec hg none h0 hs (List.count_eq_zero.mp hca)
    · intro x
      have := r1 x
      have := r2 x
      simp at *
      omega
  · obtain ⟨h1, e1, i1, s1, r1, v1⟩ := cloneVec_spec c.vec hi hs.present
    obtain ⟨c1, hg1, hv1⟩ := v1 _ _ hg
    have hrc1 := i1.rc _ _ hg1
    have := r1 a
    have := hi.pos _ _ hg
    obtain ⟨i2, r2⟩ := i1.setRc (n' := fun x => n' x + (refs c.vec).count x) hg1 (k := c1.rc - 1)
      (by omega) (by omega) (fun x hx => by have := hn x; simp [Ne.symm hx] at this; omega)
    refine ⟨_, ?_, i2, fun l ts _ h => shows_setRc hg1 _ (s1 _ _ h), shows_setRc hg1 _ (s1 _ _ hs), ?_⟩
    · unfold takeInner
      rw [read_some hg]
      simp only [bind, Res.bind, if_neg hc]
      rw [e1]
      simp only
      rw [rcDrop_shared hg1 (by omega)]
    · intro x
      have := r1 x
      have := r2 x
      omega

end PM2
