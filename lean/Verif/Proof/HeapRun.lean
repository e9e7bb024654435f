import Verif.Proof.HeapStep
/-! # Programs: the heap refines values -/

namespace PM2
open Heap Spec

section
variable {s : State} {v v' : List Val}

theorem set_self_eq {α : Type} {l : List α} {i : Nat} {a : α} (h : l[i]? = some a) : l.set i a = l := by
  obtain ⟨hl, e⟩ := List.getElem?_eq_some_iff.mp h
  rw [← e, List.set_getElem_self]

theorem Rel.dead_count {i : Nat} {r : Root} (h : s.vars[i]? = some r) (x : Nat) :
    (varRefs s.vars).count x = (varRefs (s.vars.set i .dead)).count x + (rootRefs r).count x := by
  have := varRefs_set h .dead x
  simp at this
  omega

theorem single_extra {h' : Heap} {q : Root} {u : Val} (hq : Holds h' q u) (hb : ∀ a, q ≠ .borrowed a) :
    ∀ (k : Nat) q' u', [q][k]? = some q' → [u][k]? = some u' → Holds h' q' u' ∧ ∀ a, q' ≠ .borrowed a := by
  intro k q' u' h1 h2
  cases k with
  | zero => simp at h1 h2; subst h1; subst h2; exact ⟨hq, hb⟩
  | succ k => simp at h1

theorem no_extra {h' : Heap} :
    ∀ (k : Nat) q' u', ([] : List Root)[k]? = some q' → ([] : List Val)[k]? = some u' →
      Holds h' q' u' ∧ ∀ a, q' ≠ .borrowed a := by
  intro k q' u' h1; simp at h1

/-- a copy of the variable `i`, in a new variable -/
theorem Rel.copy (hR : Rel s v) {i : Nat} {r q : Root} {w u : Val} {h' : Heap}
    (hr : s.vars[i]? = some r) (hw : v[i]? = some w)
    (hi : Inv h' (fun x => (varRefs s.vars).count x + (rootRefs q).count x))
    (hs : ∀ l ts, Shows s.heap l ts → Shows h' l ts)
    (hh : ∀ x, (heapRefs h').count x = (heapRefs s.heap).count x)
    (hq : Holds h' q u) (hb : ∀ a, q ≠ .borrowed a) (hrb : ∀ a, r ≠ .borrowed a)
    (hc : ∀ x, (rootRefs q).count x ≤ (rootRefs r).count x) :
    Rel ⟨h', s.vars ++ [q]⟩ (v ++ [u]) := by
  have hrv := hR.holds i r w hr hw
  have := hR.update (r' := r) (w' := w) (extra := [q]) (extraV := [u]) (h' := h') hr hw rfl
    (hrv.frame (n := fun x => (rootRefs r).count x) (fun _ => Nat.le_refl _) (fun l ts _ h => hs l ts h))
    (single_extra hq hb) (by rw [set_self_eq hr]; simpa [varRefs, List.count_append] using hi)
    (fun l ts _ h => hs l ts h) (fun x _ h1 h2 => ⟨by rw [hh]; exact h1, h2, by
      have := hc x; simp [varRefs]; omega⟩) (fun a h => absurd h (hrb a))
  rwa [set_self_eq hr, set_self_eq hw] at this

/-- the contents of `j` move to the end of the vector `i` -/
theorem Rel.moveOwned (hR : Rel s v) {i j : Nat} (hij : i ≠ j) {l l' : List HTree} {q : Root} {w u : Val}
    {ts : List TokenTree} (hr : s.vars[i]? = some (.owned l)) (hw : v[i]? = some w)
    (hq : s.vars[j]? = some q) (hqv : v[j]? = some u) (hs : Shows s.heap (l ++ l') ts)
    (hc : rootRefs q = refs l') :
    Rel ⟨s.heap, (s.vars.set j .dead).set i (.owned (l ++ l'))⟩ ((v.set j .dead).set i (.owned ts)) := by
  refine hR.update2 hij hr hw hq hqv (.owned hs) ?_ (HFrame.refl _ _) (fun x h1 h2 h3 => ⟨h1, ?_⟩) (by simp)
  · have e : (fun x => (varRefs ((s.vars.set j .dead).set i (.owned (l ++ l')))).count x) =
        fun x => (varRefs s.vars).count x := by
      funext x
      have h1 := Rel.dead_count hq x
      have h2 := varRefs_set (vars := s.vars.set j .dead) (i := i) (r := .owned l)
        (by rw [List.getElem?_set_ne (Ne.symm hij)]; exact hr) (.owned (l ++ l')) x
      rw [hc] at h1
      simp [rootRefs, List.count_append] at *
      omega
    rw [e]; exact hR.inv
  · rw [hc] at h3
    simp [rootRefs, List.count_append] at *
    omega

/-- the contents of `j` move to the end of the borrowed stream `i` -/
theorem Rel.moveCell (hR : Rel s v) {i j : Nat} (hij : i ≠ j) {a : Nat} {c : Cell} {l' : List HTree}
    {q : Root} {w u : Val} {ts ts' : List TokenTree} (hr : s.vars[i]? = some (.borrowed a))
    (hw : v[i]? = some w) (hq : s.vars[j]? = some q) (hqv : v[j]? = some u) (hg : s.heap.get a = some c)
    (hs : Shows s.heap c.vec ts) (hs' : Shows s.heap l' ts') (hc : rootRefs q = refs l') :
    Rel ⟨s.heap.set a (some ⟨c.rc, c.vec ++ l'⟩), s.vars.set j .dead⟩
      ((v.set j .dead).set i (.borrowed (ts ++ ts'))) := by
  have hu := hR.uniq i a hr
  have hrc := hR.inv.rc _ _ hg
  have hr1 : (s.vars.set j .dead)[i]? = some (.borrowed a) := by
    rw [List.getElem?_set_ne (Ne.symm hij)]; exact hr
  have hd := Rel.dead_count hq
  have hm : [a].count a ≤ (varRefs (s.vars.set j .dead)).count a := varRefs_mem hr1 a
  rw [List.count_singleton_self] at hm
  have hda := hd a
  rw [hc] at hda
  have h0 : (heapRefs s.heap).count a = 0 := by omega
  have hca : (refs c.vec).count a = 0 := by have := refs_heap hg a; omega
  have hla : (refs l').count a = 0 := by omega
  have h1 : c.rc = 1 := by omega
  obtain ⟨i1, r1⟩ := hR.inv.setVec (n' := fun x => (varRefs (s.vars.set j .dead)).count x) hg h1 (by omega)
    (by omega) (v := c.vec ++ l') (hs.append hs') (by
      intro x
      have := hd x
      rw [hc] at this
      simp only [refs_append, List.count_append]
      omega)
  rw [← h1] at i1 r1
  have e : (s.vars.set j .dead).set i (.borrowed a) = s.vars.set j .dead := set_self_eq hr1
  have := hR.update2 (r' := .borrowed a) (w' := .borrowed (ts ++ ts')) hij hr hw hq hqv
    (.borrowed (c := ⟨c.rc, c.vec ++ l'⟩) (get_set_self hg _)
      (shows_setVec hg _ h0 (hs.append hs') (by
        rw [refs_append, ← List.count_eq_zero, List.count_append]; omega)))
    (by rw [e]; exact i1) ?_ ?_ ?_
  · rwa [e] at this
  · intro l us hl hls
    refine shows_setVec hg _ h0 hls (fun hm' => ?_)
    have h5 : (refs l).count a ≤ (varRefs ((s.vars.set j .dead).set i .dead)).count a := hl a
    have h6 := List.count_pos_iff.mpr hm'
    have h7 := varRefs_set hr1 .dead a
    simp only [rootRefs_borrowed, List.count_singleton_self, rootRefs_dead, List.count_nil] at h7
    omega
  · intro x z1 z2 z3
    have := r1 x
    rw [hc] at z3
    simp only [refs_append, List.count_append] at this
    exact ⟨by omega, z2⟩
  · intro a' ha
    cases ha
    rw [e]
    have := r1 a
    simp only [refs_append, List.count_append] at this
    omega

/-- One operation. -/
theorem step_spec (hR : Rel s v) {op : Op} (h : vstep v op = some v') :
    ∃ s', step s op = .ok s' ∧ Rel s' v' := by
  cases op with
  | builder =>
    simp only [vstep, Option.some.injEq] at h
    subst h
    exact ⟨_, rfl, hR.push (.owned .nil) rfl (by simp)⟩
  | build i =>
    simp only [vstep] at h
    split at h <;> simp at h
    rename_i ts hv
    subst h
    obtain ⟨r, hr, hh⟩ := hR.val hv
    cases hh with
    | @owned l _ hs =>
      have hd := Rel.dead_count hr
      obtain ⟨i1, r1⟩ := hR.inv.alloc (n' := fun x => (varRefs (s.vars.set i .dead ++ [.stream s.heap.length])).count x)
        hs (by
          intro x
          have := hd x
          simp only [varRefs_append, List.count_append]
          by_cases e : x = s.heap.length
          · subst e; simp [varRefs, rootRefs] at *; omega
          · simp [varRefs, rootRefs, e, Ne.symm e] at *; omega)
      refine ⟨_, by simp only [step, hr]; rfl, ?_⟩
      refine hR.update (h' := (s.heap.alloc l).1) hr hv rfl .dead (single_extra
        (.stream (c := ⟨1, l⟩) ((get_alloc s.heap.length).trans (if_pos rfl)) (shows_alloc hs)) (by simp)) i1
        (fun l ts _ h => shows_alloc h) ?_ (by simp)
      intro x h0 h1 h2
      have := r1 x
      have h3 := hR.inv.dead s.heap.length get_ge
      have hne : s.heap.length ≠ x := by rintro rfl; omega
      simp only [rootRefs] at h2
      refine ⟨by omega, rfl, ?_⟩
      simp [varRefs, rootRefs, Heap.alloc, hne]
  | cloneStream i =>
    simp only [vstep] at h
    split at h <;> simp at h
    rename_i ts hv
    subst h
    obtain ⟨r, hr, hh⟩ := hR.val hv
    cases hh with
    | @stream a c _ hg hs =>
      obtain ⟨e, i1, s1, r1⟩ := rcClone_spec hR.inv hg
      refine ⟨_, by simp only [step, hr, e]; rfl, ?_⟩
      exact hR.copy hr hv i1 s1 r1 (.stream (get_set_self hg _) (s1 _ _ hs)) (by simp) (by simp)
        (fun _ => Nat.le_refl _)
  | cloneTree i =>
    simp only [vstep] at h
    split at h <;> simp at h
    rename_i t hv
    subst h
    obtain ⟨r, hr, hh⟩ := hR.val hv
    cases hh with
    | @tree t' _ hs =>
      obtain ⟨h', e, i1, s1, r1, -⟩ := cloneVec_spec [t'] hR.inv hs.present
      have e' : Heap.cloneTree s.heap t' = .ok h' := by
        unfold cloneVec cloneVec at e
        cases hc : Heap.cloneTree s.heap t' with
        | ok x => rw [hc] at e; exact e
        | _ => rw [hc] at e; cases e
      refine ⟨_, by simp only [step, hr, e']; rfl, ?_⟩
      exact hR.copy hr hv (by simpa [rootRefs] using i1) s1 r1 (.tree (s1 _ _ hs)) (by simp) (by simp)
        (fun _ => Nat.le_refl _)
  | cloneOwned i =>
    simp only [vstep] at h
    split at h <;> simp at h
    rename_i t hv
    subst h
    obtain ⟨r, hr, hh⟩ := hR.val hv
    cases hh with
    | @owned l _ hs =>
      obtain ⟨h', e, i1, s1, r1, -⟩ := cloneVec_spec l hR.inv hs.present
      refine ⟨_, by simp only [step, hr, e]; rfl, ?_⟩
      exact hR.copy hr hv i1 s1 r1 (.owned (s1 _ _ hs)) (by simp) (by simp) (fun _ => Nat.le_refl _)
  | dropStream i =>
    simp only [vstep] at h
    split at h <;> simp at h
    rename_i t hv
    subst h
    obtain ⟨r, hr, hh⟩ := hR.val hv
    cases hh with
    | @stream a c _ hg hs =>
      have hd := Rel.dead_count hr
      obtain ⟨h', e, i1, f1, r1⟩ := dropStream_spec (d := 0) (n' := fun x => (varRefs (s.vars.set i .dead)).count x)
        hR.inv (a := a) (by rw [hd a]; simp [rootRefs]) hd
      refine ⟨⟨h', s.vars.set i .dead⟩, by simp only [step, hr, dropDepth, e]; rfl, ?_⟩
      have := hR.update (extra := []) (extraV := []) hr hv rfl .dead no_extra (by simpa using i1) f1
        (fun x _ h1 _ => ⟨by have := r1 x; omega, rfl, rfl⟩) (by simp)
      simpa using this
  | dropTree i =>
    simp only [vstep] at h
    split at h <;> simp at h
    rename_i t hv
    subst h
    obtain ⟨r, hr, hh⟩ := hR.val hv
    cases hh with
    | @tree t' _ hs =>
      have hd := Rel.dead_count hr
      obtain ⟨h', e, i1, f1, r1⟩ := dropTree_spec (d := 0) (n' := fun x => (varRefs (s.vars.set i .dead)).count x)
        (t := t') hR.inv hd
      refine ⟨⟨h', s.vars.set i .dead⟩, by simp only [step, hr, dropDepth, e]; rfl, ?_⟩
      have := hR.update (extra := []) (extraV := []) hr hv rfl .dead no_extra (by simpa using i1) f1
        (fun x _ h1 _ => ⟨by have := r1 x; omega, rfl, rfl⟩) (by simp)
      simpa using this
  | dropOwned i =>
    simp only [vstep] at h
    split at h <;> simp at h
    rename_i t hv
    subst h
    obtain ⟨r, hr, hh⟩ := hR.val hv
    cases hh with
    | @owned l _ hs =>
      have hd := Rel.dead_count hr
      obtain ⟨h', e, i1, f1, r1⟩ := dropVec_spec (d := 0) l (n' := fun x => (varRefs (s.vars.set i .dead)).count x)
        hR.inv hd
      refine ⟨⟨h', s.vars.set i .dead⟩, by simp only [step, hr, dropDepth, e]; rfl, ?_⟩
      have := hR.update (extra := []) (extraV := []) hr hv rfl .dead no_extra (by simpa using i1) f1
        (fun x _ h1 _ => ⟨by have := r1 x; omega, rfl, rfl⟩) (by simp)
      simpa using this
  | intoOwned i =>
    simp only [vstep] at h
    split at h <;> simp at h
    rename_i t hv
    subst h
    obtain ⟨r, hr, hh⟩ := hR.val hv
    cases hh with
    | @stream a c _ hg hs =>
      have hd := Rel.dead_count hr
      obtain ⟨h', e, i1, f1, s1, r1⟩ := takeInner_spec (d := dropDepth)
        (n' := fun x => (varRefs (s.vars.set i .dead)).count x) hR.inv (a := a)
        (by rw [hd a]; simp [rootRefs]) hd hg hs
      refine ⟨_, by simp only [step, hr, e]; rfl, ?_⟩
      refine hR.update hr hv rfl .dead (single_extra (.owned s1) (by simp))
        (by simpa [varRefs, rootRefs, List.count_append] using i1) f1
        (fun x _ h1 _ => ⟨by have := r1 x; show (heapRefs h').count x = 0; omega, rfl, ?_⟩) (by simp)
      have := refs_heap hg x
      simp [varRefs, rootRefs] at *
      omega
  | next i =>
    simp only [vstep] at h
    split at h <;> simp at h
    · rename_i t ts hv
      subst h
      obtain ⟨r, hr, hh⟩ := hR.val hv
      cases hh with
      | @owned l _ hs =>
        obtain ⟨t', l', rfl, ht, hl⟩ : ∃ t' l', l = t' :: l' ∧ Shows s.heap [t'] [t] ∧ Shows s.heap l' ts := by
          cases hs with
          | ident h => exact ⟨_, _, rfl, .ident .nil, h⟩
          | punct h => exact ⟨_, _, rfl, .punct .nil, h⟩
          | literal h => exact ⟨_, _, rfl, .literal .nil, h⟩
          | group hg h1 h => exact ⟨_, _, rfl, .group hg h1 .nil, h⟩
        refine ⟨_, by simp only [step, hr]; rfl, ?_⟩
        refine hR.update hr hv rfl (.owned hl) (single_extra (.tree ht) (by simp)) ?_ (HFrame.refl _ _)
          (fun x _ h1 h2 => ⟨h1, ?_, ?_⟩) (by simp)
        · have e : (fun x => (varRefs (s.vars.set i (.owned l') ++ [.tree t'])).count x) =
              fun x => (varRefs s.vars).count x := by
            funext x
            have := varRefs_set hr (.owned l') x
            simp [varRefs, rootRefs, List.count_append] at *
            omega
          rw [e]; exact hR.inv
        · simp [rootRefs, List.count_append] at *; omega
        · simp [rootRefs, varRefs, List.count_append] at *; omega
    · rename_i hv
      subst h
      obtain ⟨r, hr, hh⟩ := hR.val hv
      cases hh with
      | @owned l _ hs =>
        cases hs
        exact ⟨s, by simp only [step, hr], hR⟩
  | pushOwned i j =>
    simp only [vstep] at h
    split at h <;> simp at h
    rename_i ts t hv hv2
    subst h
    obtain ⟨r, hr, hh⟩ := hR.val hv
    obtain ⟨q, hq, hh2⟩ := hR.val hv2
    have hij : i ≠ j := by rintro rfl; rw [hv] at hv2; cases hv2
    cases hh with
    | @owned l _ hs =>
      cases hh2 with
      | @tree t' _ ht =>
        refine ⟨_, by simp only [step, hr, hq]; rfl, ?_⟩
        exact hR.moveOwned hij hr hv hq hv2 (l' := [t']) (hs.append ht) (by simp [rootRefs])
  | pushOwnedPM i j =>
    simp only [vstep] at h
    split at h <;> simp at h
    rename_i ts t hv hv2
    subst h
    obtain ⟨r, hr, hh⟩ := hR.val hv
    obtain ⟨q, hq, hh2⟩ := hR.val hv2
    have hij : i ≠ j := by rintro rfl; rw [hv] at hv2; cases hv2
    cases hh with
    | @owned l _ hs =>
      cases hh2 with
      | @tree t' _ ht =>
        obtain ⟨h1, h2⟩ := shows_split ht
        refine ⟨_, by simp only [step, hr, hq]; rfl, ?_⟩
        exact hR.moveOwned hij hr hv hq hv2 (l' := splitToken t') (hs.append h1) (by simp [rootRefs, h2])
  | extendOwned i j =>
    simp only [vstep] at h
    split at h <;> simp at h
    rename_i ts us hv hv2
    obtain ⟨hij, h⟩ := h
    subst h
    obtain ⟨r, hr, hh⟩ := hR.val hv
    obtain ⟨q, hq, hh2⟩ := hR.val hv2
    cases hh with
    | @owned l _ hs =>
      cases hh2 with
      | @owned l' _ ht =>
        refine ⟨_, by simp only [step, hr, hq, if_neg hij]; rfl, ?_⟩
        exact hR.moveOwned hij hr hv hq hv2 (l' := l') (hs.append ht) (by simp [rootRefs])
  | makeMut i =>
    simp only [vstep] at h
    split at h <;> simp at h
    rename_i t hv
    subst h
    obtain ⟨r, hr, hh⟩ := hR.val hv
    cases hh with
    | @stream a c _ hg hs =>
      have hd := Rel.dead_count hr
      obtain ⟨h', b, c', e, i1, s1, hg', hs', u1, r1⟩ := makeMut_spec
        (n' := fun x => (varRefs (s.vars.set i .dead)).count x) hR.inv (a := a)
        (by rw [hd a]; simp [rootRefs]) hd hg hs
      have hc : ∀ x, (varRefs (s.vars.set i (.borrowed b))).count x =
          (varRefs (s.vars.set i .dead)).count x + [b].count x := by
        intro x
        have := varRefs_set hr (.borrowed b) x
        have := hd x
        simp only [rootRefs_borrowed] at *
        omega
      refine ⟨⟨h', s.vars.set i (.borrowed b)⟩, by simp only [step, hr, e]; rfl, ?_⟩
      have := hR.update (extra := []) (extraV := []) hr hv rfl (.borrowed hg' hs') no_extra
        (by simp only [List.append_nil, hc]; exact i1) (fun l ts _ h => s1 l ts h)
        (fun x h0 h1 h2 => ?_) (fun a' ha => ?_)
      · simpa using this
      · refine ⟨by have := r1 x; omega, ?_, rfl⟩
        by_cases e : x = b
        · subst e
          have := hd x
          omega
        · simp [Ne.symm e]
      · cases ha
        simp only [List.append_nil, hc, List.count_singleton_self]
        omega
  | pushMut i j =>
    simp only [vstep] at h
    split at h <;> simp at h
    rename_i ts t hv hv2
    subst h
    obtain ⟨r, hr, hh⟩ := hR.val hv
    obtain ⟨q, hq, hh2⟩ := hR.val hv2
    have hij : i ≠ j := by rintro rfl; rw [hv] at hv2; cases hv2
    cases hh with
    | @borrowed a c _ hg hs =>
      cases hh2 with
      | @tree t' _ ht =>
        refine ⟨_, by simp only [step, hr, hq, Heap.pushMut, read_some hg]; rfl, ?_⟩
        exact hR.moveCell hij hr hv hq hv2 hg hs ht (by simp [rootRefs])
  | extendMut i j =>
    simp only [vstep] at h
    split at h <;> simp at h
    rename_i ts t hv hv2
    subst h
    obtain ⟨r, hr, hh⟩ := hR.val hv
    obtain ⟨q, hq, hh2⟩ := hR.val hv2
    have hij : i ≠ j := by rintro rfl; rw [hv] at hv2; cases hv2
    cases hh with
    | @borrowed a c _ hg hs =>
      cases hh2 with
      | @owned l _ ht =>
        refine ⟨_, by simp only [step, hr, hq, Heap.pushMut, read_some hg]; rfl, ?_⟩
        exact hR.moveCell hij hr hv hq hv2 hg hs ht (by simp [rootRefs])
  | pushMutPM i j =>
    simp only [vstep] at h
    split at h <;> simp at h
    rename_i ts t hv hv2
    subst h
    obtain ⟨r, hr, hh⟩ := hR.val hv
    obtain ⟨q, hq, hh2⟩ := hR.val hv2
    have hij : i ≠ j := by rintro rfl; rw [hv] at hv2; cases hv2
    cases hh with
    | @borrowed a c _ hg hs =>
      cases hh2 with
      | @tree t' _ ht =>
        obtain ⟨h1, h2⟩ := shows_split ht
        refine ⟨_, by simp only [step, hr, hq, Heap.pushMut, read_some hg]; rfl, ?_⟩
        exact hR.moveCell hij hr hv hq hv2 hg hs h1 (by simp [rootRefs, h2])
  | endMut i =>
    simp only [vstep] at h
    split at h <;> simp at h
    rename_i t hv
    subst h
    obtain ⟨r, hr, hh⟩ := hR.val hv
    cases hh with
    | @borrowed a c _ hg hs =>
      refine ⟨_, by simp only [step, hr]; rfl, ?_⟩
      have := hR.update (extra := []) (extraV := []) (r' := .stream a) hr hv rfl (.stream hg hs) no_extra
        ?_ (HFrame.refl _ _) (fun x _ h1 h2 => ⟨h1, h2, rfl⟩) (by simp)
      · simpa using this
      · have e : (fun x => (varRefs (s.vars.set i (.stream a) ++ [])).count x) =
            fun x => (varRefs s.vars).count x := by
          funext x
          have := varRefs_set hr (.stream a) x
          simp [rootRefs] at *
          omega
        rw [e]; exact hR.inv
  | groupNew d i =>
    simp only [vstep] at h
    split at h <;> simp at h
    rename_i t hv
    subst h
    obtain ⟨r, hr, hh⟩ := hR.val hv
    cases hh with
    | @stream a c _ hg hs =>
      refine ⟨_, by simp only [step, hr]; rfl, ?_⟩
      refine hR.update hr hv rfl .dead (single_extra (.tree (.group hg hs .nil)) (by simp)) ?_
        (HFrame.refl _ _) (fun x _ h1 h2 => ⟨h1, rfl, ?_⟩) (by simp)
      · have e : (fun x => (varRefs (s.vars.set i .dead ++ [.tree (.group d a Span.callSite)])).count x) =
            fun x => (varRefs s.vars).count x := by
          funext x
          have := Rel.dead_count hr x
          simp [varRefs, rootRefs, HTree.ref, List.count_append] at *
          omega
        rw [e]; exact hR.inv
      · simpa [varRefs, rootRefs, HTree.ref] using h2
  | groupStream i =>
    simp only [vstep] at h
    split at h <;> simp at h
    rename_i ts hv
    subst h
    obtain ⟨r, hr, hh⟩ := hR.val hv
    cases hh with
    | tree hs =>
      cases hs with
      | group hg hs =>
        obtain ⟨e, i1, s1, r1⟩ := rcClone_spec hR.inv hg
        refine ⟨_, by simp only [step, hr, e]; rfl, ?_⟩
        exact hR.copy hr hv i1 s1 r1 (.stream (get_set_self hg _) (s1 _ _ hs)) (by simp) (by simp)
          (fun _ => Nat.le_refl _)
  | leaf t =>
    simp only [vstep] at h
    split at h <;> simp at h
    rename_i t' hl
    subst h
    cases t with
    | group => simp [leafValue] at hl
    | ident => simp [leafValue] at hl; subst hl; exact ⟨_, rfl, hR.push (.tree (.ident .nil)) rfl (by simp)⟩
    | punct => simp [leafValue] at hl; subst hl; exact ⟨_, rfl, hR.push (.tree (.punct .nil)) rfl (by simp)⟩
    | literal => simp [leafValue] at hl; subst hl; exact ⟨_, rfl, hR.push (.tree (.literal .nil)) rfl (by simp)⟩
  | setSpan i sp =>
    simp only [vstep] at h
    split at h <;> simp at h
    rename_i t hv
    subst h
    obtain ⟨r, hr, hh⟩ := hR.val hv
    cases hh with
    | @tree t' _ hs =>
      obtain ⟨h1, h2⟩ := shows_setSpan sp hs
      refine ⟨_, by simp only [step, hr]; rfl, ?_⟩
      have := hR.update (extra := []) (extraV := []) hr hv rfl (.tree h1) no_extra
        ?_ (HFrame.refl _ _) (fun x _ g1 g2 => ⟨g1, by simpa [rootRefs, h2] using g2, rfl⟩) (by simp)
      · simpa using this
      · have e : (fun x => (varRefs (s.vars.set i (.tree (t'.setSpan sp)) ++ [])).count x) =
            fun x => (varRefs s.vars).count x := by
          funext x
          have := varRefs_set hr (.tree (t'.setSpan sp)) x
          simp [rootRefs, h2] at *
          omega
        rw [e]; exact hR.inv

theorem run_spec : ∀ (ops : List Op) {s : State} {v v' : List Val}, Rel s v → vrun v ops = some v' →
    ∃ s', run s ops = .ok s' ∧ Rel s' v'
  | [], s, v, v', hR, h => by simp [vrun] at h; subst h; exact ⟨s, rfl, hR⟩
  | op :: ops, s, v, v', hR, h => by
    simp only [vrun, Option.bind_eq_some_iff] at h
    obtain ⟨v1, h1, h2⟩ := h
    obtain ⟨s1, e1, r1⟩ := step_spec hR h1
    obtain ⟨s2, e2, r2⟩ := run_spec ops r1 h2
    exact ⟨s2, by simp only [run, e1, bind, Res.bind]; exact e2, r2⟩

theorem Rel.init : Rel State.init [] := by
  refine ⟨rfl, by simp [State.init], ⟨?_, ?_, ?_, ?_⟩, by simp [State.init]⟩
  · intro a c h; simp [State.init, Heap.get] at h
  · intro a h; simp [State.init, varRefs, heapRefs]
  · intro a c h; simp [State.init, Heap.get] at h
  · intro a c h; simp [State.init, Heap.get] at h

end

end PM2
