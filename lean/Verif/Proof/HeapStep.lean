import Verif.Proof.Heap
/-! # One operation: the heap refines values -/

namespace PM2
open Heap Spec

def rootRefs : Root → List Nat
  | .dead => []
  | .stream a => [a]
  | .borrowed a => [a]
  | .tree t => t.ref
  | .owned v => refs v

@[simp] theorem rootRefs_dead : rootRefs .dead = [] := rfl
@[simp] theorem rootRefs_borrowed (a : Nat) : rootRefs (.borrowed a) = [a] := rfl

def varRefs (vars : List Root) : List Nat := vars.flatMap rootRefs

theorem Spec.Holds.frame {h h' : Heap} {n : Nat → Nat} {r : Root} {w : Val} (hh : Holds h r w)
    (hr : ∀ x, (rootRefs r).count x ≤ n x) (hf : HFrame h h' n) : Holds h' r w := by
  have key : ∀ {a c ts}, h.get a = some c → Shows h c.vec ts → (∀ x, [a].count x ≤ n x) →
      ∃ c', h'.get a = some c' ∧ Shows h' c'.vec ts := by
    intro a c ts hg hs hx
    have := hf [.group .none a Span.callSite] [.group .none ts Span.callSite] hx (.group hg hs .nil)
    cases this with
    | group hg' hs' _ => exact ⟨_, hg', hs'⟩
  cases hh with
  | dead => exact .dead
  | stream hg hs => obtain ⟨c', h1, h2⟩ := key hg hs hr; exact .stream h1 h2
  | borrowed hg hs => obtain ⟨c', h1, h2⟩ := key hg hs hr; exact .borrowed h1 h2
  | tree hs => exact .tree (hf _ _ (by simpa [rootRefs] using hr) hs)
  | owned hs => exact .owned (hf _ _ hr hs)

/-- The heap and the variables mean the values `v`, and the counts are right. -/
structure Rel (s : State) (v : List Val) : Prop where
  len : s.vars.length = v.length
  holds : ∀ (i : Nat) r w, s.vars[i]? = some r → v[i]? = some w → Holds s.heap r w
  inv : Inv s.heap (fun x => (varRefs s.vars).count x)
  uniq : ∀ (i : Nat) a, s.vars[i]? = some (.borrowed a) →
    (varRefs s.vars).count a + (heapRefs s.heap).count a = 1

theorem Rel.val {s : State} {v : List Val} (hR : Rel s v) {i : Nat} {w : Val} (h : v[i]? = some w) :
    ∃ r, s.vars[i]? = some r ∧ Holds s.heap r w := by
  have hl : i < s.vars.length := by rw [hR.len]; exact (List.getElem?_eq_some_iff.mp h).1
  exact ⟨s.vars[i], List.getElem?_eq_getElem hl, hR.holds i _ _ (List.getElem?_eq_getElem hl) h⟩

theorem varRefs_set {vars : List Root} {i : Nat} {r : Root} (h : vars[i]? = some r) (r' : Root) (x : Nat) :
    (varRefs (vars.set i r')).count x + (rootRefs r).count x =
      (varRefs vars).count x + (rootRefs r').count x :=
  count_flatMap_set rootRefs x r' h

theorem varRefs_mem {vars : List Root} {i : Nat} {r : Root} (h : vars[i]? = some r) (x : Nat) :
    (rootRefs r).count x ≤ (varRefs vars).count x :=
  count_flatMap_mem rootRefs x (List.mem_of_getElem? h)

@[simp] theorem varRefs_append (a b : List Root) : varRefs (a ++ b) = varRefs a ++ varRefs b := by
  simp [varRefs]

/-- The general form: the variables in `T` and the new ones change. -/
theorem Rel.change {s : State} {v : List Val} (hR : Rel s v) (T : List Nat) {vars' : List Root}
    {v' : List Val} {h' : Heap} (m : Nat → Nat) (hlen : vars'.length = v'.length)
    (hsame : ∀ k, k ∉ T → k < s.vars.length → vars'[k]? = s.vars[k]? ∧ v'[k]? = v[k]?)
    (hnew : ∀ (k : Nat) r w, (k ∈ T ∨ s.vars.length ≤ k) → vars'[k]? = some r → v'[k]? = some w →
      Holds h' r w ∧ ∀ a, r = .borrowed a → (varRefs vars').count a + (heapRefs h').count a = 1)
    (hm : ∀ (k : Nat) r, k ∉ T → s.vars[k]? = some r → ∀ x, (rootRefs r).count x ≤ m x)
    (hf : HFrame s.heap h' m) (hi : Inv h' (fun x => (varRefs vars').count x))
    (hu : ∀ (k : Nat) a, k ∉ T → s.vars[k]? = some (.borrowed a) →
      (varRefs vars').count a + (heapRefs h').count a = 1) : Rel ⟨h', vars'⟩ v' := by
  have hcase : ∀ k, (k ∈ T ∨ s.vars.length ≤ k) ∨ (k ∉ T ∧ k < s.vars.length) := by
    intro k
    by_cases h1 : k ∈ T
    · exact .inl (.inl h1)
    · by_cases h2 : k < s.vars.length
      · exact .inr ⟨h1, h2⟩
      · exact .inl (.inr (by omega))
  refine ⟨hlen, ?_, hi, ?_⟩
  · intro k r w h1 h2
    rcases hcase k with hk | ⟨hk, hl⟩
    · exact (hnew k r w hk h1 h2).1
    · obtain ⟨e1, e2⟩ := hsame k hk hl
      simp only at h1 h2
      rw [e1] at h1
      rw [e2] at h2
      exact (hR.holds k r w h1 h2).frame (hm k r hk h1) hf
  · intro k a h1
    rcases hcase k with hk | ⟨hk, hl⟩
    · have : k < v'.length := by rw [← hlen]; exact (List.getElem?_eq_some_iff.mp h1).1
      exact (hnew k _ _ hk h1 (List.getElem?_eq_getElem this)).2 a rfl
    · simp only at h1
      rw [(hsame k hk hl).1] at h1
      exact hu k a hk h1

/-- One variable changes, and there are new variables. -/
theorem Rel.update {s : State} {v : List Val} (hR : Rel s v) {i : Nat} {r r' : Root} {w w' : Val}
    {extra : List Root} {extraV : List Val} {h' : Heap}
    (hr : s.vars[i]? = some r) (hw : v[i]? = some w) (hl : extra.length = extraV.length)
    (hh : Holds h' r' w')
    (he : ∀ (k : Nat) q u, extra[k]? = some q → extraV[k]? = some u → Holds h' q u ∧ ∀ a, q ≠ .borrowed a)
    (hi : Inv h' (fun x => (varRefs (s.vars.set i r' ++ extra)).count x))
    (hf : HFrame s.heap h' (fun x => (varRefs (s.vars.set i .dead)).count x))
    (hz : ∀ x, 0 < (varRefs s.vars).count x → (heapRefs s.heap).count x = 0 →
      (rootRefs r).count x = 0 →
      (heapRefs h').count x = 0 ∧ (rootRefs r').count x = 0 ∧ (varRefs extra).count x = 0)
    (hu : ∀ a, r' = .borrowed a →
      (varRefs (s.vars.set i r' ++ extra)).count a + (heapRefs h').count a = 1) :
    Rel ⟨h', s.vars.set i r' ++ extra⟩ (v.set i w' ++ extraV) := by
  have hil : i < s.vars.length := (List.getElem?_eq_some_iff.mp hr).1
  have hiv : i < v.length := (List.getElem?_eq_some_iff.mp hw).1
  refine hR.change [i] (fun x => (varRefs (s.vars.set i .dead)).count x) (by simp [hl, hR.len]) ?_ ?_ ?_ hf hi ?_
  · intro k hk hkl
    simp only [List.mem_singleton] at hk
    constructor
    · rw [List.getElem?_append_left (by simpa using hkl), List.getElem?_set_ne (Ne.symm hk)]
    · rw [List.getElem?_append_left (by simpa [← hR.len] using hkl), List.getElem?_set_ne (Ne.symm hk)]
  · intro k q u hk h1 h2
    simp only [List.mem_singleton] at hk
    rcases hk with rfl | hk
    · rw [List.getElem?_append_left (by simpa using hil), List.getElem?_set_self hil] at h1
      rw [List.getElem?_append_left (by simpa using hiv), List.getElem?_set_self hiv] at h2
      cases h1
      cases h2
      exact ⟨hh, hu⟩
    · rw [List.getElem?_append_right (by simpa using hk)] at h1
      rw [List.getElem?_append_right (by simpa [← hR.len] using hk)] at h2
      simp only [List.length_set] at h1 h2
      rw [← hR.len] at h2
      obtain ⟨g1, g2⟩ := he _ q u h1 h2
      exact ⟨g1, fun a ha => absurd ha (g2 a)⟩
  · intro k q hk hq x
    simp only [List.mem_singleton] at hk
    exact varRefs_mem (by rw [List.getElem?_set_ne (Ne.symm hk)]; exact hq) x
  · intro k a hk hq
    simp only [List.mem_singleton] at hk
    have h1 := hR.uniq k a hq
    have h2 : [a].count a ≤ (varRefs (s.vars.set i .dead)).count a :=
      varRefs_mem (r := .borrowed a) (by rw [List.getElem?_set_ne (Ne.symm hk)]; exact hq) a
    have h3 := varRefs_set hr .dead a
    have h4 := varRefs_set hr r' a
    simp only [List.count_singleton_self, rootRefs_dead, List.count_nil] at h2 h3
    obtain ⟨z1, z2, z3⟩ := hz a (by omega) (by omega) (by omega)
    simp only [varRefs_append, List.count_append]
    omega

/-- Two variables change. -/
theorem Rel.update2 {s : State} {v : List Val} (hR : Rel s v) {i j : Nat} (hij : i ≠ j)
    {r q r' : Root} {w u w' : Val} {h' : Heap}
    (hr : s.vars[i]? = some r) (hw : v[i]? = some w) (hq : s.vars[j]? = some q) (hqv : v[j]? = some u)
    (hh : Holds h' r' w')
    (hi : Inv h' (fun x => (varRefs ((s.vars.set j .dead).set i r')).count x))
    (hf : HFrame s.heap h' (fun x => (varRefs ((s.vars.set j .dead).set i .dead)).count x))
    (hz : ∀ x, (heapRefs s.heap).count x = 0 → (rootRefs r).count x = 0 → (rootRefs q).count x = 0 →
      (heapRefs h').count x = 0 ∧ (rootRefs r').count x = 0)
    (hu : ∀ a, r' = .borrowed a →
      (varRefs ((s.vars.set j .dead).set i r')).count a + (heapRefs h').count a = 1) :
    Rel ⟨h', (s.vars.set j .dead).set i r'⟩ ((v.set j .dead).set i w') := by
  have hil : i < s.vars.length := (List.getElem?_eq_some_iff.mp hr).1
  have hiv : i < v.length := (List.getElem?_eq_some_iff.mp hw).1
  have hjl : j < s.vars.length := (List.getElem?_eq_some_iff.mp hq).1
  have hjv : j < v.length := (List.getElem?_eq_some_iff.mp hqv).1
  have hr1 : (s.vars.set j .dead)[i]? = some r := by rw [List.getElem?_set_ne (Ne.symm hij)]; exact hr
  refine hR.change [i, j] (fun x => (varRefs ((s.vars.set j .dead).set i .dead)).count x)
    (by simp [hR.len]) ?_ ?_ ?_ hf hi ?_
  · intro k hk hkl
    simp only [List.mem_cons, List.not_mem_nil, or_false, not_or] at hk
    constructor
    · rw [List.getElem?_set_ne (Ne.symm hk.1), List.getElem?_set_ne (Ne.symm hk.2)]
    · rw [List.getElem?_set_ne (Ne.symm hk.1), List.getElem?_set_ne (Ne.symm hk.2)]
  · intro k a b hk h1 h2
    simp only [List.mem_cons, List.not_mem_nil, or_false] at hk
    have hk' : k = i ∨ k = j := by
      rcases hk with hk | hk
      · exact hk
      · have := (List.getElem?_eq_some_iff.mp h1).1
        simp at this
        omega
    rcases hk' with rfl | rfl
    · rw [List.getElem?_set_self (by simpa using hil)] at h1
      rw [List.getElem?_set_self (by simpa using hiv)] at h2
      cases h1
      cases h2
      exact ⟨hh, hu⟩
    · rw [List.getElem?_set_ne hij, List.getElem?_set_self hjl] at h1
      rw [List.getElem?_set_ne hij, List.getElem?_set_self hjv] at h2
      cases h1
      cases h2
      exact ⟨.dead, fun a h => by cases h⟩
  · intro k p hk hp x
    simp only [List.mem_cons, List.not_mem_nil, or_false, not_or] at hk
    exact varRefs_mem (by
      rw [List.getElem?_set_ne (Ne.symm hk.1), List.getElem?_set_ne (Ne.symm hk.2)]; exact hp) x
  · intro k a hk hp
    simp only [List.mem_cons, List.not_mem_nil, or_false, not_or] at hk
    have h1 := hR.uniq k a hp
    have h2 : [a].count a ≤ (varRefs ((s.vars.set j .dead).set i .dead)).count a :=
      varRefs_mem (r := .borrowed a) (by
        rw [List.getElem?_set_ne (Ne.symm hk.1), List.getElem?_set_ne (Ne.symm hk.2)]; exact hp) a
    have h3 := varRefs_set hq .dead a
    have h4 := varRefs_set hr1 .dead a
    have h5 := varRefs_set hr1 r' a
    simp only [List.count_singleton_self, rootRefs_dead, List.count_nil] at h2 h3 h4
    obtain ⟨z1, z2⟩ := hz a (by omega) (by omega) (by omega)
    omega

/-- New variables only. -/
theorem Rel.push {s : State} {v : List Val} (hR : Rel s v) {q : Root} {u : Val}
    (hh : Holds s.heap q u) (h0 : rootRefs q = []) (hq : ∀ a, q ≠ .borrowed a) :
    Rel ⟨s.heap, s.vars ++ [q]⟩ (v ++ [u]) := by
  have e : ∀ x, (varRefs (s.vars ++ [q])).count x = (varRefs s.vars).count x := by
    intro x; simp [varRefs, h0]
  refine hR.change [] (fun x => (varRefs s.vars).count x) (by simp [hR.len]) ?_ ?_
    (fun k r _ hk x => varRefs_mem hk x) (HFrame.refl _ _) ?_ ?_
  · intro k _ hkl
    exact ⟨List.getElem?_append_left hkl, List.getElem?_append_left (by rw [← hR.len]; exact hkl)⟩
  · intro k r w hk h1 h2
    simp only [List.not_mem_nil, false_or] at hk
    rw [List.getElem?_append_right hk] at h1
    rw [List.getElem?_append_right (by rw [← hR.len]; exact hk), ← hR.len] at h2
    have : k - s.vars.length = 0 := by
      have := (List.getElem?_eq_some_iff.mp h1).1
      simp at this
      omega
    rw [this] at h1 h2
    simp at h1 h2
    subst h1
    subst h2
    exact ⟨hh, fun a ha => absurd ha (hq a)⟩
  · simp only [e]; exact hR.inv
  · intro k a _ hk
    rw [e]
    exact hR.uniq k a hk

theorem shows_split {h : Heap} {t : HTree} {t' : TokenTree} (hs : Shows h [t] [t']) :
    Shows h (splitToken t) (splitNeg t') ∧ refs (splitToken t) = t.ref := by
  have hd : Shows h [t] [t'] ∧ refs [t] = t.ref := ⟨hs, by simp⟩
  cases hs with
  | ident => exact hd
  | punct => exact hd
  | group => exact hd
  | @literal r s =>
    by_cases hr : ∃ r', r = '-' :: r'
    · obtain ⟨r', rfl⟩ := hr
      exact ⟨.punct (.literal .nil), rfl⟩
    · have h1 : splitToken (.literal r s) = [.literal r s] := by
        unfold splitToken
        split
        · rename_i heq; cases heq; exact absurd ⟨_, rfl⟩ hr
        · rfl
      have h2 : splitNeg (.literal r s) = [.literal r s] := by
        unfold splitNeg
        split
        · rename_i heq; cases heq; exact absurd ⟨_, rfl⟩ hr
        · rfl
      rw [h1, h2]
      exact hd

theorem shows_setSpan {h : Heap} {t : HTree} {t' : TokenTree} (sp : Span) (hs : Shows h [t] [t']) :
    Shows h [t.setSpan sp] [t'.setSpan sp] ∧ (t.setSpan sp).ref = t.ref := by
  cases hs with
  | ident => exact ⟨.ident .nil, rfl⟩
  | punct => exact ⟨.punct .nil, rfl⟩
  | literal => exact ⟨.literal .nil, rfl⟩
  | group hg h1 => exact ⟨.group hg h1 .nil, rfl⟩

end PM2
