import Verif.Proof.HeapRun
import Verif.Props.RoundTrip
import Verif.Props.Numbers
import Verif.Spec.Decide
/-! # C34–C38: token streams on the heap -/

set_option linter.unusedSectionVars false

namespace PM2.Props
open Heap Spec

/-! ### C34 -/

/-- **C34.** Sharing is not observable: a program that makes sense on values runs on the heap, without
touching freed memory, and afterwards every variable holds what it holds in the run on values. -/
theorem C34_values {ops : List Op} {v : List Val} (h : vrun [] ops = some v) :
    ∃ s, run State.init ops = .ok s ∧ s.vars.length = v.length ∧
      ∀ i w, v[i]? = some w → VarHolds s i w := by
  obtain ⟨s, e, hR⟩ := run_spec ops Rel.init h
  exact ⟨s, e, hR.len, fun i w hw => hR.val hw⟩

theorem _root_.PM2.Rel.var {s : State} {v : List Val} (hR : Rel s v) {i : Nat} {r : Root} (h : s.vars[i]? = some r) :
    ∃ w, v[i]? = some w ∧ Spec.Holds s.heap r w := by
  have hl : i < v.length := by rw [← hR.len]; exact (List.getElem?_eq_some_iff.mp h).1
  exact ⟨v[i], List.getElem?_eq_getElem hl, hR.holds i _ _ h (List.getElem?_eq_getElem hl)⟩

theorem step_none {s : State} {v : List Val} (hR : Rel s v) {op : Op} (h : vstep v op = none) :
    Heap.step s op = .err () := by
  cases op with
  | builder => simp [vstep] at h
  | leaf t => cases t <;> simp [vstep, leafValue] at h; rfl
  | build i | cloneStream i | cloneTree i | cloneOwned i | dropStream i | dropTree i | dropOwned i
  | intoOwned i | makeMut i | endMut i | groupNew d i | setSpan i sp =>
    simp only [Heap.step]
    split
    · rename_i hr
      obtain ⟨w, hw, hh⟩ := Rel.var hR hr
      cases hh
      simp [vstep, hw] at h
    · rfl
  | next i =>
    simp only [Heap.step]
    split
    · rename_i hr
      obtain ⟨w, hw, hh⟩ := Rel.var hR hr
      cases hh with | owned hs => cases hs <;> simp [vstep, hw] at h
    · rename_i hr
      obtain ⟨w, hw, hh⟩ := Rel.var hR hr
      cases hh with | owned hs => cases hs; simp [vstep, hw] at h
    · rfl
  | groupStream i =>
    simp only [Heap.step]
    split
    · rename_i hr
      obtain ⟨w, hw, hh⟩ := Rel.var hR hr
      cases hh with | tree hs => cases hs; simp [vstep, hw] at h
    · rfl
  | pushOwned i j | pushOwnedPM i j | pushMut i j | extendMut i j | pushMutPM i j =>
    simp only [Heap.step]
    split
    · rename_i hr hq
      obtain ⟨w, hw, hh⟩ := Rel.var hR hr
      obtain ⟨w', hw', hh'⟩ := Rel.var hR hq
      cases hh
      cases hh'
      simp [vstep, hw, hw'] at h
    · rfl
  | extendOwned i j =>
    simp only [Heap.step]
    split
    · rename_i hr hq
      obtain ⟨w, hw, hh⟩ := Rel.var hR hr
      obtain ⟨w', hw', hh'⟩ := Rel.var hR hq
      cases hh
      cases hh'
      simp [vstep, hw, hw'] at h
      simp [h]
    · rfl

theorem run_none {s : State} {v : List Val} (hR : Rel s v) {ops : List Op} (h : vrun v ops = none) :
    run s ops = .err () := by
  induction ops generalizing s v with
  | nil => simp [vrun] at h
  | cons op ops ih =>
    simp only [vrun] at h
    cases h1 : vstep v op with
    | none => simp only [run, step_none hR h1, bind, Res.bind]
    | some v1 =>
      obtain ⟨s1, e, hR1⟩ := step_spec hR h1
      rw [h1] at h
      simp only [run, e, bind, Res.bind]
      exact ih hR1 h

/-- **C34.** And every program that runs on the heap is one that makes sense on values; a program that
does not is rejected (as rustc does), it does not touch freed memory and does not recurse too deeply. -/
theorem C34_safe (ops : List Op) :
    (vrun [] ops = none → run State.init ops = .err ()) ∧
    run State.init ops ≠ .panic ∧ run State.init ops ≠ .diverge := by
  refine ⟨fun h => run_none Rel.init h, ?_⟩
  cases h : vrun [] ops with
  | none => rw [run_none Rel.init h]; simp
  | some v =>
    obtain ⟨s, e, -⟩ := run_spec ops Rel.init h
    rw [e]; simp

theorem reach_rel {s : State} (h : Reachable s) : ∃ v, Rel s v := by
  obtain ⟨ops, h⟩ := h
  cases hv : vrun [] ops with
  | none => rw [run_none Rel.init hv] at h; cases h
  | some v =>
    obtain ⟨s', e, hR⟩ := run_spec ops Rel.init hv
    rw [e] at h
    cases h
    exact ⟨v, hR⟩

theorem _root_.PM2.Rel.of_holds {s : State} {v : List Val} (hR : Rel s v) {i : Nat} {w : Val} (h : VarHolds s i w) :
    v[i]? = some w := by
  obtain ⟨r, hr, hh⟩ := h
  obtain ⟨w', hw', hh'⟩ := Rel.var hR hr
  rw [hw']
  congr 1
  cases hh with
  | dead => cases hh'; rfl
  | stream hg hs =>
    cases hh' with | stream hg' hs' => rw [hg] at hg'; cases hg'; rw [hs.unique hs']
  | borrowed hg hs =>
    cases hh' with | borrowed hg' hs' => rw [hg] at hg'; cases hg'; rw [hs.unique hs']
  | tree hs =>
    cases hh' with | tree hs' => have := hs.unique hs'; simp at this; rw [this]
  | owned hs =>
    cases hh' with | owned hs' => rw [hs.unique hs']

theorem vstep_same {v v' : List Val} {op : Op} (h : vstep v op = some v') {i : Nat} (hi : i ∉ changes op)
    {w : Val} (hw : v[i]? = some w) : v'[i]? = some w := by
  have hl : i < v.length := (List.getElem?_eq_some_iff.mp hw).1
  have key1 : ∀ u, (v ++ [u])[i]? = some w := fun u => by rw [List.getElem?_append_left hl]; exact hw
  have key2 : ∀ j u, i ≠ j → (v.set j u)[i]? = some w := fun j u hne => by
    rw [List.getElem?_set_ne (Ne.symm hne)]; exact hw
  have key3 : ∀ j u u', i ≠ j → (v.set j u ++ [u'])[i]? = some w := fun j u u' hne => by
    rw [List.getElem?_append_left (by simpa using hl), List.getElem?_set_ne (Ne.symm hne)]; exact hw
  have key4 : ∀ j k u u', i ≠ j → i ≠ k → ((v.set j u).set k u')[i]? = some w := fun j k u u' h1 h2 => by
    rw [List.getElem?_set_ne (Ne.symm h2), List.getElem?_set_ne (Ne.symm h1)]; exact hw
  cases op with
  | builder => simp [vstep] at h; subst h; exact key1 _
  | cloneStream j | cloneTree j | cloneOwned j | groupStream j | leaf t =>
    simp only [vstep] at h
    split at h <;> simp at h
    subst h
    exact key1 _
  | dropStream j | dropTree j | dropOwned j | makeMut j | endMut j | setSpan j sp =>
    simp only [vstep] at h
    split at h <;> simp at h
    subst h
    exact key2 _ _ (by simpa [changes] using hi)
  | build j | intoOwned j | groupNew d j =>
    simp only [vstep] at h
    split at h <;> simp at h
    subst h
    exact key3 _ _ _ (by simpa [changes] using hi)
  | next j =>
    simp only [vstep] at h
    split at h <;> simp at h
    · subst h
      exact key3 _ _ _ (by simpa [changes] using hi)
    · subst h; exact hw
  | pushOwned j k | pushOwnedPM j k | pushMut j k | extendMut j k | pushMutPM j k =>
    simp only [vstep] at h
    simp [changes] at hi
    split at h <;> simp at h
    subst h
    exact key4 _ _ _ _ hi.2 hi.1
  | extendOwned j k =>
    simp only [vstep] at h
    simp [changes] at hi
    split at h <;> simp at h
    obtain ⟨-, h⟩ := h
    subst h
    exact key4 _ _ _ _ hi.2 hi.1

/-- **C34.** An operation changes only the variables that it names; whatever the others share with those,
they keep their values. -/
theorem C34_independent {s s' : State} (hs : Reachable s) {op : Op} (h : Heap.step s op = .ok s') {i : Nat}
    (hi : i ∉ changes op) {w : Val} (hw : VarHolds s i w) : VarHolds s' i w := by
  obtain ⟨v, hR⟩ := reach_rel hs
  cases hv : vstep v op with
  | none => rw [step_none hR hv] at h; cases h
  | some v' =>
    obtain ⟨s1, e, hR1⟩ := step_spec hR hv
    rw [e] at h
    cases h
    exact hR1.val (vstep_same hv hi (hR.of_holds hw))

/-! ### C37 -/

theorem points_iff {l : List HTree} {a : Nat} : Points l a ↔ a ∈ refs l := by
  unfold Points refs
  rw [List.mem_flatMap]
  constructor
  · rintro ⟨d, s, h⟩; exact ⟨_, h, by simp [HTree.ref]⟩
  · rintro ⟨t, h, ha⟩
    cases t <;> simp [HTree.ref] at ha
    subst ha
    exact ⟨_, _, h⟩

theorem rootPoints_iff {r : Root} {a : Nat} : RootPoints r a ↔ a ∈ rootRefs r := by
  cases r with
  | dead => simp [RootPoints, rootRefs]
  | stream b => simp [RootPoints, rootRefs]; exact eq_comm
  | borrowed b => simp [RootPoints, rootRefs]; exact eq_comm
  | tree t => simp only [RootPoints, rootRefs, points_iff]; simp
  | owned l => exact points_iff

theorem shows_sizeOf {h : Heap} {l : List HTree} {ts : List TokenTree} (hs : Shows h l ts) {a : Nat}
    (ha : a ∈ refs l) : ∃ c us, h.get a = some c ∧ Shows h c.vec us ∧ sizeOf us < sizeOf ts := by
  induction hs with
  | nil => simp at ha
  | ident _ ih | punct _ ih | literal _ ih =>
    obtain ⟨c, us, h1, h2, h3⟩ := ih (by simpa [HTree.ref] using ha)
    exact ⟨c, us, h1, h2, by simp; omega⟩
  | @group d b s c inner l ts hg hi hl _ ih =>
    rw [refs_cons] at ha
    simp only [HTree.ref, List.mem_append, List.mem_singleton] at ha
    rcases ha with rfl | ha
    · exact ⟨c, inner, hg, hi, by simp; omega⟩
    · obtain ⟨c', us, h1, h2, h3⟩ := ih ha
      exact ⟨c', us, h1, h2, by simp; omega⟩

theorem shows_bounded (h : Heap) : ∃ M, ∀ a c ts, h.get a = some c → Shows h c.vec ts → sizeOf ts ≤ M := by
  have key : ∀ n : Nat, ∃ M : Nat, ∀ a : Nat, a < n → ∀ c ts, h.get a = some c → Shows h c.vec ts → sizeOf ts ≤ M := by
    intro n
    induction n with
    | zero => exact ⟨0, fun a ha => absurd ha (by omega)⟩
    | succ n ih =>
      obtain ⟨M, hM⟩ := ih
      by_cases hc : ∃ c ts, h.get n = some c ∧ Shows h c.vec ts
      · obtain ⟨c, ts, hg, hs⟩ := hc
        refine ⟨M + sizeOf ts, fun a ha c' ts' hg' hs' => ?_⟩
        by_cases e : a = n
        · subst e
          rw [hg] at hg'
          cases hg'
          rw [hs.unique hs']
          omega
        · have := hM a (by omega) c' ts' hg' hs'
          omega
      · refine ⟨M, fun a ha c' ts' hg' hs' => ?_⟩
        by_cases e : a = n
        · subst e; exact absurd ⟨c', ts', hg', hs'⟩ hc
        · exact hM a (by omega) c' ts' hg' hs'
  obtain ⟨M, hM⟩ := key h.length
  exact ⟨M, fun a c ts hg hs => hM a (get_length hg) c ts hg hs⟩

theorem rel_live {s : State} {v : List Val} (hR : Rel s v) (a : Addr) :
    (∃ c, s.heap.get a = some c) ↔ Owned s a := by
  constructor
  · rintro ⟨c, hg⟩
    obtain ⟨M, hM⟩ := shows_bounded s.heap
    obtain ⟨ts, ht⟩ := hR.inv.shows a c hg
    generalize hk : M - sizeOf ts = k
    induction k using Nat.strongRecOn generalizing a c ts with
    | ind k ih =>
      have h1 := hR.inv.pos a c hg
      rw [hR.inv.rc a c hg] at h1
      by_cases h2 : 0 < (varRefs s.vars).count a
      · rw [List.count_pos_iff] at h2
        unfold varRefs at h2
        rw [List.mem_flatMap] at h2
        obtain ⟨r, hr, ha⟩ := h2
        exact .root hr (rootPoints_iff.mpr ha)
      · have h3 : 0 < (heapRefs s.heap).count a := by
          omega
        rw [List.count_pos_iff] at h3
        unfold heapRefs at h3
        rw [List.mem_flatMap] at h3
        obtain ⟨o, ho, ha⟩ := h3
        cases o with
        | none => simp [cellRefs] at ha
        | some c' =>
          obtain ⟨b, hb⟩ := List.getElem?_of_mem ho
          have hg' : s.heap.get b = some c' := by unfold Heap.get; rw [hb]; rfl
          obtain ⟨ts', ht'⟩ := hR.inv.shows b c' hg'
          obtain ⟨c2, us, e1, e2, e3⟩ := shows_sizeOf ht' (by simpa [cellRefs] using ha)
          rw [hg] at e1
          cases e1
          rw [e2.unique ht] at e3
          have := hM b c' ts' hg' ht'
          exact .child (ih (M - sizeOf ts') (by omega) b c' hg' ts' ht' rfl) hg'
            (points_iff.mpr (by simpa [cellRefs] using ha))
  · intro h
    induction h with
    | @root r a hr ha =>
      refine hR.inv.live (a := a) ?_
      rw [rootPoints_iff] at ha
      rw [List.count_pos_iff]
      exact List.mem_flatMap.mpr ⟨r, hr, ha⟩
    | @child a b c _ hg ha _ =>
      cases e : s.heap.get a with
      | some c' => exact ⟨c', rfl⟩
      | none =>
        have h1 := hR.inv.dead a e
        have h2 : 0 < (heapRefs s.heap).count a := by
          rw [List.count_pos_iff]
          refine List.mem_flatMap.mpr ⟨some c, List.mem_of_getElem? (get_lt hg), ?_⟩
          exact points_iff.mp ha
        omega

/-- **C37.** Nothing leaks, and nothing is freed early: at any time, the cells that are allocated are
those that a variable owns, directly or through the groups of others. -/
theorem C37_live {s : State} (hs : Reachable s) (a : Addr) :
    (∃ c, s.heap.get a = some c) ↔ Owned s a := by
  obtain ⟨v, hR⟩ := reach_rel hs
  exact rel_live hR a

/-- **C37.** When no variable is left, the heap is empty. -/
theorem C37_no_leak {s : State} (hs : Reachable s) (h : ∀ r ∈ s.vars, r = .dead) (a : Addr) :
    s.heap.get a = none := by
  cases e : s.heap.get a with
  | none => rfl
  | some c =>
    have := (C37_live hs a).mp ⟨c, e⟩
    exfalso
    clear e
    induction this with
    | root hr hp => rw [h _ hr] at hp; exact hp
    | child _ _ _ ih => exact ih

theorem reach_step {s s' : State} (hs : Reachable s) {op : Op} (h : Heap.step s op = .ok s') : Reachable s' := by
  obtain ⟨ops, ho⟩ := hs
  refine ⟨ops ++ [op], ?_⟩
  generalize State.init = s0 at ho ⊢
  induction ops generalizing s0 with
  | nil => cases ho; simp only [List.nil_append, Heap.run, h, bind, Res.bind]
  | cons o ops ih =>
    simp only [List.cons_append, Heap.run, bind, Res.bind] at ho ⊢
    cases e : Heap.step s0 o with
    | ok s1 => rw [e] at ho; exact ih _ ho
    | err => rw [e] at ho; cases ho
    | panic => rw [e] at ho; cases ho
    | diverge => rw [e] at ho; cases ho

/-- **C37.** Dropping a stream ends normally. The calls of `drop` nest to a depth of two, however deep the
groups are nested (`dropDepth`). Afterwards the cells that are left are those that the remaining
variables own, and these variables hold what they held. -/
theorem C37_drop {s : State} (hs : Reachable s) {i : Nat} {ts : List TokenTree}
    (h : VarHolds s i (.stream ts)) :
    ∃ s', Heap.step s (.dropStream i) = .ok s' ∧
      s'.vars = s.vars.set i .dead ∧
      (∀ a, (∃ c, s'.heap.get a = some c) ↔ Owned s' a) ∧
      ∀ j w, j ≠ i → VarHolds s j w → VarHolds s' j w := by
  obtain ⟨v, hR⟩ := reach_rel hs
  have hv := hR.of_holds h
  have hv' : vstep v (.dropStream i) = some (v.set i .dead) := by simp [vstep, hv]
  obtain ⟨s', e, hR'⟩ := step_spec hR hv'
  refine ⟨s', e, ?_, fun a => C37_live (reach_step hs e) a, fun j w hj hw =>
    C34_independent hs e (by simpa [changes] using hj) hw⟩
  simp only [Heap.step] at e
  split at e
  · simp only [bind, Res.bind] at e
    split at e <;> cases e
    rfl
  · cases e

/-! ### C35 -/

theorem vrun_append (v : List Val) (ops ops' : List Op) :
    vrun v (ops ++ ops') = (vrun v ops).bind (fun v' => vrun v' ops') := by
  induction ops generalizing v with
  | nil => rfl
  | cons op ops ih =>
    simp only [List.cons_append, vrun]
    cases vstep v op with
    | none => rfl
    | some v' => exact ih v'

/-- **C35.** While a stream is mutably borrowed, whatever happens in between, its contents are what was
there before and what has been pushed since, in order. -/
theorem C35_during {v v' : List Val} {i : Nat} {ts : List TokenTree} {ops : List Op}
    (hv : v[i]? = some (.borrowed ts)) (hr : vrun v ops = some v') (he : Op.endMut i ∉ ops) :
    v'[i]? = some (.borrowed (ts ++ pushedRun i v ops)) := by
  induction ops generalizing v ts with
  | nil => simp [vrun] at hr; subst hr; simpa [pushedRun] using hv
  | cons op ops ih =>
    simp only [vrun] at hr
    cases h1 : vstep v op with
    | none => rw [h1] at hr; simp at hr
    | some v1 =>
      rw [h1] at hr
      simp only [pushedRun, h1]
      rw [← List.append_assoc]
      simp only [List.mem_cons, not_or] at he
      refine ih ?_ hr he.2
      by_cases hc : i ∈ changes op
      · have hl : i < v.length := (List.getElem?_eq_some_iff.mp hv).1
        cases op with
        | builder | cloneStream j | cloneTree j | cloneOwned j | groupStream j | leaf t => simp [changes] at hc
        | build j | dropStream j | dropTree j | dropOwned j | intoOwned j | next j | makeMut j
        | groupNew d j | setSpan j sp =>
          simp [changes] at hc
          subst hc
          simp [vstep, hv] at h1
        | endMut j => simp [changes] at hc; subst hc; exact absurd rfl he.1
        | pushOwned j k | pushOwnedPM j k | extendOwned j k =>
          simp [changes] at hc
          simp only [vstep] at h1
          rcases hc with rfl | rfl
          · simp [hv] at h1
          · rw [hv] at h1
            split at h1
            · rename_i h2; cases h2
            · simp at h1
        | pushMut j k | extendMut j k | pushMutPM j k =>
          simp [changes] at hc
          simp only [vstep] at h1
          rcases hc with rfl | rfl
          · rw [hv] at h1
            split at h1
            · rename_i h2 h3
              cases h2
              cases h1
              simp [pushed, h3, hl]
            · simp at h1
          · rw [hv] at h1
            split at h1
            · rename_i h2; cases h2
            · simp at h1
      · rw [vstep_same h1 hc hv]
        have : pushed i v op = [] := by
          cases op with
          | pushMut j k | extendMut j k | pushMutPM j k =>
            simp [changes] at hc
            simp only [pushed]
            split
            · rw [if_neg (by omega)]
            · rfl
          | _ => rfl
        simp [this]

theorem run_of_vrun {s : State} {v v' : List Val} (hR : Rel s v) {ops : List Op} (h : vrun v ops = some v') :
    ∃ s', Heap.run s ops = .ok s' ∧ Rel s' v' := run_spec ops hR h

/-- **C35.** `is_empty` says whether the stream has no tokens. -/
theorem C35_is_empty {s : State} {i : Nat} {a : Addr} {ts : List TokenTree}
    (hi : s.vars[i]? = some (.stream a)) (h : VarHolds s i (.stream ts)) :
    isEmpty s.heap a = .ok (decide (ts = [])) := by
  obtain ⟨r, hr, hh⟩ := h
  rw [hi] at hr
  cases hr
  cases hh with
  | stream hg hs =>
    simp only [isEmpty, read_some hg, bind, Res.bind]
    generalize Cell.vec _ = l at hs
    cases hs <;> simp

theorem append_at {v : List Val} {n : Nat} (hn : v.length = n) (w : Val) : (v ++ [w])[n]? = some w := by
  subst hn; simp

/-- **C35.** `TokenStream::new()` has no tokens. -/
theorem C35_new {s : State} (hs : Reachable s) :
    ∃ s', Heap.run s (newProg s.vars.length) = .ok s' ∧ VarHolds s' (s.vars.length + 1) (.stream []) := by
  obtain ⟨v, hR⟩ := reach_rel hs
  rw [hR.len]
  have : vrun v (newProg v.length) = some (v ++ [.dead] ++ [.stream []]) := by
    simp [newProg, vrun, vstep]
  obtain ⟨s', e, hR'⟩ := run_of_vrun hR this
  exact ⟨s', e, hR'.val (append_at (by simp) _)⟩

/-- **C35.** A stream from one token has this token, or if this is a negative literal, the minus sign and
the literal. -/
theorem C35_from_tree {s : State} (hs : Reachable s) {j : Nat} {t : TokenTree} (hj : VarHolds s j (.tree t)) :
    ∃ s', Heap.run s (fromTreeProg s.vars.length j) = .ok s' ∧
      VarHolds s' (s.vars.length + 1) (.stream (splitNeg t)) := by
  obtain ⟨v, hR⟩ := reach_rel hs
  rw [hR.len]
  have hv := hR.of_holds hj
  have hl : j < v.length := (List.getElem?_eq_some_iff.mp hv).1
  have : vrun v (fromTreeProg v.length j) = some (v.set j .dead ++ [.dead] ++ [.stream (splitNeg t)]) := by
    have h1 : (v ++ [Val.owned []])[j]? = some (.tree t) := by rw [List.getElem?_append_left hl]; exact hv
    have h2 : (((v ++ [Val.owned []]).set j .dead).set v.length (.owned (splitNeg t))) =
        v.set j .dead ++ [.owned (splitNeg t)] := by
      rw [List.set_append, if_pos hl, List.set_append, if_neg (by simp)]
      simp
    simp only [fromTreeProg, vrun, vstep, Option.bind, append_at rfl, h1, List.nil_append, h2]
    rw [append_at (by simp)]
    simp
  obtain ⟨s', e, hR'⟩ := run_of_vrun hR this
  exact ⟨s', e, hR'.val (append_at (by simp) _)⟩

/-- All variables `js` hold trees, in order `us`. -/
theorem vrun_push_trees {i : Nat} {js : List Nat} {us : List TokenTree} {v : List Val} {ts : List TokenTree}
    (hi : v[i]? = some (.borrowed ts)) (hn : js.Nodup)
    (hj : js.map (fun j => v[j]?) = us.map (fun t => some (Val.tree t))) :
    ∃ v', vrun v (js.map (.pushMutPM i)) = some v' ∧ v'.length = v.length ∧
      v'[i]? = some (.borrowed (ts ++ us.flatMap splitNeg)) := by
  induction js generalizing us v ts with
  | nil =>
    cases us with
    | nil => exact ⟨v, rfl, rfl, by simpa using hi⟩
    | cons u us => simp at hj
  | cons j js ih =>
    cases us with
    | nil => simp at hj
    | cons u us =>
      simp only [List.map_cons, List.cons.injEq] at hj
      obtain ⟨h1, h2⟩ := hj
      rw [List.nodup_cons] at hn
      have hne : i ≠ j := by rintro rfl; rw [hi] at h1; cases h1
      have hl : i < v.length := (List.getElem?_eq_some_iff.mp hi).1
      let v1 := (v.set j .dead).set i (.borrowed (ts ++ splitNeg u))
      have e1 : vstep v (.pushMutPM i j) = some v1 := by simp [vstep, hi, h1, v1]
      have hi' : v1[i]? = some (.borrowed (ts ++ splitNeg u)) := by simp [v1, hl]
      have hother : ∀ k, k ≠ i → k ≠ j → v1[k]? = v[k]? := fun k hk hk' => by
        simp only [v1]; rw [List.getElem?_set_ne (Ne.symm hk), List.getElem?_set_ne (Ne.symm hk')]
      have hj' : js.map (fun j => v1[j]?) = us.map (fun t => some (Val.tree t)) := by
        rw [← h2]
        refine List.map_congr_left (fun k hk => ?_)
        refine hother k ?_ ?_
        · rintro rfl
          have : some (Val.borrowed ts) ∈ js.map (fun j => v[j]?) := List.mem_map.mpr ⟨k, hk, hi⟩
          rw [h2, List.mem_map] at this
          obtain ⟨_, _, h⟩ := this
          cases h
        · rintro rfl; exact hn.1 hk
      obtain ⟨v', e, hl', h⟩ := ih hi' hn.2 hj'
      refine ⟨v', ?_, by simp [hl', v1], ?_⟩
      · simp only [List.map_cons, vrun, e1, Option.bind]; exact e
      · rw [h]; simp

theorem vrun_extend_trees {v : List Val} {i : Nat} {ts : List TokenTree} (hv : v[i]? = some (.stream ts))
    {js : List Nat} (hn : js.Nodup) {us : List TokenTree}
    (hj' : js.map (fun j => v[j]?) = us.map (fun t => some (Val.tree t))) :
    ∃ v', vrun v (extendTreesProg i js) = some v' ∧ v'.length = v.length ∧
      v'[i]? = some (.stream (ts ++ us.flatMap splitNeg)) := by
  have hl : i < v.length := (List.getElem?_eq_some_iff.mp hv).1
  have e1 : vstep v (.makeMut i) = some (v.set i (.borrowed ts)) := by simp [vstep, hv]
  have h2 : js.map (fun j => (v.set i (.borrowed ts))[j]?) = us.map (fun t => some (Val.tree t)) := by
    rw [← hj']
    refine List.map_congr_left (fun k hk => ?_)
    refine List.getElem?_set_ne ?_
    rintro rfl
    have : some (Val.stream ts) ∈ js.map (fun j => v[j]?) := List.mem_map.mpr ⟨_, hk, hv⟩
    rw [hj', List.mem_map] at this
    obtain ⟨_, _, h⟩ := this
    cases h
  obtain ⟨v', e2, h4, h3⟩ := vrun_push_trees (v := v.set i (.borrowed ts)) (ts := ts) (List.getElem?_set_self hl) hn h2
  refine ⟨v'.set i (.stream (ts ++ us.flatMap splitNeg)), ?_, by simpa using h4, ?_⟩
  · unfold extendTreesProg
    rw [List.cons_append]
    simp only [vrun, e1, Option.bind]
    rw [vrun_append, e2]
    simp [vrun, vstep, h3]
  · simp at h4
    simp [h4, hl]

theorem vals_of_holds {s : State} {v : List Val} (hR : Rel s v) {α : Type} (f : α → Val) : ∀ {js : List Nat}
    {us : List α}, VarsHold s f js us →
    js.map (fun j => v[j]?) = us.map (fun t => some (f t))
  | [], _, .nil => rfl
  | _ :: _, _, .cons h1 h2 => by
    simp only [List.map_cons, hR.of_holds h1, vals_of_holds hR f h2]

/-- **C35.** Extending a stream by trees. -/
theorem C35_extend_trees {s : State} (hs : Reachable s) {i : Nat} {ts : List TokenTree}
    (hi : VarHolds s i (.stream ts)) {js : List Nat} (hn : js.Nodup) {us : List TokenTree}
    (hj : VarsHold s .tree js us) :
    ∃ s', Heap.run s (extendTreesProg i js) = .ok s' ∧
      VarHolds s' i (.stream (ts ++ us.flatMap splitNeg)) := by
  obtain ⟨v, hR⟩ := reach_rel hs
  obtain ⟨v', e, -, h⟩ := vrun_extend_trees (hR.of_holds hi) hn (vals_of_holds hR .tree hj)
  obtain ⟨s', e', hR'⟩ := run_of_vrun hR e
  exact ⟨s', e', hR'.val h⟩

/-- **C35.** Collecting trees. -/
theorem C35_collect_trees {s : State} (hs : Reachable s) {js : List Nat} (hn : js.Nodup)
    {us : List TokenTree} (hj : VarsHold s .tree js us) :
    ∃ s', Heap.run s (collectTreesProg s.vars.length js) = .ok s' ∧
      VarHolds s' (s.vars.length + 1) (.stream (us.flatMap splitNeg)) := by
  obtain ⟨v, hR⟩ := reach_rel hs
  have hj' := vals_of_holds hR .tree hj
  rw [hR.len]
  have e1 : vrun v (newProg v.length) = some (v ++ [.dead] ++ [.stream []]) := by
    simp [newProg, vrun, vstep]
  have h2 : js.map (fun j => (v ++ [.dead] ++ [.stream []])[j]?) = us.map (fun t => some (Val.tree t)) := by
    rw [← hj']
    refine List.map_congr_left (fun k hk => ?_)
    have : v[k]? ∈ js.map (fun j => v[j]?) := List.mem_map.mpr ⟨_, hk, rfl⟩
    rw [hj', List.mem_map] at this
    obtain ⟨_, _, h⟩ := this
    have hl := (List.getElem?_eq_some_iff.mp h.symm).1
    rw [List.append_assoc, List.getElem?_append_left hl]
  obtain ⟨v', e, -, h⟩ := vrun_extend_trees (i := v.length + 1) (append_at (by simp) (.stream [])) hn h2
  have e2 : vrun v (collectTreesProg v.length js) = some v' := by
    unfold collectTreesProg
    rw [vrun_append, e1]
    exact e
  obtain ⟨s', e', hR'⟩ := run_of_vrun hR e2
  exact ⟨s', e', by simpa [VarHolds] using hR'.val h⟩

theorem vrun_flat {i : Nat} {push : Nat → Op} {f : List TokenTree → Val}
    (hpush : ∀ (v : List Val) ts us (k : Nat), v[i]? = some (f ts) → v[k]? = some (.owned us) → i ≠ k →
      vstep v (push k) = some ((v.set k .dead).set i (f (ts ++ us))))
    (hf : ∀ ts us, f ts ≠ .stream us)
    {js : List Nat} {us : List (List TokenTree)} {v : List Val} {n : Nat} (hlen : v.length = n)
    {ts : List TokenTree} (hi : v[i]? = some (f ts)) (hn : js.Nodup)
    (hj : js.map (fun j => v[j]?) = us.map (fun t => some (Val.stream t))) :
    ∃ v', vrun v (flatProg push n js) = some v' ∧ v'.length = n + js.length ∧
      v'[i]? = some (f (ts ++ us.flatten)) := by
  induction js generalizing us v ts n with
  | nil =>
    cases us with
    | nil => exact ⟨v, rfl, by simpa using hlen, by simpa using hi⟩
    | cons u us => simp at hj
  | cons j js ih =>
    cases us with
    | nil => simp at hj
    | cons u us =>
      simp only [List.map_cons, List.cons.injEq] at hj
      obtain ⟨h1, h2⟩ := hj
      rw [List.nodup_cons] at hn
      have hne : i ≠ j := by
        rintro rfl; rw [hi] at h1; simp only [Option.some.injEq] at h1; exact hf _ _ h1
      have hl : i < v.length := (List.getElem?_eq_some_iff.mp hi).1
      have e1 : vstep v (.intoOwned j) = some (v.set j .dead ++ [Val.owned u]) := by simp [vstep, h1]
      have e2 : vstep (v.set j .dead ++ [Val.owned u]) (push n) =
          some (((v.set j .dead ++ [Val.owned u]).set n .dead).set i (f (ts ++ u))) := by
        refine hpush _ _ _ _ ?_ ?_ (by omega)
        · rw [List.getElem?_append_left (by simpa using hl), List.getElem?_set_ne (Ne.symm hne)]; exact hi
        · exact append_at (by simpa using hlen) _
      have hother : ∀ k, k < v.length → k ≠ i → k ≠ j →
          (((v.set j .dead ++ [Val.owned u]).set n .dead).set i (f (ts ++ u)))[k]? = v[k]? :=
        fun k hk h1 h2 => by
          rw [List.getElem?_set_ne (Ne.symm h1), List.getElem?_set_ne (by omega),
            List.getElem?_append_left (by simpa using hk), List.getElem?_set_ne (Ne.symm h2)]
      have hj' : js.map (fun j' => (((v.set j .dead ++ [Val.owned u]).set n .dead).set i (f (ts ++ u)))[j']?) =
          us.map (fun t => some (Val.stream t)) := by
        rw [← h2]
        refine List.map_congr_left (fun k hk => ?_)
        have hm : v[k]? ∈ js.map (fun j => v[j]?) := List.mem_map.mpr ⟨k, hk, rfl⟩
        rw [h2, List.mem_map] at hm
        obtain ⟨t, -, ht⟩ := hm
        refine hother k (List.getElem?_eq_some_iff.mp ht.symm).1 ?_ ?_
        · rintro rfl
          rw [hi] at ht
          simp only [Option.some.injEq] at ht
          exact hf _ _ ht.symm
        · rintro rfl; exact hn.1 hk
      obtain ⟨v', e, hl', h⟩ := ih (v := (((v.set j .dead ++ [Val.owned u]).set n .dead).set i (f (ts ++ u))))
        (n := n + 1) (by simp [hlen]) (ts := ts ++ u)
        (by rw [List.getElem?_set_self (by simp; omega)]) hn.2 hj'
      refine ⟨v', ?_, by simp [hl']; omega, ?_⟩
      · simp only [flatProg, vrun, e1, Option.bind, e2]; exact e
      · rw [h]; simp

/-- **C35.** Extending a stream by streams. -/
theorem C35_extend_streams {s : State} (hs : Reachable s) {i : Nat} {ts : List TokenTree}
    (hi : VarHolds s i (.stream ts)) {js : List Nat} (hn : js.Nodup) (hij : i ∉ js)
    {us : List (List TokenTree)} (hj : VarsHold s .stream js us) :
    ∃ s', Heap.run s (extendStreamsProg s.vars.length i js) = .ok s' ∧
      VarHolds s' i (.stream (ts ++ us.flatten)) := by
  obtain ⟨v, hR⟩ := reach_rel hs
  have hv := hR.of_holds hi
  have hj' := vals_of_holds hR .stream hj
  rw [hR.len]
  have hl : i < v.length := (List.getElem?_eq_some_iff.mp hv).1
  have e1 : vstep v (.makeMut i) = some (v.set i (.borrowed ts)) := by simp [vstep, hv]
  have h2 : js.map (fun j => (v.set i (.borrowed ts))[j]?) = us.map (fun t => some (Val.stream t)) := by
    rw [← hj']
    refine List.map_congr_left (fun k hk => ?_)
    refine List.getElem?_set_ne ?_
    rintro rfl
    exact hij hk
  obtain ⟨v', e2, h4, h3⟩ := vrun_flat (i := i) (push := .extendMut i) (f := .borrowed)
    (fun v ts us k h1 h2 _ => by simp [vstep, h1, h2]) (by simp) (v := v.set i (.borrowed ts))
    (n := v.length) (by simp) (ts := ts) (List.getElem?_set_self hl) hn h2
  have e3 : vrun v (extendStreamsProg v.length i js) = some (v'.set i (.stream (ts ++ us.flatten))) := by
    unfold extendStreamsProg
    rw [List.cons_append]
    simp only [vrun, e1, Option.bind]
    rw [vrun_append, e2]
    simp [vrun, vstep, h3]
  obtain ⟨s', e', hR'⟩ := run_of_vrun hR e3
  exact ⟨s', e', hR'.val (List.getElem?_set_self (by omega))⟩

/-- **C35.** Collecting streams. -/
theorem C35_collect_streams {s : State} (hs : Reachable s) {js : List Nat} (hn : js.Nodup)
    {us : List (List TokenTree)} (hj : VarsHold s .stream js us) :
    ∃ s', Heap.run s (collectStreamsProg s.vars.length js) = .ok s' ∧
      VarHolds s' (s.vars.length + 1 + js.length) (.stream us.flatten) := by
  obtain ⟨v, hR⟩ := reach_rel hs
  have hj' := vals_of_holds hR .stream hj
  rw [hR.len]
  have e1 : vstep v .builder = some (v ++ [.owned []]) := rfl
  have h2 : js.map (fun j => (v ++ [.owned []])[j]?) = us.map (fun t => some (Val.stream t)) := by
    rw [← hj']
    refine List.map_congr_left (fun k hk => ?_)
    have : v[k]? ∈ js.map (fun j => v[j]?) := List.mem_map.mpr ⟨_, hk, rfl⟩
    rw [hj', List.mem_map] at this
    obtain ⟨_, _, h⟩ := this
    have hl := (List.getElem?_eq_some_iff.mp h.symm).1
    rw [List.getElem?_append_left hl]
  obtain ⟨v', e2, h4, h3⟩ := vrun_flat (i := v.length) (push := .extendOwned v.length) (f := .owned)
    (fun v ts us k h1 h2 hne => by simp [vstep, h1, h2, hne]) (by simp) (v := v ++ [.owned []])
    (n := v.length + 1) (by simp) (append_at rfl _) hn h2
  have e3 : vrun v (collectStreamsProg v.length js) =
      some (v'.set v.length .dead ++ [.stream us.flatten]) := by
    unfold collectStreamsProg
    rw [List.cons_append]
    simp only [vrun, e1, Option.bind]
    rw [vrun_append, e2]
    simp [vrun, vstep, h3]
  obtain ⟨s', e', hR'⟩ := run_of_vrun hR e3
  exact ⟨s', e', hR'.val (append_at (by simpa using h4) _)⟩

/-! ### C38 -/

/-- **C38.** Iterating: the iterator of a stream with tokens `ts` has after `k` steps yielded the first
`k` tokens, in order, each in a new variable; it holds the rest, and its size hint is exact. -/
theorem C38_iterate {s : State} (hs : Reachable s) {i : Nat} {ts : List TokenTree}
    (hi : VarHolds s i (.stream ts)) (k : Nat) (hk : k ≤ ts.length) :
    ∃ s' l, Heap.run s (.intoOwned i :: List.replicate k (.next s.vars.length)) = .ok s' ∧
      s'.vars[s.vars.length]? = some (.owned l) ∧
      VarHolds s' s.vars.length (.owned (ts.drop k)) ∧
      sizeHint l = (ts.length - k, some (ts.length - k)) ∧
      s'.vars.length = s.vars.length + 1 + k ∧
      ∀ m (h : m < k), VarHolds s' (s.vars.length + 1 + m) (.tree (ts[m]'(by omega))) := by
  obtain ⟨v, hR⟩ := reach_rel hs
  have hv := hR.of_holds hi
  rw [hR.len]
  have e1 : vstep v (.intoOwned i) = some (v.set i .dead ++ [.owned ts]) := by simp [vstep, hv]
  have key : ∀ (k : Nat) (us : List TokenTree) (w : List Val), k ≤ us.length →
      w[v.length]? = some (.owned us) →
      vrun w (List.replicate k (.next v.length)) =
        some (w.set v.length (.owned (us.drop k)) ++ (us.take k).map .tree) := by
    intro k
    induction k with
    | zero =>
      intro us w _ hw
      obtain ⟨hl, hw⟩ := List.getElem?_eq_some_iff.mp hw
      simp [vrun, ← hw]
    | succ k ih =>
      intro us w hk hw
      cases us with
      | nil => simp at hk
      | cons u us =>
        have hl := (List.getElem?_eq_some_iff.mp hw).1
        have e : vstep w (.next v.length) = some (w.set v.length (.owned us) ++ [.tree u]) := by
          simp [vstep, hw]
        simp only [List.replicate_succ, vrun, e, Option.bind]
        rw [ih us _ (by simpa using hk)
          (by rw [List.getElem?_append_left (by simpa using hl)]; simp [hl])]
        rw [List.set_append, if_pos (by simpa using hl)]
        simp
  have e2 : vrun v (.intoOwned i :: List.replicate k (.next v.length)) =
      some ((v.set i .dead ++ [.owned (ts.drop k)]) ++ (ts.take k).map .tree) := by
    simp only [vrun, e1, Option.bind]
    rw [key k ts _ hk (append_at (by simp) _), List.set_append, if_neg (by simp)]
    simp
  obtain ⟨s', e', hR'⟩ := run_of_vrun hR e2
  have hit : VarHolds s' v.length (.owned (ts.drop k)) := by
    refine hR'.val ?_
    rw [List.getElem?_append_left (by simp)]
    exact append_at (by simp) _
  obtain ⟨r, hr, hh⟩ := hit
  cases hh with
  | @owned l _ hsh =>
    refine ⟨s', l, e', hr, ⟨_, hr, .owned hsh⟩, ?_, ?_, ?_⟩
    · have : l.length = (ts.drop k).length := by
        clear hr e' e2
        generalize ts.drop k = us at hsh
        induction hsh <;> simp_all
      simp [sizeHint, this]
    · rw [hR'.len]; simp; omega
    · intro m hm
      refine hR'.val ?_
      rw [List.getElem?_append_right (by simp)]
      simp [hm]

/-! ### C36 -/

theorem sub_append {t : TokenTree} {ts us : List TokenTree} (h : Sub t (ts ++ us)) : Sub t ts ∨ Sub t us := by
  cases h with
  | here hm =>
    rcases List.mem_append.mp hm with hm | hm
    · exact .inl (.here hm)
    · exact .inr (.here hm)
  | inside hm hs =>
    rcases List.mem_append.mp hm with hm | hm
    · exact .inl (.inside hm hs)
    · exact .inr (.inside hm hs)

theorem noNeg_append {ts us : List TokenTree} (h1 : NoNegative ts) (h2 : NoNegative us) :
    NoNegative (ts ++ us) := fun r sp h => (sub_append h).elim (h1 r sp) (h2 r sp)

theorem noNeg_single {t : TokenTree} (h : TreeOk t) (hl : ∀ r sp, t = .literal r sp → r.head? ≠ some '-') :
    NoNegative [t] := by
  intro r sp hs
  cases hs with
  | here hm => simp at hm; exact hl r sp hm.symm
  | inside hm hs => simp at hm; subst hm; exact h r sp hs

theorem noNeg_split {t : TokenTree} (h : TreeOk t) : NoNegative (splitNeg t) := by
  unfold splitNeg
  split
  · rename_i repr sp
    intro r sp' hs
    cases hs with
    | here hm =>
      simp at hm
      obtain ⟨rfl, rfl⟩ := hm
      intro e
      apply h
      cases r with
      | nil => simp at e
      | cons c r => simp at e; subst e; exact ⟨r, rfl⟩
    | inside hm hs => simp at hm
  · rename_i hne
    refine noNeg_single h (fun r sp e => ?_)
    subst e
    cases r with
    | nil => simp
    | cons c r =>
      intro e
      simp at e
      subst e
      exact hne _ _ rfl

theorem noNeg_tail {t : TokenTree} {ts : List TokenTree} (h : NoNegative (t :: ts)) :
    TreeOk t ∧ NoNegative ts := by
  constructor
  · cases t with
    | literal r sp =>
      intro hp
      apply h r sp (.here (by simp))
      obtain ⟨q, rfl⟩ := hp
      rfl
    | group d inner sp => exact fun r sp' hs => h r sp' (.inside (List.mem_cons_self ..) hs)
    | _ => trivial
  · intro r sp hs
    refine h r sp ?_
    cases hs with
    | here hm => exact .here (by simp [hm])
    | inside hm hs => exact .inside (List.mem_cons_of_mem _ hm) hs

theorem noNeg_nil : NoNegative [] := fun r sp h => by
  cases h with
  | here hm => simp at hm
  | inside hm _ => simp at hm

theorem vstep_ok {v v' : List Val} {op : Op} (h : vstep v op = some v') (ho : OpOk v op)
    (hv : ∀ w ∈ v, ValOk w) : ∀ w ∈ v', ValOk w := by
  have get : ∀ {i : Nat} {w : Val}, v[i]? = some w → ValOk w := fun h => hv _ (List.mem_of_getElem? h)
  have key1 : ∀ u, ValOk u → ∀ w ∈ v ++ [u], ValOk w := fun u hu w hw => by
    rcases List.mem_append.mp hw with hw | hw
    · exact hv w hw
    · simp at hw; subst hw; exact hu
  have keyS : ∀ (l : List Val), (∀ w ∈ l, ValOk w) → ∀ j u, ValOk u → ∀ w ∈ l.set j u, ValOk w :=
    fun l hl j u hu w hw => by
      rcases List.mem_or_eq_of_mem_set hw with hw | rfl
      · exact hl w hw
      · exact hu
  have key3 : ∀ j u u', ValOk u → ValOk u' → ∀ w ∈ v.set j u ++ [u'], ValOk w := fun j u u' h1 h2 w hw => by
    rcases List.mem_append.mp hw with hw | hw
    · exact keyS v hv j u h1 w hw
    · simp at hw; subst hw; exact h2
  cases op with
  | builder => simp only [vstep, Option.some.injEq] at h; subst h; exact key1 _ noNeg_nil
  | cloneStream j | cloneTree j | cloneOwned j =>
    simp only [vstep] at h
    split at h <;> simp only [Option.some.injEq, reduceCtorEq] at h
    rename_i e
    subst h
    exact key1 _ (get e)
  | groupStream j =>
    simp only [vstep] at h
    split at h <;> simp only [Option.some.injEq, reduceCtorEq] at h
    rename_i e
    subst h
    exact key1 _ (by have := get e; exact this)
  | leaf t =>
    cases t <;> simp [vstep, leafValue] at h <;> subst h
    · exact key1 _ trivial
    · exact key1 _ trivial
    · exact key1 _ ho
  | dropStream j | dropTree j | dropOwned j =>
    simp only [vstep] at h
    split at h <;> simp only [Option.some.injEq, reduceCtorEq] at h
    subst h
    exact keyS v hv _ _ trivial
  | makeMut j | endMut j =>
    simp only [vstep] at h
    split at h <;> simp only [Option.some.injEq, reduceCtorEq] at h
    rename_i e
    subst h
    exact keyS v hv _ _ (by have := get e; exact this)
  | setSpan j sp =>
    simp only [vstep] at h
    split at h <;> simp only [Option.some.injEq, reduceCtorEq] at h
    rename_i t e
    subst h
    refine keyS v hv _ _ ?_
    have := get e
    cases t <;> exact this
  | build j | intoOwned j | groupNew d j =>
    simp only [vstep] at h
    split at h <;> simp only [Option.some.injEq, reduceCtorEq] at h
    rename_i e
    subst h
    exact key3 _ _ _ trivial (by have := get e; exact this)
  | next j =>
    simp only [vstep] at h
    split at h <;> simp only [Option.some.injEq, reduceCtorEq] at h
    · rename_i e
      subst h
      have := noNeg_tail (get e)
      exact key3 _ _ _ this.2 this.1
    · subst h; exact hv
  | pushOwned j k | pushMut j k =>
    simp only [vstep] at h
    split at h <;> simp only [Option.some.injEq, reduceCtorEq] at h
    rename_i e1 e2
    subst h
    refine keyS _ (keyS v hv _ .dead trivial) _ _ (noNeg_append (get e1) (noNeg_single (get e2) ?_))
    rintro r sp rfl
    exact ho r sp e2
  | pushOwnedPM j k | pushMutPM j k =>
    simp only [vstep] at h
    split at h <;> simp only [Option.some.injEq, reduceCtorEq] at h
    rename_i e1 e2
    subst h
    exact keyS _ (keyS v hv _ .dead trivial) _ _ (noNeg_append (get e1) (noNeg_split (get e2)))
  | extendMut j k =>
    simp only [vstep] at h
    split at h <;> simp only [Option.some.injEq, reduceCtorEq] at h
    rename_i e1 e2
    subst h
    exact keyS _ (keyS v hv _ .dead trivial) _ _ (noNeg_append (get e1) (get e2))
  | extendOwned j k =>
    simp only [vstep] at h
    split at h
    · split at h <;> simp only [Option.some.injEq, reduceCtorEq] at h
      rename_i e1 e2 _
      subst h
      exact keyS _ (keyS v hv _ .dead trivial) _ _ (noNeg_append (get e1) (get e2))
    · simp at h

theorem vrun_ok {v v' : List Val} {ops : List Op} (h : vrun v ops = some v') (ho : RunOk v ops)
    (hv : ∀ w ∈ v, ValOk w) : ∀ w ∈ v', ValOk w := by
  induction ops generalizing v with
  | nil => simp [vrun] at h; subst h; exact hv
  | cons op ops ih =>
    simp only [vrun] at h
    cases e : vstep v op with
    | none => rw [e] at h; simp at h
    | some v1 =>
      rw [e] at h
      exact ih h (ho.2 v1 e) (vstep_ok e ho.1 hv)

/-- **C36.** No program puts a negative literal into a stream, at any depth. -/
theorem C36_program {ops : List Op} (ho : RunOk [] ops) {s : State} (h : Heap.run State.init ops = .ok s)
    {i : Nat} {ts : List TokenTree}
    (hi : VarHolds s i (.stream ts) ∨ VarHolds s i (.owned ts) ∨ VarHolds s i (.borrowed ts)) :
    NoNegative ts := by
  cases hv : vrun [] ops with
  | none => rw [run_none Rel.init hv] at h; cases h
  | some v =>
    obtain ⟨s', e, hR⟩ := run_spec ops Rel.init hv
    rw [e] at h
    cases h
    have := vrun_ok hv ho (by simp)
    rcases hi with hi | hi | hi <;> exact this _ (List.mem_of_getElem? (hR.of_holds hi))

/-- **C36.** A negative literal that is put into a stream becomes a minus sign, alone, and the literal
without its minus sign, and both have the span of the literal. -/
theorem C36_split {s : State} (hs : Reachable s) {i j : Nat} {ts : List TokenTree} {r : List Char} {sp : Span}
    (hi : VarHolds s i (.stream ts)) (hj : VarHolds s j (.tree (.literal ('-' :: r) sp))) :
    ∃ s', Heap.run s (extendTreesProg i [j]) = .ok s' ∧
      VarHolds s' i (.stream (ts ++ [.punct '-' .alone sp, .literal r sp])) :=
  C35_extend_trees hs hi (js := [j]) (by simp) (.cons hj .nil)

section
variable [UnicodeTables] [LawfulUnicode]

theorem litLex_head {x : List Char} (h : LitLex x) : x.head? ≠ some '-' := by
  rcases h with rfl | h
  · decide
  · obtain ⟨c, u, rfl, hc⟩ := P.literal_head h
    intro e
    simp at e
    subst e
    rcases hc with hc | hc | hc | hc | hc | hc <;> exact absurd hc (by decide)

theorem wfl_noNeg {ts : List TokenTree} (h : WFL ts) : NoNegative ts := by
  induction h with
  | nil => exact noNeg_nil
  | ident _ _ _ ih =>
    exact noNeg_append (ts := [_]) (noNeg_single trivial (by simp)) ih
  | literal hl _ ih =>
    refine noNeg_append (ts := [_]) ?_ ih
    intro r sp hs
    cases hs with
    | here hm => simp at hm; rw [hm.1]; exact litLex_head hl
    | inside hm _ => simp at hm
  | group _ _ _ ih1 ih2 => exact noNeg_append (ts := [_]) (noNeg_single ih1 (by simp)) ih2
  | punct _ _ _ _ ih => exact noNeg_append (ts := [_]) (noNeg_single trivial (by simp)) ih
  | quote _ _ ih => exact noNeg_append (ts := [_]) (noNeg_single trivial (by simp)) ih

/-- **C36.** Parsing yields no negative literals. -/
theorem C36_parse {sm : SourceMap} {texts : List (List Char)} (h : History sm texts)
    {src : List Char} (hr : Room texts src) {ts : List TokenTree}
    (hok : (TokenStream.fromStr sm src).2 = .ok ts) : NoNegative ts := by
  obtain ⟨e, -, -, -, hb⟩ := h.fromStr hr
  rw [e, fromStrAt_ok_iff hb] at hok
  exact wfl_noNeg hok.wf

/-- **C36.** Literals, from whatever constructor, have at most one minus sign. -/
theorem C36_literal_from_str {sm : SourceMap} {texts : List (List Char)} (h : History sm texts)
    {src : List Char} (hr : Room texts src) {y : List Char × Span}
    (hok : (Literal.fromStr sm src).2 = .ok y) : ¬ ['-', '-'] <+: y.1 := by
  obtain ⟨-, e, -, -, hb⟩ := h.fromStr hr
  rw [e, literalFromStrAt_eq hb] at hok
  split at hok <;> rename_i hacc <;> cases hok
  rintro ⟨q, hq⟩
  simp at hq
  subst hq
  rcases (litAccepts_iff _).mp hacc with h1 | ⟨d, u, h2, h3, -⟩
  · exact litLex_head (.inr h1) rfl
  · simp at h2
    rw [← h2.1] at h3
    exact absurd h3 (by decide)

theorem C36_literal_int (k : IntKind) (n : Int) :
    (∃ x, Literal.intSuffixed k n = .literal x Span.callSite ∧ ¬ ['-', '-'] <+: x) ∧
    (∃ x, Literal.intUnsuffixed n = .literal x Span.callSite ∧ ¬ ['-', '-'] <+: x) := by
  have key : ∀ y, ¬ ['-', '-'] <+: intDec n ++ y := by
    intro y
    obtain ⟨h1, h2, -⟩ := natDec_decimal n.natAbs
    have hne : ∀ c t, natDec n.natAbs = c :: t → c ≠ '-' := by
      rintro c t e rfl
      exact absurd (h2 '-' (by rw [e]; simp)) (by decide)
    rw [intDec_eq]
    cases e : natDec n.natAbs with
    | nil => exact absurd e h1
    | cons c t =>
      have := hne c t e
      split
      · rintro ⟨q, hq⟩; simp at hq; exact this hq.1.symm
      · rintro ⟨q, hq⟩; simp at hq; exact this hq.1.symm
  exact ⟨⟨_, rfl, key _⟩, ⟨_, rfl, by simpa [litIntUnsuffixed] using key []⟩⟩

theorem C36_literal_float {ε : Type} (k : FloatKind) {shown : List Char}
    (hs : FloatText shown ∨ ∃ s, shown = '-' :: s ∧ FloatText s) {t : TokenTree}
    (h : Literal.floatSuffixed (ε := ε) k true shown = .ok t ∨
      Literal.floatUnsuffixed (ε := ε) true shown = .ok t) :
    ∃ x, t = .literal x Span.callSite ∧ ¬ ['-', '-'] <+: x := by
  have key : ∀ y, ¬ ['-', '-'] <+: shown ++ y := by
    intro y
    have hne : ∀ s, FloatText s → ∃ c u, s = c :: u ∧ c ≠ '-' := by
      rintro s ⟨ds, fs, rfl, h1, h2, -⟩
      cases ds with
      | nil => exact absurd rfl h1
      | cons c u =>
        refine ⟨c, u ++ fs, rfl, ?_⟩
        rintro rfl
        exact absurd (h2 '-' (by simp)) (by decide)
    rcases hs with hs | ⟨s, rfl, hs⟩
    · obtain ⟨c, u, rfl, hc⟩ := hne _ hs
      rintro ⟨q, hq⟩; simp at hq; exact hc hq.1.symm
    · obtain ⟨c, u, rfl, hc⟩ := hne _ hs
      rintro ⟨q, hq⟩; simp at hq; exact hc hq.1.symm
  rcases h with h | h
  · simp only [Literal.floatSuffixed, if_true] at h
    cases h
    exact ⟨_, rfl, key _⟩
  · simp only [Literal.floatUnsuffixed, if_true] at h
    cases h
    refine ⟨_, rfl, ?_⟩
    unfold litFloatUnsuffixed
    split
    · simpa using key []
    · exact key _

theorem C36_literal_text (s : List Char) (c : Char) (b : UInt8) (bs : List UInt8) {x : List Char}
    (h : x = litString s ∨ x = litCharacter c ∨ x = litByteCharacter b ∨ x = litByteString bs ∨
      litCString bs = .ok x) : ¬ ['-', '-'] <+: x := by
  rcases h with rfl | rfl | rfl | rfl | h
  · rintro ⟨q, hq⟩; simp [litString] at hq
  · rintro ⟨q, hq⟩; simp [litCharacter] at hq
  · rintro ⟨q, hq⟩; simp [litByteCharacter] at hq
  · rintro ⟨q, hq⟩; simp [litByteString] at hq
  · unfold litCString at h
    simp only [bind, Res.bind] at h
    split at h <;> cases h
    rintro ⟨q, hq⟩
    simp at hq

end

/-! ### Examples -/

section Examples

/-- A stream of `-1` is cloned, the clone is put into a group, and the group is put into the stream. -/
def exProg : List Op :=
  [.leaf (.literal ['-', '1'] ⟨3, 5⟩), .builder, .pushOwnedPM 1 0, .build 1, .cloneStream 2,
   .groupNew .parenthesis 3, .makeMut 2, .pushMutPM 2 4, .endMut 2, .cloneStream 2,
   .leaf (.ident ['x'] false ⟨7, 8⟩)]

def exInner : List TokenTree := [.punct '-' .alone ⟨3, 5⟩, .literal ['1'] ⟨3, 5⟩]

def exOuter : List TokenTree := exInner ++ [.group .parenthesis exInner Span.callSite]

def exState : State :=
  ⟨[some ⟨1, [.punct '-' .alone ⟨3, 5⟩, .literal ['1'] ⟨3, 5⟩]⟩,
    some ⟨2, [.punct '-' .alone ⟨3, 5⟩, .literal ['1'] ⟨3, 5⟩, .group .parenthesis 0 Span.callSite]⟩],
   [.dead, .dead, .stream 1, .dead, .dead, .stream 1, .tree (.ident ['x'] false ⟨7, 8⟩)]⟩

/-- The program runs: the borrow copied the vector that the group shares. -/
theorem exRun : Heap.run State.init exProg = .ok exState := by decide +kernel

theorem exReach : Reachable exState := ⟨exProg, exRun⟩

/-- C34: the same program on values. -/
example : vrun [] exProg = some [.dead, .dead, .stream exOuter, .dead, .dead, .stream exOuter,
    .tree (.ident ['x'] false ⟨7, 8⟩)] := rfl

theorem exHolds2 : VarHolds exState 2 (.stream exOuter) :=
  ⟨_, rfl, .stream rfl (.punct (.literal (.group rfl (.punct (.literal .nil)) .nil)))⟩

theorem exHolds5 : VarHolds exState 5 (.stream exOuter) :=
  ⟨_, rfl, .stream rfl (.punct (.literal (.group rfl (.punct (.literal .nil)) .nil)))⟩

theorem exHolds6 : VarHolds exState 6 (.tree (.ident ['x'] false ⟨7, 8⟩)) := ⟨_, rfl, .tree (.ident .nil)⟩

/-- C34_independent: extending one clone. -/
example : ∃ s', Heap.step exState (.makeMut 2) = .ok s' ∧ (5 : Nat) ∉ changes (.makeMut 2) ∧
    VarHolds s' 5 (.stream exOuter) := by
  refine ⟨⟨[some ⟨2, [.punct '-' .alone ⟨3, 5⟩, .literal ['1'] ⟨3, 5⟩]⟩,
      some ⟨1, [.punct '-' .alone ⟨3, 5⟩, .literal ['1'] ⟨3, 5⟩, .group .parenthesis 0 Span.callSite]⟩,
      some ⟨1, [.punct '-' .alone ⟨3, 5⟩, .literal ['1'] ⟨3, 5⟩, .group .parenthesis 0 Span.callSite]⟩],
      [.dead, .dead, .borrowed 2, .dead, .dead, .stream 1, .tree (.ident ['x'] false ⟨7, 8⟩)]⟩,
    by decide +kernel, by decide,
    ⟨_, rfl, .stream rfl (.punct (.literal (.group rfl (.punct (.literal .nil)) .nil)))⟩⟩

/-- C37: dropping both clones frees the stream of the group, too. -/
example : Heap.run exState [.dropStream 2, .dropStream 5] =
    .ok ⟨[none, none],
      [.dead, .dead, .dead, .dead, .dead, .dead, .tree (.ident ['x'] false ⟨7, 8⟩)]⟩ := by decide +kernel

/-- C35: extending by the identifier. -/
example : ∃ s', Heap.run exState (extendTreesProg 2 [6]) = .ok s' ∧
    VarHolds s' 2 (.stream (exOuter ++ [.ident ['x'] false ⟨7, 8⟩])) :=
  C35_extend_trees exReach exHolds2 (by simp) (.cons exHolds6 .nil)

/-- C35: extending a stream by a clone of itself. -/
example : ∃ s', Heap.run exState (extendStreamsProg 7 2 [5]) = .ok s' ∧
    VarHolds s' 2 (.stream (exOuter ++ [exOuter].flatten)) :=
  C35_extend_streams exReach exHolds2 (by simp) (by simp) (.cons exHolds5 .nil)

/-- C35: collecting two clones. -/
example : ∃ s', Heap.run exState (collectStreamsProg 7 [5, 2]) = .ok s' ∧
    VarHolds s' 10 (.stream [exOuter, exOuter].flatten) :=
  C35_collect_streams exReach (by simp) (.cons exHolds5 (.cons exHolds2 .nil))

/-- C35_during: another stream is made between two pushes. -/
example : vrun [.borrowed [], .tree (.literal ['-', '1'] ⟨3, 5⟩), .tree (.ident ['x'] false ⟨7, 8⟩)]
      [.pushMutPM 0 1, .builder, .pushMutPM 0 2, .build 3] =
    some [.borrowed (exInner ++ [.ident ['x'] false ⟨7, 8⟩]), .dead, .dead, .dead, .stream []] := rfl

/-- C38: two steps. -/
example : ∃ s' l, Heap.run exState (.intoOwned 2 :: List.replicate 2 (.next 7)) = .ok s' ∧
    s'.vars[7]? = some (.owned l) ∧ sizeHint l = (1, some 1) := by
  obtain ⟨s', l, h1, h2, -, h3, -⟩ := C38_iterate exReach exHolds2 2 (by decide)
  exact ⟨s', l, h1, h2, h3⟩

/-- C36: the program obeys the rule. -/
example : RunOk [] exProg :=
  ⟨(by decide : ¬ ['-', '-'] <+: ['-', '1']), fun _ h => by cases h; exact ⟨trivial, fun _ h => by
    cases h; exact ⟨trivial, fun _ h => by cases h; exact ⟨trivial, fun _ h => by
    cases h; exact ⟨trivial, fun _ h => by cases h; exact ⟨trivial, fun _ h => by
    cases h; exact ⟨trivial, fun _ h => by cases h; exact ⟨trivial, fun _ h => by
    cases h; exact ⟨trivial, fun _ h => by cases h; exact ⟨trivial, fun _ h => by
    cases h; exact ⟨trivial, fun _ h => by cases h; trivial⟩⟩⟩⟩⟩⟩⟩⟩⟩⟩⟩

end Examples

end PM2.Props
