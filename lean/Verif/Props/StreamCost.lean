import Verif.Proof.TimedHeap
import Verif.Props.Streams
/-! # C103: what the operations on token streams cost -/

namespace PM2.Props
open Spec Heap Timed Heap.T

theorem live_pos {s : State} (hs : Reachable s) {i : Nat} {a : Addr} (h : s.vars[i]? = some (.stream a)) :
    ∃ c, s.heap.get a = some c ∧ 0 < c.rc := by
  obtain ⟨c, hc⟩ := (C37_live hs a).mpr (.root (List.mem_of_getElem? h) rfl)
  obtain ⟨v, hR⟩ := reach_rel hs
  exact ⟨c, hc, hR.inv.pos _ _ hc⟩

/-- The cost of one step with what it does to the number of tokens in memory. -/
theorem step_cost {s s' : State} (hs : Reachable s) {op : Op} (h : (T.step s op).val = .ok s') :
    (T.step s op).cost + 5 * storedTokens s' ≤ 5 * storedTokens s + 7 * handled s op + 8 ∧
    (¬ IsDrop op → (T.step s op).cost ≤ 2 * handled s op + 3) := by
  unfold T.step at h ⊢
  rw [val_tick] at h
  rw [cost_tick]
  cases op with
  | builder =>
    simp only [Heap.step] at h
    cases h
    simp [stored_eq, varTokens_append, varTokens_single, rootTokens, handled, IsDrop]
    omega
  | build i =>
    simp only [Heap.step] at h
    split at h
    · rename_i v e
      cases h
      have := varTokens_set .dead e
      have t := tokens_alloc s.heap v
      simp [stored_eq, varTokens_append, varTokens_single, handled, IsDrop, rootTokens] at this t ⊢
      omega
    · cases h
  | cloneStream i =>
    simp only at h ⊢
    split at h
    · rename_i a e
      obtain ⟨h1, e1, e2, k⟩ := bind_ok h
      obtain ⟨k1, t1, -⟩ := rcClone_cost e1
      cases e2
      rw [k, k1]
      simp [stored_eq, varTokens_append, handled, IsDrop, t1, varTokens_single, rootTokens]
      omega
    · cases h
  | groupStream i =>
    simp only at h ⊢
    split at h
    · rename_i d a sp e
      obtain ⟨h1, e1, e2, k⟩ := bind_ok h
      obtain ⟨k1, t1, -⟩ := rcClone_cost e1
      cases e2
      rw [k, k1]
      simp [stored_eq, varTokens_append, handled, IsDrop, t1, varTokens_single, rootTokens]
      omega
    · cases h
  | cloneTree i =>
    simp only at h ⊢
    split at h
    · rename_i t e
      obtain ⟨h1, e1, e2, k⟩ := bind_ok h
      obtain ⟨k1, t1, -⟩ := cloneTree_cost e1
      cases e2
      rw [k, k1]
      simp [stored_eq, varTokens_append, handled, IsDrop, t1, varTokens_single, rootTokens]
      omega
    · cases h
  | cloneOwned i =>
    simp only at h ⊢
    split at h
    · rename_i v e
      obtain ⟨h1, e1, e2, k⟩ := bind_ok h
      obtain ⟨k1, t1, -⟩ := cloneVec_cost e1
      cases e2
      rw [k, k1]
      simp [stored_eq, varTokens_append, handled, IsDrop, t1, e, varTokens_single, rootTokens]
      omega
    · cases h
  | dropStream i =>
    simp only at h ⊢
    split at h
    · rename_i a e
      obtain ⟨h1, e1, e2, k⟩ := bind_ok h
      have k1 := dropStream_cost _ _ _ _ e1
      have := varTokens_set .dead e
      cases e2
      rw [k]
      simp [stored_eq, handled, IsDrop, rootTokens] at this ⊢
      omega
    · cases h
  | dropTree i =>
    simp only at h ⊢
    split at h
    · rename_i a e
      obtain ⟨h1, e1, e2, k⟩ := bind_ok h
      have k1 := dropTree_cost _ _ _ _ e1
      have := varTokens_set .dead e
      cases e2
      rw [k]
      simp [stored_eq, handled, IsDrop, rootTokens] at this ⊢
      omega
    · cases h
  | dropOwned i =>
    simp only at h ⊢
    split at h
    · rename_i v e
      obtain ⟨h1, e1, e2, k⟩ := bind_ok h
      have k1 := dropVec_cost (dropTree_cost _) _ _ _ e1
      have := varTokens_set .dead e
      cases e2
      rw [k]
      simp [stored_eq, handled, IsDrop, rootTokens] at this ⊢
      omega
    · cases h
  | intoOwned i =>
    simp only at h ⊢
    split at h
    · rename_i a e
      obtain ⟨⟨h1, v⟩, e1, e2, k⟩ := bind_ok h
      obtain ⟨c, hg, hpos⟩ := live_pos hs e
      obtain ⟨k1, t1⟩ := takeInner_cost hg hpos e1
      have := varTokens_set .dead e
      cases e2
      rw [k]
      simp [stored_eq, varTokens_append, varTokens_single, handled, IsDrop, rootTokens, e, hg] at this ⊢
      omega
    · cases h
  | next i =>
    simp only [Heap.step] at h
    split at h
    · rename_i t v e
      cases h
      have := varTokens_set (.owned v) e
      simp [stored_eq, varTokens_append, varTokens_single, handled, IsDrop, rootTokens] at this ⊢
      omega
    · cases h
      simp [handled, IsDrop]
      omega
    · cases h
  | pushOwned i j =>
    simp only at h ⊢
    split at h
    · rename_i v t e1 e2
      cases h
      have hij : j ≠ i := by rintro rfl; rw [e1] at e2; cases e2
      have a1 := varTokens_set .dead e2
      have a2 := varTokens_set (vars := s.vars.set j .dead) (.owned (v ++ [t]))
        ((List.getElem?_set_ne hij).trans e1)
      simp [stored_eq, handled, IsDrop, rootTokens] at a1 a2 ⊢
      omega
    · cases h
  | pushOwnedPM i j =>
    simp only at h ⊢
    split at h
    · rename_i v t e1 e2
      cases h
      have hij : j ≠ i := by rintro rfl; rw [e1] at e2; cases e2
      have a1 := varTokens_set .dead e2
      have a2 := varTokens_set (vars := s.vars.set j .dead) (.owned (v ++ splitToken t))
        ((List.getElem?_set_ne hij).trans e1)
      have a3 := splitToken_length t
      simp [stored_eq, handled, IsDrop, rootTokens] at a1 a2 ⊢
      omega
    · cases h
  | extendOwned i j =>
    simp only at h ⊢
    split at h
    · rename_i v t e1 e2
      split at h
      · cases h
      · rename_i hij
        cases h
        have a1 := varTokens_set .dead e2
        have a2 := varTokens_set (vars := s.vars.set j .dead) (.owned (v ++ t))
          ((List.getElem?_set_ne (Ne.symm hij)).trans e1)
        simp [stored_eq, handled, IsDrop, rootTokens, e2, hij] at a1 a2 ⊢
        omega
    · cases h
  | makeMut i =>
    simp only at h ⊢
    split at h
    · rename_i a e
      obtain ⟨⟨h1, b⟩, e1, e2, k⟩ := bind_ok h
      obtain ⟨c, hg, hpos⟩ := live_pos hs e
      obtain ⟨k1, t1⟩ := makeMut_cost hg e1
      have := varTokens_set (.borrowed b) e
      cases e2
      rw [k]
      simp [stored_eq, handled, IsDrop, rootTokens, e, hg] at this ⊢
      omega
    · cases h
  | pushMut i j =>
    simp only at h ⊢
    split at h
    · rename_i a t e1 e2
      obtain ⟨h1, e3, e4, k⟩ := bind_ok h
      obtain ⟨k1, t1⟩ := pushMut_cost e3
      have := varTokens_set .dead e2
      cases e4
      rw [k]
      simp [stored_eq, handled, IsDrop, rootTokens] at this k1 t1 ⊢
      omega
    · cases h
  | pushMutPM i j =>
    simp only at h ⊢
    split at h
    · rename_i a t e1 e2
      obtain ⟨h1, e3, e4, k⟩ := bind_ok h
      obtain ⟨k1, t1⟩ := pushMut_cost e3
      have := varTokens_set .dead e2
      have a3 := splitToken_length t
      cases e4
      rw [k]
      simp [stored_eq, handled, IsDrop, rootTokens] at this ⊢
      omega
    · cases h
  | extendMut i j =>
    simp only at h ⊢
    split at h
    · rename_i a t e1 e2
      obtain ⟨h1, e3, e4, k⟩ := bind_ok h
      obtain ⟨k1, t1⟩ := pushMut_cost e3
      have := varTokens_set .dead e2
      cases e4
      rw [k]
      simp [stored_eq, handled, IsDrop, rootTokens, e2] at this ⊢
      omega
    · cases h
  | endMut i =>
    simp only [Heap.step] at h
    split at h
    · rename_i a e
      cases h
      have := varTokens_set (.stream a) e
      simp [stored_eq, handled, IsDrop, rootTokens] at this ⊢
      omega
    · cases h
  | groupNew d i =>
    simp only [Heap.step] at h
    split at h
    · rename_i a e
      cases h
      have := varTokens_set .dead e
      simp [stored_eq, varTokens_append, varTokens_single, handled, IsDrop, rootTokens] at this ⊢
      omega
    · cases h
  | leaf t =>
    simp only [Heap.step] at h
    split at h
    · cases h
      simp [stored_eq, varTokens_append, handled, IsDrop, varTokens_single, rootTokens]
      omega
    · cases h
  | setSpan i sp =>
    simp only [Heap.step] at h
    split at h
    · rename_i t e
      cases h
      have := varTokens_set (.tree (t.setSpan sp)) e
      simp [stored_eq, handled, IsDrop, rootTokens] at this ⊢
      omega
    · cases h

/-- **C103.** The results do not depend on the counting. -/
theorem C103_same (s : State) (op : Op) : (T.step s op).val = Heap.step s op := step_val s op

/-- **C103.** An operation that does not drop takes a constant number of steps, and two for each token that it handles
one by one. In particular, cloning a stream and looking into a group do not depend on their size, and neither does
changing a stream that is not shared. -/
theorem C103_constant {s s' : State} (hs : Reachable s) {op : Op} (h : Heap.step s op = .ok s') (hd : ¬ IsDrop op) :
    (T.step s op).cost ≤ 2 * handled s op + 3 :=
  (step_cost hs (step_val s op ▸ h)).2 hd

/-- **C103.** What is dropped is freed in linear time: at most eight steps, and five for each token that is not in memory
any more. -/
theorem C103_freed {s s' : State} (hs : Reachable s) {op : Op} (h : Heap.step s op = .ok s') (hd : IsDrop op) :
    (T.step s op).cost ≤ 5 * (storedTokens s - storedTokens s') + 8 := by
  have := (step_cost hs (step_val s op ▸ h)).1
  have h0 : handled s op = 0 := by cases op <;> first | rfl | cases hd
  omega

/-- The number of trees in a value. -/
def valCount : Val → Nat
  | .stream ts | .borrowed ts | .owned ts => treesCount ts
  | .tree t => treeCount t
  | .dead => 0

/-- **C103.** Dropping a value takes time linear in its size, however deep it is nested and whatever it shares. -/
theorem C103_drop {s s' : State} (hs : Reachable s) {i : Nat} {w : Val} (hw : VarHolds s i w) {op : Op}
    (hop : op = .dropStream i ∨ op = .dropTree i ∨ op = .dropOwned i) (h : Heap.step s op = .ok s') :
    (T.step s op).cost ≤ 5 * valCount w + 8 := by
  have hd : IsDrop op := by rcases hop with rfl | rfl | rfl <;> trivial
  have hc := C103_freed hs h hd
  suffices storedTokens s ≤ storedTokens s' + valCount w by omega
  obtain ⟨v, hR⟩ := reach_rel hs
  obtain ⟨r, hr, hh⟩ := hw
  rcases hop with rfl | rfl | rfl
  · simp only [Heap.step, hr] at h
    cases hh with
    | @stream a c ts hg hsh =>
      simp only [Bind.bind, Res.bind] at h
      split at h <;> cases h
      rename_i h1 e
      have k := dropStream_freed (d := 0) hR.inv (by
        have := varRefs_mem hr a
        simpa [rootRefs, Nat.one_le_iff_ne_zero, Nat.pos_iff_ne_zero] using this) hg hsh e
      have := varTokens_set .dead hr
      simp [stored_eq, rootTokens, valCount] at this ⊢
      omega
    | _ => cases h
  · simp only [Heap.step, hr] at h
    cases hh with
    | tree hsh =>
      simp only [Bind.bind, Res.bind] at h
      split at h <;> cases h
      rename_i h1 e
      have k := dropTree_freed (d := 0) hR.inv (varRefs_mem hr) hsh e
      have := varTokens_set .dead hr
      simp [stored_eq, rootTokens, valCount] at this ⊢
      omega
    | _ => cases h
  · simp only [Heap.step, hr] at h
    cases hh with
    | owned hsh =>
      simp only [Bind.bind, Res.bind] at h
      split at h <;> cases h
      rename_i h1 e
      have k := dropVec_freed (d := 0) (n' := fun x => (varRefs (s.vars.set i .dead)).count x) hR.inv (by
        intro x
        have := varRefs_set hr .dead x
        simp [rootRefs] at this
        omega) hsh e
      have := varTokens_set .dead hr
      simp [stored_eq, rootTokens, valCount] at this ⊢
      omega
    | _ => cases h

/-- **C103.** A program takes time linear in the number of its operations and the number of tokens that it handles one by
one, with everything that is dropped on the way. -/
theorem C103_program {ops : List Op} {s : State} (h : Heap.run State.init ops = .ok s) :
    (T.run State.init ops).cost ≤ 8 * ops.length + 7 * handledRun State.init ops := by
  have key : ∀ (ops : List Op) (s0 : State), Reachable s0 → Heap.run s0 ops = .ok s →
      (T.run s0 ops).cost + 5 * storedTokens s ≤ 5 * storedTokens s0 + 8 * ops.length + 7 * handledRun s0 ops := by
    intro ops
    induction ops with
    | nil => intro s0 _ h; cases h; simp [T.run, handledRun]
    | cons op ops ih =>
      intro s0 hs h
      have h' := h
      rw [← run_val] at h'
      unfold T.run at h' ⊢
      obtain ⟨s1, e1, e2, k⟩ := bind_ok h'
      have k1 := (step_cost hs e1).1
      rw [step_val] at e1
      have k2 := ih s1 (reach_step hs e1) (by rw [← run_val]; exact e2)
      rw [k]
      simp only [handledRun, e1, List.length_cons]
      omega
  have := key ops State.init ⟨[], rfl⟩ h
  have h0 : storedTokens State.init = 0 := rfl
  omega

/-! ### Concrete cases -/

/-- A program that makes the stream `{ a }` and clones it. -/
def costProgram : List Op :=
  [.leaf (.ident ['a'] false Span.callSite), .builder, .pushOwned 1 0, .build 1, .groupNew .brace 2, .builder,
    .pushOwned 4 3, .build 4, .cloneStream 5]

/-- Both variables hold `{ a }`. -/
def costState : State := ⟨[some ⟨1, [.ident ['a'] false Span.callSite]⟩, some ⟨2, [.group .brace 0 Span.callSite]⟩],
  [.dead, .dead, .dead, .dead, .dead, .stream 1, .stream 1]⟩

theorem costState_reached : Heap.run State.init costProgram = .ok costState := by decide +kernel

/-- Dropping the clone takes three steps and frees nothing. Dropping the other one after it frees two tokens. -/
example : (T.step costState (.dropStream 6)).cost = 3 ∧ (T.run costState [.dropStream 6, .dropStream 5]).cost = 13 ∧
    storedTokens costState = 2 ∧ handled costState (.makeMut 5) = 1 := by decide +kernel
example : VarHolds costState 5 (.stream [.group .brace [.ident ['a'] false Span.callSite] Span.callSite]) :=
  ⟨_, rfl, .stream rfl (.group rfl (.ident .nil) .nil)⟩
example : (T.run State.init costProgram).cost = 12 ∧ handledRun State.init costProgram = 0 := by decide +kernel

end PM2.Props
