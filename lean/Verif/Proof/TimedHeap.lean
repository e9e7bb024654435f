import Verif.Proof.Timed
import Verif.Proof.HeapRun
import Verif.Model.TimedHeap
import Verif.Proof.Size
import Verif.Spec.StreamCost
/-! # Token streams on the heap with a count of the steps: results and costs -/

namespace PM2.Heap.T
open Timed PM2.Spec

/-! ### Results -/

@[simp] theorem read_val (h : Heap) (a : Addr) : (T.read h a).val = h.read a := rfl

@[simp] theorem rcClone_val (h : Heap) (a : Addr) : (T.rcClone h a).val = Heap.rcClone h a := by
  simp [T.rcClone, Heap.rcClone]

@[simp] theorem cloneTree_val (h : Heap) (t : HTree) : (T.cloneTree h t).val = Heap.cloneTree h t := by
  cases t <;> simp [T.cloneTree, Heap.cloneTree]

@[simp] theorem cloneVec_val (h : Heap) (l : List HTree) : (T.cloneVec h l).val = Heap.cloneVec h l := by
  induction l generalizing h with
  | nil => rfl
  | cons t l ih => simp [T.cloneVec, Heap.cloneVec, ih]

/-- Two ways to drop that agree. -/
def Agree (f : Heap → HTree → TRes Heap) (g : Heap → HTree → Res Unit Heap) : Prop := ∀ h t, (f h t).val = g h t

theorem dropVec_val {f : Heap → HTree → TRes Heap} {g : Heap → HTree → Res Unit Heap} (hf : Agree f g) (h : Heap)
    (l : List HTree) : (T.dropVec f h l).val = Heap.dropVec g h l := by
  induction l generalizing h with
  | nil => rfl
  | cons t l ih => simp [T.dropVec, Heap.dropVec, ih, hf h t]

theorem rcDrop_val {f : Heap → HTree → TRes Heap} {g : Heap → HTree → Res Unit Heap} (hf : Agree f g) (h : Heap)
    (a : Addr) : (T.rcDrop f h a).val = Heap.rcDrop g h a := by
  simp [T.rcDrop, Heap.rcDrop, dropVec_val hf]

theorem dropLoop_val {f : Heap → HTree → TRes Heap} {g : Heap → HTree → Res Unit Heap} (hf : Agree f g) (fuel : Nat)
    (h : Heap) (current : List HTree) (stack : List (List HTree)) :
    (T.dropLoop f fuel h current stack).val = Heap.dropLoop g fuel h current stack := by
  induction fuel generalizing h current stack with
  | zero => rfl
  | succ fuel ih =>
    cases current with
    | nil => cases stack <;> simp [T.dropLoop, Heap.dropLoop, ih]
    | cons t current => cases t <;> simp [T.dropLoop, Heap.dropLoop, ih, hf _ _]

theorem dropTreeWith_val {f : Heap → Addr → TRes Heap} {g : Heap → Addr → Res Unit Heap}
    (hf : ∀ h a, (f h a).val = g h a) : Agree (T.dropTreeWith f) (Heap.dropTreeWith g) := by
  intro h t
  cases t <;> simp [T.dropTreeWith, Heap.dropTreeWith, hf]

@[simp] theorem dropStream_val (d : Nat) (h : Heap) (a : Addr) :
    (T.dropStream d h a).val = Heap.dropStream d h a := by
  induction d generalizing h a with
  | zero => rfl
  | succ d ih =>
    have hf := dropTreeWith_val (f := T.dropStream d) (g := Heap.dropStream d) ih
    simp [T.dropStream, Heap.dropStream, dropLoop_val hf, rcDrop_val hf]

theorem dropTree_agree (d : Nat) : Agree (T.dropTree d) (Heap.dropTree d) :=
  dropTreeWith_val (dropStream_val d)

@[simp] theorem dropTree_val (d : Nat) (h : Heap) (t : HTree) : (T.dropTree d h t).val = Heap.dropTree d h t :=
  dropTree_agree d h t

@[simp] theorem makeMut_val (h : Heap) (a : Addr) : (T.makeMut h a).val = Heap.makeMut h a := by
  simp [T.makeMut, Heap.makeMut]

@[simp] theorem takeInner_val (d : Nat) (h : Heap) (a : Addr) : (T.takeInner d h a).val = Heap.takeInner d h a := by
  simp [T.takeInner, Heap.takeInner, rcDrop_val (dropTree_agree d)]

@[simp] theorem pushMut_val (h : Heap) (a : Addr) (ts : List HTree) :
    (T.pushMut h a ts).val = Heap.pushMut h a ts := by
  simp [T.pushMut, Heap.pushMut]

theorem step_val (s : State) (op : Op) : (T.step s op).val = Heap.step s op := by
  cases op with
  | builder | build | next | endMut | groupNew | leaf | setSpan => rfl
  | cloneStream i | cloneTree i | cloneOwned i | dropStream i | dropTree i | intoOwned i | makeMut i | groupStream i =>
    simp only [T.step, Heap.step, val_tick]
    split <;> simp [*]
  | dropOwned i =>
    simp only [T.step, Heap.step, val_tick]
    split <;> simp [*, dropVec_val (dropTree_agree dropDepth)]
  | pushOwned i j | pushOwnedPM i j | extendOwned i j | pushMut i j | extendMut i j | pushMutPM i j =>
    simp only [T.step, Heap.step, val_tick]
    split <;> simp [*]

theorem run_val (s : State) (ops : List Op) : (T.run s ops).val = Heap.run s ops := by
  induction ops generalizing s with
  | nil => rfl
  | cons op ops ih => simp [T.run, Heap.run, step_val, ih]

/-! ### Costs -/

theorem bind_ok {ε α β : Type} {x : Timed ε α} {f : α → Timed ε β} {b : β} (h : (x >>= f).val = .ok b) :
    ∃ a, x.val = .ok a ∧ (f a).val = .ok b ∧ (x >>= f).cost = x.cost + (f a).cost := by
  change (Timed.bind x f).val = _ at h
  change ∃ a, x.val = .ok a ∧ (f a).val = .ok b ∧ (Timed.bind x f).cost = _
  unfold Timed.bind at h ⊢
  cases e : x.val with
  | ok a => rw [e] at h; exact ⟨a, rfl, h, rfl⟩
  | err | panic | diverge => rw [e] at h; cases h

@[simp] theorem cost_tick {ε α : Type} (n : Nat) (x : Timed ε α) : (tick n x).cost = n + x.cost := rfl
@[simp] theorem cost_ok {ε α : Type} (a : α) : (Timed.ok a : Timed ε α).cost = 0 := rfl
@[simp] theorem cost_read (h : Heap) (a : Addr) : (T.read h a).cost = 0 := rfl

theorem read_ok {h : Heap} {a : Addr} {c : Cell} (e : h.read a = .ok c) : h.get a = some c := by
  unfold Heap.read at e
  split at e
  · cases e; assumption
  · cases e

/-- What dropping a token may cost: it pays for what it frees. -/
def Paid (x : TRes Heap) (h : Heap) (k : Nat) : Prop :=
  ∀ h', x.val = .ok h' → x.cost + 5 * h'.tokens ≤ 5 * h.tokens + k

theorem dropVec_cost {f : Heap → HTree → TRes Heap} (hf : ∀ h t, Paid (f h t) h 3) (h : Heap) (l : List HTree) :
    Paid (T.dropVec f h l) h (4 * l.length) := by
  induction l generalizing h with
  | nil => intro h' e; cases e; simp [T.dropVec]
  | cons t l ih =>
    intro h' e
    unfold T.dropVec at e ⊢
    rw [val_tick] at e
    obtain ⟨h1, e1, e2, c⟩ := bind_ok e
    have k1 := hf h t h1 e1
    have k2 := ih h1 h' e2
    rw [cost_tick, c]
    simp
    omega

theorem rcDrop_cost {f : Heap → HTree → TRes Heap} (hf : ∀ h t, Paid (f h t) h 3) (h : Heap) (a : Addr) :
    Paid (T.rcDrop f h a) h 1 := by
  intro h' e
  unfold T.rcDrop at e ⊢
  rw [val_tick] at e
  obtain ⟨c, e1, e2, k⟩ := bind_ok e
  have hg := read_ok e1
  rw [cost_tick, k]
  by_cases hc : c.rc = 1
  · simp only [if_pos hc] at e2 ⊢
    obtain ⟨h1, e3, e4, k2⟩ := bind_ok e2
    have k3 := dropVec_cost hf _ _ h1 e3
    have t1 := tokens_set hg (some ⟨0, []⟩)
    cases e4
    have t2 : Heap.tokens (h1.set a none) ≤ h1.tokens := by
      cases g : h1.get a with
      | some c1 => have := tokens_set g none; simp at this; omega
      | none =>
        unfold Heap.get at g
        cases g2 : h1[a]? with
        | none =>
          have : h1.set a none = h1 := List.set_eq_of_length_le (List.getElem?_eq_none_iff.mp g2)
          rw [this]; exact Nat.le_refl _
        | some o =>
          rw [g2] at g
          simp at g
          subst g
          rw [set_self_eq g2]; exact Nat.le_refl _
    rw [k2]
    simp at t1 ⊢
    omega
  · simp only [if_neg hc] at e2 ⊢
    cases e2
    have t1 := tokens_set hg (some ⟨c.rc - 1, c.vec⟩)
    simp at t1 ⊢
    omega

theorem dropLoop_cost {f : Heap → HTree → TRes Heap} (hf : ∀ h t, Paid (f h t) h 3) :
    ∀ (fuel : Nat) (h : Heap) (current : List HTree) (stack : List (List HTree)),
    Paid (T.dropLoop f fuel h current stack) h (5 * (current.length + stackLen stack) + stack.length + 1)
  | 0, _, _, _ => by intro h' e; cases e
  | fuel + 1, h, [], [] => by intro h' e; cases e; simp [T.dropLoop]; omega
  | fuel + 1, h, [], next :: stack => by
    intro h' e
    have := dropLoop_cost hf fuel h next stack h' e
    show 1 + _ + _ ≤ _
    simp [stackLen] at this ⊢
    omega
  | fuel + 1, h, .group d a s :: current, stack => by
    intro h' e
    unfold T.dropLoop at e ⊢
    rw [val_tick] at e
    simp only at e ⊢
    obtain ⟨c, e1, e2, k⟩ := bind_ok e
    have hg := read_ok e1
    rw [cost_tick, k]
    by_cases hc : c.rc = 1
    · simp only [if_pos hc] at e2 ⊢
      obtain ⟨h1, e3, e4, k2⟩ := bind_ok e2
      have k3 := hf _ _ h1 e3
      have k4 := dropLoop_cost hf fuel h1 c.vec (current :: stack) h' e4
      have t1 := tokens_set hg (some ⟨c.rc, []⟩)
      rw [k2]
      simp [stackLen] at t1 k4 ⊢
      omega
    · simp only [if_neg hc] at e2 ⊢
      obtain ⟨h1, e3, e4, k2⟩ := bind_ok e2
      have k3 := hf _ _ h1 e3
      have k4 := dropLoop_cost hf fuel h1 current stack h' e4
      rw [k2]
      simp [stackLen] at k4 ⊢
      omega
  | fuel + 1, h, .ident .. :: current, stack | fuel + 1, h, .punct .. :: current, stack
  | fuel + 1, h, .literal .. :: current, stack => by
    intro h' e
    have := dropLoop_cost hf fuel h current stack h' e
    show 1 + _ + _ ≤ _
    simp at this ⊢
    omega

theorem dropTreeWith_cost {f : Heap → Addr → TRes Heap} (hf : ∀ h a, Paid (f h a) h 3) (h : Heap) (t : HTree) :
    Paid (T.dropTreeWith f h t) h 3 := by
  cases t with
  | group d a s => exact hf h a
  | ident | punct | literal =>
    intro h' e
    cases e
    show 1 + 0 + _ ≤ _
    omega

/-- Dropping a stream costs at most three steps, and five for every token that is freed. -/
theorem dropStream_cost (d : Nat) (h : Heap) (a : Addr) : Paid (T.dropStream d h a) h 3 := by
  induction d generalizing h a with
  | zero => intro h' e; cases e
  | succ d ih =>
    intro h' e
    have hf := dropTreeWith_cost (f := T.dropStream d) ih
    unfold T.dropStream at e ⊢
    rw [val_tick] at e
    obtain ⟨c, e1, e2, k⟩ := bind_ok e
    have hg := read_ok e1
    simp only at e2 k ⊢
    by_cases hc : c.rc = 1
    · simp only [if_pos hc] at e2 k ⊢
      obtain ⟨h1, e3, e4, k2⟩ := bind_ok e2
      have k4 := rcDrop_cost hf h1 a h' e4
      rw [cost_tick, k, k2]
      have k3 := dropLoop_cost hf _ _ _ _ h1 e3
      have t1 := tokens_set hg (some ⟨c.rc, []⟩)
      simp [stackLen, hc] at t1 k3 k4 ⊢
      omega
    · simp only [if_neg hc] at e2 k ⊢
      obtain ⟨h1, e3, e4, k2⟩ := bind_ok e2
      have k4 := rcDrop_cost hf h1 a h' e4
      rw [cost_tick, k, k2]
      cases e3
      simp
      omega

theorem dropTree_cost (d : Nat) (h : Heap) (t : HTree) : Paid (T.dropTree d h t) h 3 :=
  dropTreeWith_cost (dropStream_cost d) h t

theorem tokens_eq (h : Heap) : heapTokens h = h.tokens := rfl

theorem tokens_alloc (h : Heap) (v : List HTree) : (h.alloc v).1.tokens = h.tokens + v.length := by
  simp [Heap.alloc, Heap.tokens]

theorem rcClone_cost {h h' : Heap} {a : Addr} (e : (T.rcClone h a).val = .ok h') :
    (T.rcClone h a).cost = 1 ∧ h'.tokens = h.tokens ∧
    ∀ b c, h.get b = some c → ∃ k, c.rc ≤ k ∧ h'.get b = some ⟨k, c.vec⟩ := by
  unfold T.rcClone at e ⊢
  rw [val_tick] at e
  obtain ⟨c, e1, e2, k⟩ := bind_ok e
  have hg := read_ok e1
  rw [cost_tick, k]
  cases e2
  have t1 := tokens_set hg (some ⟨c.rc + 1, c.vec⟩)
  refine ⟨rfl, by simp at t1; omega, fun b c' hb => ?_⟩
  by_cases hba : b = a
  · subst hba
    rw [hg] at hb
    cases hb
    exact ⟨_, Nat.le_succ _, get_set_self hg _⟩
  · rw [get_set_ne hba]
    exact ⟨_, Nat.le_refl _, hb⟩

theorem cloneTree_cost {h h' : Heap} {t : HTree} (e : (T.cloneTree h t).val = .ok h') :
    (T.cloneTree h t).cost = 1 ∧ h'.tokens = h.tokens ∧
    ∀ b c, h.get b = some c → ∃ k, c.rc ≤ k ∧ h'.get b = some ⟨k, c.vec⟩ := by
  cases t with
  | group d a s => exact rcClone_cost e
  | ident | punct | literal =>
    cases e
    exact ⟨rfl, rfl, fun b c hb => ⟨_, Nat.le_refl _, hb⟩⟩

theorem cloneVec_cost : ∀ {l : List HTree} {h h' : Heap}, (T.cloneVec h l).val = .ok h' →
    (T.cloneVec h l).cost = 2 * l.length ∧ h'.tokens = h.tokens ∧
    ∀ b c, h.get b = some c → ∃ k, c.rc ≤ k ∧ h'.get b = some ⟨k, c.vec⟩
  | [], h, h', e => by cases e; exact ⟨rfl, rfl, fun b c hb => ⟨_, Nat.le_refl _, hb⟩⟩
  | t :: l, h, h', e => by
    unfold T.cloneVec at e ⊢
    rw [val_tick] at e
    obtain ⟨h1, e1, e2, k⟩ := bind_ok e
    obtain ⟨k1, t1, g1⟩ := cloneTree_cost e1
    obtain ⟨k2, t2, g2⟩ := cloneVec_cost e2
    rw [cost_tick, k, k1, k2]
    refine ⟨by simp; omega, by omega, fun b c hb => ?_⟩
    obtain ⟨r1, hr1, hb1⟩ := g1 b c hb
    obtain ⟨r2, hr2, hb2⟩ := g2 b _ hb1
    exact ⟨r2, Nat.le_trans hr1 hr2, hb2⟩

theorem makeMut_cost {h h' : Heap} {a b : Addr} {c : Cell} (hg : h.get a = some c)
    (e : (T.makeMut h a).val = .ok (h', b)) :
    (T.makeMut h a).cost = 1 + 2 * (if c.rc = 1 then 0 else c.vec.length) ∧
    h'.tokens = h.tokens + (if c.rc = 1 then 0 else c.vec.length) := by
  unfold T.makeMut at e ⊢
  rw [val_tick] at e
  obtain ⟨c', e1, e2, k⟩ := bind_ok e
  have hg' := read_ok e1
  rw [hg] at hg'
  cases hg'
  rw [cost_tick, k]
  by_cases hc : c.rc = 1
  · simp only [if_pos hc] at e2 ⊢
    cases e2
    exact ⟨rfl, rfl⟩
  · simp only [if_neg hc] at e2 ⊢
    obtain ⟨h1, e3, e4, k2⟩ := bind_ok e2
    obtain ⟨k3, t3, g3⟩ := cloneVec_cost e3
    simp only [Heap.alloc] at e4
    obtain ⟨c2, e5, e6, k4⟩ := bind_ok e4
    have hg2 := read_ok e5
    have t4 := tokens_set hg2 (some ⟨c2.rc - 1, c2.vec⟩)
    have t5 := tokens_alloc h1 c.vec
    simp only [Heap.alloc] at t5
    cases e6
    rw [k2]
    simp only [Heap.alloc]
    rw [k4, k3]
    simp at t4 t5 ⊢
    omega

theorem takeInner_cost {d : Nat} {h h' : Heap} {a : Addr} {v : List HTree} {c : Cell} (hg : h.get a = some c)
    (hpos : 0 < c.rc) (e : (T.takeInner d h a).val = .ok (h', v)) :
    (T.takeInner d h a).cost ≤ 2 + 2 * (if c.rc = 1 then 0 else c.vec.length) ∧
    h'.tokens + v.length = h.tokens + (if c.rc = 1 then 0 else c.vec.length) := by
  unfold T.takeInner at e ⊢
  rw [val_tick] at e
  obtain ⟨c', e1, e2, k⟩ := bind_ok e
  have hg' := read_ok e1
  rw [hg] at hg'
  cases hg'
  rw [cost_tick, k]
  by_cases hc : c.rc = 1
  · simp only [if_pos hc] at e2 ⊢
    obtain ⟨h1, e3, e4, k2⟩ := bind_ok e2
    have t1 := tokens_set hg (some ⟨c.rc, []⟩)
    have e3' := e3
    rw [rcDrop_val (dropTree_agree d)] at e3
    rw [hc, rcDrop_empty (get_set_self hg _)] at e3
    have t2 := tokens_set (get_set_self hg (some ⟨1, []⟩)) none
    have k3 := rcDrop_cost (dropTree_cost d) _ _ _ e3'
    cases e3
    cases e4
    rw [k2]
    simp [hc] at t1 t2 k3 ⊢
    omega
  · simp only [if_neg hc] at e2 ⊢
    obtain ⟨h1, e3, e4, k2⟩ := bind_ok e2
    obtain ⟨k3, t3, g3⟩ := cloneVec_cost e3
    obtain ⟨h2, e5, e6, k4⟩ := bind_ok e4
    obtain ⟨r, hr, hb⟩ := g3 a c hg
    have e5' := e5
    rw [rcDrop_val (dropTree_agree d), rcDrop_shared hb (by simp; omega)] at e5
    have t4 := tokens_set hb (some ⟨r - 1, c.vec⟩)
    have k5 := rcDrop_cost (dropTree_cost d) _ _ _ e5'
    cases e5
    cases e6
    rw [k2, k4, k3]
    simp at t4 k5 ⊢
    omega

theorem pushMut_cost {h h' : Heap} {a : Addr} {ts : List HTree} (e : (T.pushMut h a ts).val = .ok h') :
    (T.pushMut h a ts).cost = ts.length ∧ h'.tokens = h.tokens + ts.length := by
  unfold T.pushMut at e ⊢
  rw [val_tick] at e
  obtain ⟨c, e1, e2, k⟩ := bind_ok e
  have t1 := tokens_set (read_ok e1) (some ⟨c.rc, c.vec ++ ts⟩)
  cases e2
  rw [cost_tick, k]
  simp at t1 ⊢
  omega

theorem splitToken_length (t : HTree) : (splitToken t).length ≤ 2 ∧ 1 ≤ (splitToken t).length := by
  unfold splitToken
  split <;> simp

/-- The tokens in variables. -/
def varTokens (vars : List Root) : Nat := (vars.map rootTokens).sum

theorem varTokens_set : ∀ {vars : List Root} {i : Nat} {r : Root} (r' : Root), vars[i]? = some r →
    varTokens (vars.set i r') + rootTokens r = varTokens vars + rootTokens r'
  | [], i, r, r', h => by simp at h
  | z :: l, 0, r, r', h => by simp at h; subst h; simp [varTokens]; omega
  | z :: l, i + 1, r, r', h => by
    simp at h
    have := varTokens_set r' h
    simp [varTokens] at this ⊢
    omega

theorem varTokens_append (a b : List Root) : varTokens (a ++ b) = varTokens a + varTokens b := by
  simp [varTokens]

theorem varTokens_single (r : Root) : varTokens [r] = rootTokens r := by simp [varTokens]

theorem stored_eq (s : State) : storedTokens s = s.heap.tokens + varTokens s.vars := rfl

/-! ### What is freed is part of what was shown -/

/-- The loop frees no more tokens than are shown. -/
theorem dropLoop_freed {d : Nat} {dropT : Heap → HTree → Res Unit Heap}
    (hT : ∀ h dl b s, dropT h (.group dl b s) = Heap.dropStream (d + 1) h b) :
    ∀ (fuel : Nat) {h h' : Heap} {n : Nat → Nat} {current : List HTree} {stack : List (List HTree)} {ts : List TokenTree},
    Inv h (fun x => n x + ((refs current).count x + (refs stack.flatten).count x)) →
    Shows h (current ++ stack.flatten) ts →
    Heap.dropLoop dropT fuel h current stack = .ok h' →
    h.tokens + current.length + stackLen stack ≤ h'.tokens + treesCount ts
  | 0, _, _, _, _, _, _, _, _, e => by cases e
  | fuel + 1, h, h', n, [], [], ts, hi, hs, e => by
    cases e
    simp [stackLen]
  | fuel + 1, h, h', n, [], next :: stack, ts, hi, hs, e => by
    have := dropLoop_freed hT fuel (h := h) (n := n) (current := next) (stack := stack) (ts := ts)
      (by simpa [List.count_append] using hi) (by simpa using hs) e
    simp [stackLen] at this ⊢
    omega
  | fuel + 1, h, h', n, .group dl a s :: current, stack, ts, hi, hs, e => by
    rw [List.cons_append] at hs
    cases hs with
    | @group _ _ _ c inner _ ts' hg hs1 hs2 =>
    have hrc := hi.rc _ _ hg
    simp only [refs_cons, HTree.ref, List.singleton_append, List.count_cons_self] at hrc
    unfold Heap.dropLoop at e
    simp only [read_some hg, Bind.bind, Res.bind] at e
    by_cases hc : c.rc = 1
    · have h0 : (heapRefs h).count a = 0 := by omega
      have hca : (refs c.vec).count a = 0 := by have := refs_heap hg a; omega
      obtain ⟨i1, r1⟩ := hi.setVec (n' := fun x => n x + (((refs (.group dl a s :: current)).count x +
          (refs stack.flatten).count x)) + (refs c.vec).count x) hg hc
        (by simp [HTree.ref]; omega) (by simp [HTree.ref]; omega) (v := []) .nil (by intro x; simp)
      obtain ⟨i2, r2⟩ := i1.free (n' := fun x => n x + ((refs c.vec).count x +
          (refs (current :: stack).flatten).count x)) (get_set_self hg _) rfl
        (by simp [HTree.ref]; omega) (by simp [List.count_append]; omega) rfl
        (fun x hx => by simp [HTree.ref, List.count_append, List.count_cons, Ne.symm hx]; omega)
      have tk := tokens_set hg (some ⟨1, []⟩)
      have tk2 := tokens_set (get_set_self hg (some ⟨1, []⟩)) none
      simp only [List.set_set, List.length_nil] at i2 tk tk2
      simp only [if_pos hc, hT] at e
      rw [hc, dropStream_empty (get_set_self hg _)] at e
      simp only [List.set_set] at e
      have hs3 := shows_setVec hg none h0 (hs1.append hs2) (by
        intro hm
        have := List.count_pos_iff.mpr hm
        simp [List.count_append] at this
        omega)
      have := dropLoop_freed hT fuel (n := n) (current := c.vec) (stack := current :: stack) i2
        (by simpa using hs3) e
      rw [treesCount_append] at this
      simp [stackLen, treesCount, treeCount] at this ⊢
      omega
    · have hpos := hi.pos _ _ hg
      obtain ⟨i1, r1⟩ := hi.setRc (n' := fun x => n x + ((refs current).count x +
        (refs stack.flatten).count x)) hg (k := c.rc - 1) (by omega) (by simp [HTree.ref]; omega)
        (fun x hx => by simp [HTree.ref, List.count_cons, Ne.symm hx])
      have tk := tokens_set hg (some ⟨c.rc - 1, c.vec⟩)
      simp only [if_neg hc, hT] at e
      rw [dropStream_shared hg hc] at e
      have := dropLoop_freed hT fuel (n := n) i1 (shows_setRc hg _ hs2) e
      simp [treesCount, treeCount] at this tk ⊢
      omega
  | fuel + 1, h, h', n, .ident .. :: current, stack, ts, hi, hs, e
  | fuel + 1, h, h', n, .punct .. :: current, stack, ts, hi, hs, e
  | fuel + 1, h, h', n, .literal .. :: current, stack, ts, hi, hs, e => by
    rw [List.cons_append] at hs
    cases hs
    rename_i hs
    have := dropLoop_freed hT fuel (n := n) (current := current) (stack := stack)
      (by simpa [HTree.ref] using hi) hs e
    simp [treesCount, treeCount] at this ⊢
    omega

theorem dropStream_freed {d : Nat} {h h' : Heap} {n : Nat → Nat} {a : Nat} {c : Cell} {ts : List TokenTree}
    (hi : Inv h n) (ha : 0 < n a) (hg : h.get a = some c) (hs : Shows h c.vec ts)
    (e : Heap.dropStream (d + 2) h a = .ok h') : h.tokens ≤ h'.tokens + treesCount ts := by
  have hrc := hi.rc _ _ hg
  by_cases hc : c.rc = 1
  · have h0 : (heapRefs h).count a = 0 := by omega
    have hca : (refs c.vec).count a = 0 := by have := refs_heap hg a; omega
    obtain ⟨i1, r1⟩ := hi.setVec (n' := fun x => n x + (refs c.vec).count x) hg hc (by omega) (by omega)
      (v := []) .nil (by intro x; simp)
    have tk := tokens_set hg (some ⟨1, []⟩)
    obtain ⟨h1, e1, g1, g2, g3⟩ := dropLoop_spec (d := d)
      (dropT := Heap.dropTreeWith (Heap.dropStream (d + 1)))
      (fun _ _ _ _ => rfl) (2 * h.tokens + 1) (n := n) (current := c.vec) (stack := []) (by simpa using i1)
      (by simp [stackLen] at tk ⊢; omega)
    have hf := dropLoop_freed (d := d) (fun _ _ _ _ => rfl) _ (n := n) (current := c.vec) (stack := []) (by simpa using i1)
      (by simpa using shows_setVec hg (some ⟨1, []⟩) h0 hs (fun hm => by have := List.count_pos_iff.mpr hm; omega)) e1
    obtain ⟨c1, hg1⟩ := g1.live ha
    have hv1 : c1.vec = [] := by
      have := g2 [.group .none a Span.callSite] [.group .none [] Span.callSite] (by
        intro x
        by_cases e : x = a
        · subst e; simp [HTree.ref]; omega
        · simp [HTree.ref, Ne.symm e]) (.group (get_set_self hg _) .nil .nil)
      cases this with
      | group hgx hs _ =>
        rw [hg1] at hgx
        cases hgx
        generalize c1.vec = v at hs
        cases hs
        rfl
    have hrc1 := g1.rc _ _ hg1
    have := g3 a
    have hr1 := r1 a
    simp at hr1
    have ec1 : c1 = ⟨1, []⟩ := by
      have : c1.rc = 1 := by omega
      cases c1; simp_all
    subst ec1
    unfold Heap.dropStream at e
    rw [read_some hg] at e
    simp only [Bind.bind, Res.bind, if_pos hc] at e
    rw [hc, e1] at e
    simp only at e
    rw [rcDrop_empty hg1] at e
    cases e
    have t2 := tokens_set hg1 none
    simp [stackLen] at tk hf t2
    omega
  · rw [dropStream_shared hg hc] at e
    cases e
    have t2 := tokens_set hg (some ⟨c.rc - 1, c.vec⟩)
    simp at t2
    omega

theorem dropTree_freed {d : Nat} {h h' : Heap} {n : Nat → Nat} {t : HTree} {t' : TokenTree}
    (hi : Inv h n) (hn : ∀ x, t.ref.count x ≤ n x) (hs : Shows h [t] [t'])
    (e : Heap.dropTree (d + 2) h t = .ok h') : h.tokens + 1 ≤ h'.tokens + treeCount t' := by
  cases hs with
  | group hg hs1 hs2 =>
    rename_i dl a sp c inner
    have := dropStream_freed hi (by have := hn a; simp [HTree.ref] at this; omega) hg hs1 e
    simp [treeCount]
    omega
  | ident | punct | literal => cases e; simp [treeCount]

theorem shows_uncons {h : Heap} {t : HTree} {l : List HTree} {ts : List TokenTree} (hs : Shows h (t :: l) ts) :
    ∃ t' ts', ts = t' :: ts' ∧ Shows h [t] [t'] ∧ Shows h l ts' := by
  cases hs with
  | group hg h1 h2 => exact ⟨_, _, rfl, .group hg h1 .nil, h2⟩
  | ident h1 => exact ⟨_, _, rfl, .ident .nil, h1⟩
  | punct h1 => exact ⟨_, _, rfl, .punct .nil, h1⟩
  | literal h1 => exact ⟨_, _, rfl, .literal .nil, h1⟩

theorem dropVec_freed {d : Nat} : ∀ {l : List HTree} {h h' : Heap} {n n' : Nat → Nat} {ts : List TokenTree},
    Inv h n → (∀ x, n x = n' x + (refs l).count x) → Shows h l ts →
    Heap.dropVec (Heap.dropTree (d + 2)) h l = .ok h' → h.tokens + l.length ≤ h'.tokens + treesCount ts
  | [], h, h', n, n', ts, hi, hn, hs, e => by cases e; simp
  | t :: l, h, h', n, n', ts, hi, hn, hs, e => by
    obtain ⟨t', ts', rfl, hs1, hs2⟩ := shows_uncons hs
    obtain ⟨h1, e1, i1, f1, r1⟩ := dropTree_spec (d := d) (t := t) (n' := fun x => n' x + (refs l).count x) hi
      (fun x => by rw [hn x]; simp [List.count_append]; omega)
    have k1 := dropTree_freed hi (fun x => by rw [hn x]; simp [List.count_append]; omega) hs1 e1
    unfold Heap.dropVec at e
    simp only [Bind.bind, Res.bind, e1] at e
    have hs3 := f1 l ts' (fun x => by simp) hs2
    have k2 := dropVec_freed i1 (fun x => rfl) hs3 e
    simp [treesCount]
    omega

end PM2.Heap.T
