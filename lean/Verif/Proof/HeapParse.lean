import Verif.Model.HeapParse
import Verif.Proof.HeapRun
/-! # The parser on the heap: what it touches, and what its variables hold -/

namespace PM2
open Heap Spec

/-! ### Cells from an address on -/

/-- Cells from the address `n` on only refer to such cells. -/
def ClosedFrom (n : Nat) (h : Heap) : Prop :=
  ∀ a c, n ≤ a → h.get a = some c → ∀ b ∈ refs c.vec, n ≤ b

/-- Nothing below `n` has changed. -/
structure Above (n : Nat) (h h' : Heap) : Prop where
  low : ∀ a, a < n → h'.get a = h.get a
  closed : ClosedFrom n h'
  len : h'.length = h.length

theorem Above.refl {n : Nat} {h : Heap} (hc : ClosedFrom n h) : Above n h h := ⟨fun _ _ => rfl, hc, rfl⟩

theorem Above.trans {n : Nat} {h h1 h2 : Heap} (a : Above n h h1) (b : Above n h1 h2) : Above n h h2 :=
  ⟨fun x hx => (b.low x hx).trans (a.low x hx), b.closed, b.len.trans a.len⟩

theorem Above.set {n : Nat} {h : Heap} (hc : ClosedFrom n h) {a : Nat} (ha : n ≤ a) {o : Option Cell}
    (ho : ∀ c, o = some c → ∀ b ∈ refs c.vec, n ≤ b) : Above n h (h.set a o) := by
  refine ⟨fun x hx => get_set_ne (by omega) o, fun x c hx hg => ?_, by simp⟩
  by_cases e : x = a
  · subst e
    have hl : x < h.length := by
      have := get_length hg
      simpa using this
    have : (Heap.get (h.set x o) x) = o := by
      unfold Heap.get
      rw [List.getElem?_set_self hl]
      rfl
    rw [this] at hg
    exact ho c hg
  · rw [get_set_ne e] at hg
    exact hc x c hx hg

/-- Dropping a tree with references from `n` on leaves the cells below. -/
def Keeps (n : Nat) (dropT : Heap → HTree → Res Unit Heap) : Prop :=
  ∀ h t h', ClosedFrom n h → (∀ a ∈ t.ref, n ≤ a) → dropT h t = .ok h' → Above n h h'

theorem read_ok {h : Heap} {a : Nat} {c : Cell} (e : h.read a = .ok c) : h.get a = some c := by
  unfold Heap.read at e
  cases e' : h.get a with
  | none => rw [e'] at e; cases e
  | some c' => rw [e'] at e; cases e; rfl

theorem res_bind_ok {ε α β : Type} {x : Res ε α} {f : α → Res ε β} {b : β} (h : x.bind f = .ok b) :
    ∃ a, x = .ok a ∧ f a = .ok b := by
  cases x with
  | ok a => exact ⟨a, rfl, h⟩
  | err e => cases h
  | panic => cases h
  | diverge => cases h

theorem dropVec_above {n : Nat} {dropT : Heap → HTree → Res Unit Heap} (hk : Keeps n dropT) :
    ∀ (l : List HTree) {h h' : Heap}, ClosedFrom n h → (∀ a ∈ refs l, n ≤ a) → dropVec dropT h l = .ok h' →
      Above n h h'
  | [], h, h', hc, _, e => by cases e; exact .refl hc
  | t :: l, h, h', hc, hl, e => by
    simp only [refs_cons, List.mem_append] at hl
    obtain ⟨h1, e1, e2⟩ := res_bind_ok e
    have a1 := hk h t h1 hc (fun a ha => hl a (.inl ha)) e1
    exact a1.trans (dropVec_above hk l a1.closed (fun a ha => hl a (.inr ha)) e2)

theorem rcDrop_above {n : Nat} {dropT : Heap → HTree → Res Unit Heap} (hk : Keeps n dropT) {h h' : Heap} {a : Nat}
    (hc : ClosedFrom n h) (ha : n ≤ a) (e : rcDrop dropT h a = .ok h') : Above n h h' := by
  obtain ⟨c, e1, e2⟩ := res_bind_ok e
  have hg := read_ok e1
  split at e2
  · obtain ⟨h1, e3, e4⟩ := res_bind_ok e2
    have a1 : Above n h (h.set a (some ⟨0, []⟩)) := .set hc ha (by rintro _ ⟨⟩; simp)
    have a2 := dropVec_above hk _ a1.closed (hc a c ha hg) e3
    cases e4
    exact (a1.trans a2).trans (.set a2.closed ha (by simp))
  · cases e2
    exact .set hc ha (by rintro _ ⟨⟩; exact hc a c ha hg)

theorem dropLoop_above {n : Nat} {dropT : Heap → HTree → Res Unit Heap} (hk : Keeps n dropT) :
    ∀ (fuel : Nat) {h h' : Heap} (current : List HTree) (stack : List (List HTree)), ClosedFrom n h →
      (∀ a ∈ refs current, n ≤ a) → (∀ l ∈ stack, ∀ a ∈ refs l, n ≤ a) →
      dropLoop dropT fuel h current stack = .ok h' → Above n h h'
  | 0, _, _, _, _, _, _, _, e => by cases e
  | fuel + 1, h, h', [], [], hc, _, _, e => by cases e; exact .refl hc
  | fuel + 1, h, h', [], l :: stack, hc, _, hs, e => by
    simp only [dropLoop] at e
    exact dropLoop_above hk fuel l stack hc (hs l (by simp)) (fun l' h' => hs l' (by simp [h'])) e
  | fuel + 1, h, h', t :: current, stack, hc, hl, hs, e => by
    simp only [refs_cons, List.mem_append] at hl
    have hl1 : ∀ a ∈ refs current, n ≤ a := fun a ha => hl a (.inr ha)
    cases t with
    | ident | punct | literal =>
      simp only [dropLoop] at e
      exact dropLoop_above hk fuel current stack hc hl1 hs e
    | group d a s =>
      have ha : n ≤ a := hl a (.inl (by simp [HTree.ref]))
      simp only [dropLoop] at e
      obtain ⟨c, e1, e2⟩ := res_bind_ok e
      have hg := read_ok e1
      split at e2
      · obtain ⟨h1, e3, e4⟩ := res_bind_ok e2
        have a1 : Above n h (h.set a (some ⟨c.rc, []⟩)) := .set hc ha (by rintro _ ⟨⟩; simp)
        have a2 := hk _ _ _ a1.closed (by simpa [HTree.ref] using ha) e3
        exact (a1.trans a2).trans (dropLoop_above hk fuel _ _ a2.closed (hc a c ha hg) (by
          intro l hl'
          cases hl' with
          | head => exact hl1
          | tail _ h => exact hs l h) e4)
      · obtain ⟨h1, e3, e4⟩ := res_bind_ok e2
        have a2 := hk _ _ _ hc (by simpa [HTree.ref] using ha) e3
        exact a2.trans (dropLoop_above hk fuel _ _ a2.closed hl1 hs e4)

theorem dropTreeWith_keeps {n : Nat} {dropS : Heap → Nat → Res Unit Heap}
    (hS : ∀ h a h', ClosedFrom n h → n ≤ a → dropS h a = .ok h' → Above n h h') : Keeps n (dropTreeWith dropS) := by
  intro h t h' hc ht e
  cases t with
  | ident | punct | literal => cases e; exact .refl hc
  | group d a s => exact hS h a h' hc (ht a (by simp [HTree.ref])) e

theorem dropStream_above {n : Nat} : ∀ (d : Nat) (h : Heap) (a : Nat) (h' : Heap), ClosedFrom n h → n ≤ a →
    dropStream d h a = .ok h' → Above n h h'
  | 0, _, _, _, _, _, e => by cases e
  | d + 1, h, a, h', hc, ha, e => by
    have hk : Keeps n (dropTreeWith (dropStream d)) := dropTreeWith_keeps (dropStream_above d)
    simp only [dropStream] at e
    obtain ⟨c, e1, e2⟩ := res_bind_ok e
    have hg := read_ok e1
    split at e2
    · obtain ⟨h1, e3, e4⟩ := res_bind_ok e2
      have a1 : Above n h (h.set a (some ⟨c.rc, []⟩)) := .set hc ha (by rintro _ ⟨⟩; simp)
      have a2 := a1.trans (dropLoop_above hk _ _ _ a1.closed (hc a c ha hg) (by simp) e3)
      exact a2.trans (rcDrop_above hk a2.closed ha e4)
    · exact rcDrop_above hk hc ha e2

theorem dropTree_keeps (n d : Nat) : Keeps n (dropTree d) := dropTreeWith_keeps (dropStream_above d)

/-! ### What the variables from an index on refer to -/

/-- From `s0` to `s`, only new variables and new cells have changed, and they do not refer to the old cells. -/
structure Sep (s0 s : State) : Prop where
  low : ∀ a, a < s0.heap.length → s.heap.get a = s0.heap.get a
  hlen : s0.heap.length ≤ s.heap.length
  closed : ClosedFrom s0.heap.length s.heap
  vlen : s0.vars.length ≤ s.vars.length
  vars : ∀ i, i < s0.vars.length → s.vars[i]? = s0.vars[i]?
  fresh : ∀ i r, s0.vars.length ≤ i → s.vars[i]? = some r → ∀ a ∈ rootRefs r, s0.heap.length ≤ a

theorem Sep.refl (s : State) : Sep s s := by
  refine ⟨fun _ _ => rfl, Nat.le_refl _, fun a c ha hg => ?_, Nat.le_refl _, fun _ _ => rfl, fun i r hi hr => ?_⟩
  · have := get_length hg
    omega
  · have := (List.getElem?_eq_some_iff.mp hr).1
    omega

theorem Sep.setVar {s0 s : State} (hs : Sep s0 s) {i : Nat} (hi : s0.vars.length ≤ i) {r : Root}
    (hr : ∀ a ∈ rootRefs r, s0.heap.length ≤ a) : Sep s0 ⟨s.heap, s.vars.set i r⟩ := by
  refine ⟨hs.low, hs.hlen, hs.closed, by simpa using hs.vlen, fun k hk => ?_, fun k q hk hq => ?_⟩
  · show (s.vars.set i r)[k]? = _
    rw [List.getElem?_set_ne (by omega)]
    exact hs.vars k hk
  · change (s.vars.set i r)[k]? = some q at hq
    by_cases e : k = i
    · subst e
      have hl : k < s.vars.length := by simpa using (List.getElem?_eq_some_iff.mp hq).1
      rw [List.getElem?_set_self hl] at hq
      cases hq
      exact hr
    · rw [List.getElem?_set_ne (Ne.symm e)] at hq
      exact hs.fresh k q hk hq

theorem Sep.addVar {s0 s : State} (hs : Sep s0 s) {r : Root} (hr : ∀ a ∈ rootRefs r, s0.heap.length ≤ a) :
    Sep s0 ⟨s.heap, s.vars ++ [r]⟩ := by
  have hv := hs.vlen
  refine ⟨hs.low, hs.hlen, hs.closed, by simp; omega, fun k hk => ?_, fun k q hk hq => ?_⟩
  · show (s.vars ++ [r])[k]? = _
    rw [List.getElem?_append_left (by omega)]
    exact hs.vars k hk
  · change (s.vars ++ [r])[k]? = some q at hq
    by_cases e : k < s.vars.length
    · rw [List.getElem?_append_left e] at hq
      exact hs.fresh k q hk hq
    · rw [List.getElem?_append_right (by omega)] at hq
      have : k - s.vars.length = 0 := by
        have := (List.getElem?_eq_some_iff.mp hq).1
        simp at this
        omega
      rw [this] at hq
      cases hq
      exact hr

theorem Sep.heap {s0 s : State} (hs : Sep s0 s) {h' : Heap} (ha : Above s0.heap.length s.heap h') :
    Sep s0 ⟨h', s.vars⟩ :=
  ⟨fun a h => (ha.low a h).trans (hs.low a h), by rw [ha.len]; exact hs.hlen, ha.closed, hs.vlen, hs.vars, hs.fresh⟩

/-- The operations of the parser, on its variables. -/
def ParserOp (n : Nat) : Op → Prop
  | .builder => True
  | .leaf _ => True
  | .setSpan i _ | .build i | .groupNew _ i | .dropOwned i | .dropStream i => n ≤ i
  | .pushOwned i j => n ≤ i ∧ n ≤ j
  | _ => False

theorem Sep.step {s0 s s' : State} (hs : Sep s0 s) {op : Op} (ho : ParserOp s0.vars.length op)
    (e : Heap.step s op = .ok s') : Sep s0 s' := by
  cases op <;> simp only [ParserOp] at ho <;> try contradiction
  case builder => cases e; exact hs.addVar (by simp [rootRefs])
  case leaf t =>
    simp only [Heap.step] at e
    split at e
    · cases e
      refine hs.addVar ?_
      cases t <;> simp_all [rootRefs, HTree.ref, HTree.isLeaf]
    · cases e
  case setSpan i sp =>
    simp only [Heap.step] at e
    split at e
    · rename_i t ht
      cases e
      refine hs.setVar ho ?_
      have := hs.fresh i _ ho ht
      cases t <;> simpa [rootRefs, HTree.ref, HTree.setSpan] using this
    · cases e
  case build i =>
    simp only [Heap.step] at e
    split at e
    · rename_i l hl
      cases e
      have h1 := hs.setVar (r := .dead) ho (by simp)
      have hf := hs.fresh i _ ho hl
      have hlen := hs.hlen
      have h2 : Sep s0 ⟨(s.heap.alloc l).1, s.vars.set i .dead⟩ := by
        refine ⟨fun a ha => ?_, by simp [Heap.alloc]; omega, fun a c ha hg => ?_, h1.vlen, h1.vars, h1.fresh⟩
        · show (s.heap.alloc l).1.get a = _
          rw [get_alloc, if_neg (by omega)]
          exact hs.low a ha
        · change (s.heap.alloc l).1.get a = some c at hg
          rw [get_alloc] at hg
          split at hg
          · cases hg; exact hf
          · exact hs.closed a c ha hg
      exact h2.addVar (r := .stream s.heap.length) (by simpa [rootRefs] using hlen)
    · cases e
  case groupNew d i =>
    simp only [Heap.step] at e
    split at e
    · rename_i a ha
      cases e
      refine (hs.setVar (r := .dead) ho (by simp)).addVar ?_
      simpa [rootRefs, HTree.ref] using hs.fresh i _ ho ha
    · cases e
  case dropOwned i =>
    simp only [Heap.step] at e
    split at e
    · rename_i l hl
      obtain ⟨h', e1, e2⟩ := res_bind_ok e
      cases e2
      exact (hs.heap (dropVec_above (dropTree_keeps _ _) l hs.closed (hs.fresh i _ ho hl) e1)).setVar ho (by simp)
    · cases e
  case dropStream i =>
    simp only [Heap.step] at e
    split at e
    · rename_i a ha
      obtain ⟨h', e1, e2⟩ := res_bind_ok e
      cases e2
      exact (hs.heap (dropStream_above _ _ a _ hs.closed (by simpa [rootRefs] using hs.fresh i _ ho ha) e1)).setVar ho
        (by simp)
    · cases e
  case pushOwned i j =>
    simp only [Heap.step] at e
    split at e
    · rename_i l t hl ht
      cases e
      have h1 := hs.setVar (r := .dead) ho.2 (by simp)
      refine Sep.setVar h1 ho.1 ?_
      have hfl := hs.fresh i _ ho.1 hl
      have hft := hs.fresh j _ ho.2 ht
      simp only [rootRefs, refs_append, refs_cons, refs_nil, List.append_nil, List.mem_append] at hfl hft ⊢
      rintro a (ha | ha)
      · exact hfl a ha
      · exact hft a ha
    · cases e

/-! ### The variables of the parser -/

mutual
/-- The number of groups in a tree. -/
def groupsIn : TokenTree → Nat
  | .group _ ts _ => 1 + groupsIn' ts
  | _ => 0
/-- The number of groups in trees. -/
def groupsIn' : List TokenTree → Nat
  | [] => 0
  | t :: ts => groupsIn t + groupsIn' ts
end

theorem groupsIn'_append (a b : List TokenTree) : groupsIn' (a ++ b) = groupsIn' a + groupsIn' b := by
  induction a with
  | nil => simp [groupsIn']
  | cons t a ih => simp only [List.cons_append, groupsIn', ih]; omega

theorem groupsIn_setSpan (t : TokenTree) (s : Span) : groupsIn (t.setSpan s) = groupsIn t := by
  cases t <;> rfl

/-- The number of cells that a value takes. -/
def cells : Val → Nat
  | .dead => 0
  | .stream ts => 1 + groupsIn' ts
  | .borrowed ts => 1 + groupsIn' ts
  | .tree t => groupsIn t
  | .owned ts => groupsIn' ts

def cellsOf (m : List (Nat × Val)) : Nat := (m.map (fun p => cells p.2)).sum

/-- The variables from `n` on hold what is listed in `m`; the others have been moved out. -/
structure Sees (n : Nat) (v : List Val) (m : List (Nat × Val)) : Prop where
  hold : ∀ i w, (i, w) ∈ m → n ≤ i ∧ v[i]? = some w
  nodup : (m.map Prod.fst).Nodup
  dead : ∀ i w, n ≤ i → v[i]? = some w → i ∉ m.map Prod.fst → w = .dead

theorem Sees.perm {n : Nat} {v : List Val} {m m' : List (Nat × Val)} (h : Sees n v m) (hp : m.Perm m') : Sees n v m' := by
  refine ⟨fun i w hm => h.hold i w (hp.mem_iff.mpr hm), (hp.map Prod.fst).nodup_iff.mp h.nodup, fun i w hi hv hn => ?_⟩
  exact h.dead i w hi hv (fun hm => hn ((hp.map Prod.fst).mem_iff.mp hm))

theorem Sees.add {n : Nat} {v : List Val} {m : List (Nat × Val)} (h : Sees n v m) (hn : n ≤ v.length) (w : Val) :
    Sees n (v ++ [w]) ((v.length, w) :: m) := by
  have hlt : ∀ i w, (i, w) ∈ m → i < v.length := fun i w hm => (List.getElem?_eq_some_iff.mp (h.hold i w hm).2).1
  refine ⟨fun i u hm => ?_, ?_, fun i u hi hv hni => ?_⟩
  · cases hm with
    | head => exact ⟨hn, by simp⟩
    | tail _ hm => exact ⟨(h.hold i u hm).1, by rw [List.getElem?_append_left (hlt i u hm)]; exact (h.hold i u hm).2⟩
  · simp only [List.map_cons, List.nodup_cons]
    refine ⟨fun hm => ?_, h.nodup⟩
    obtain ⟨⟨i, u⟩, hm, rfl⟩ := List.mem_map.mp hm
    exact Nat.lt_irrefl _ (hlt _ u hm)
  · simp only [List.map_cons, List.mem_cons, not_or] at hni
    have hl := (List.getElem?_eq_some_iff.mp hv).1
    simp at hl
    rw [List.getElem?_append_left (by omega)] at hv
    exact h.dead i u hi hv hni.2

theorem Sees.replace {n : Nat} {v : List Val} {m : List (Nat × Val)} {i : Nat} {w : Val} (h : Sees n v ((i, w) :: m)) (w' : Val) :
    Sees n (v.set i w') ((i, w') :: m) := by
  have hi := h.hold i w (by simp)
  have hl := (List.getElem?_eq_some_iff.mp hi.2).1
  have hnd := h.nodup
  simp only [List.map_cons, List.nodup_cons] at hnd
  refine ⟨fun k u hm => ?_, by simpa only [List.map_cons, List.nodup_cons] using hnd, fun k u hk hv hni => ?_⟩
  · cases hm with
    | head => exact ⟨hi.1, List.getElem?_set_self hl⟩
    | tail _ hm =>
      have hne : i ≠ k := by
        rintro rfl
        exact hnd.1 (List.mem_map.mpr ⟨_, hm, rfl⟩)
      have := h.hold k u (.tail _ hm)
      exact ⟨this.1, by rw [List.getElem?_set_ne hne]; exact this.2⟩
  · simp only [List.map_cons, List.mem_cons, not_or] at hni
    rw [List.getElem?_set_ne (Ne.symm hni.1)] at hv
    exact h.dead k u hk hv (by simpa only [List.map_cons, List.mem_cons, not_or] using hni)

theorem Sees.remove {n : Nat} {v : List Val} {m : List (Nat × Val)} {i : Nat} (h : Sees n v ((i, .dead) :: m)) : Sees n v m := by
  have hnd := h.nodup
  simp only [List.map_cons, List.nodup_cons] at hnd
  refine ⟨fun k u hm => h.hold k u (by simp [hm]), hnd.2, fun k u hk hv hni => ?_⟩
  by_cases e : k = i
  · subst e
    have := (h.hold k .dead (by simp)).2
    rw [this] at hv
    cases hv
    rfl
  · exact h.dead k u hk hv (by simp [e]; simpa using hni)

/-- A run of the parser that began in `s0` is in the state `s`, with the variables `m`. -/
structure Run (s0 s : State) (m : List (Nat × Val)) : Prop where
  rel : ∃ v, Rel s v ∧ Sees s0.vars.length v m
  sep : Sep s0 s

/-- What has been allocated since `s0` is in use, by one owner, and is as much as the variables need. -/
structure Tight (s0 s : State) (m : List (Nat × Val)) : Prop where
  run : Run s0 s m
  one : ∀ a, s0.heap.length ≤ a → a < s.heap.length → ∃ c, s.heap.get a = some c ∧ c.rc = 1
  count : s.heap.length = s0.heap.length + cellsOf m

theorem exec_ok {ε : Type} {s s' : State} {op : Op} (h : Heap.step s op = .ok s') : exec (ε := ε) s op = .ok s' := by
  simp only [exec, h]

theorem Tight.perm {s0 s : State} {m m' : List (Nat × Val)} (h : Tight s0 s m) (hp : m.Perm m') : Tight s0 s m' := by
  obtain ⟨v, hR, hS⟩ := h.run.rel
  refine ⟨⟨⟨v, hR, hS.perm hp⟩, h.run.sep⟩, h.one, ?_⟩
  rw [h.count]
  simp only [cellsOf]
  rw [(hp.map _).sum_nat]

/-- An operation that leaves the heap alone. -/
theorem Tight.step {s0 s : State} {m m' : List (Nat × Val)} (h : Tight s0 s m) {op : Op} (ho : ParserOp s0.vars.length op)
    (hv : ∀ v, Rel s v → Sees s0.vars.length v m → ∃ v', vstep v op = some v' ∧ Sees s0.vars.length v' m')
    (hh : ∀ s', Heap.step s op = .ok s' → s'.heap = s.heap) (hc : cellsOf m' = cellsOf m) {ε : Type} :
    ∃ s', exec (ε := ε) s op = .ok s' ∧ Tight s0 s' m' := by
  obtain ⟨v, hR, hS⟩ := h.run.rel
  obtain ⟨v', e, hS'⟩ := hv v hR hS
  obtain ⟨s', e', hR'⟩ := step_spec hR e
  refine ⟨s', exec_ok e', ⟨⟨v', hR', hS'⟩, h.run.sep.step ho e'⟩, ?_, ?_⟩
  · rw [hh s' e']; exact h.one
  · rw [hh s' e', hc]; exact h.count

theorem Run.vlen {s0 s : State} {m : List (Nat × Val)} (h : Run s0 s m) : s0.vars.length ≤ s.vars.length := h.sep.vlen

theorem cellsOf_cons (p : Nat × Val) (m : List (Nat × Val)) : cellsOf (p :: m) = cells p.2 + cellsOf m := by simp [cellsOf]

theorem Tight.ge {s0 s : State} {m : List (Nat × Val)} (h : Tight s0 s m) {i : Nat} {w : Val} (hm : (i, w) ∈ m) :
    s0.vars.length ≤ i := by
  obtain ⟨v, _, hS⟩ := h.run.rel
  exact (hS.hold i w hm).1

theorem builder_tight {ε : Type} {s0 s : State} {m : List (Nat × Val)} (h : Tight s0 s m) :
    ∃ s', newBuilder (ε := ε) s = .ok (s', s.vars.length) ∧ Tight s0 s' ((s.vars.length, .owned []) :: m) := by
  obtain ⟨s', e, h'⟩ := h.step (ε := ε) (op := .builder) (m' := (s.vars.length, .owned []) :: m) trivial
    (fun v hR hS => ⟨_, rfl, by rw [hR.len]; exact hS.add (by rw [← hR.len]; exact h.run.vlen) _⟩)
    (fun s' e => by cases e; rfl) (by simp [cellsOf_cons, cells, groupsIn'])
  exact ⟨s', by simp only [newBuilder, e, bind, Res.bind], h'⟩

/-- Not a group. -/
def NotGroup : TokenTree → Prop
  | .group .. => False
  | _ => True

theorem newLeaf_tight {ε : Type} {s0 s : State} {m : List (Nat × Val)} (h : Tight s0 s m) {t : TokenTree} (ht : NotGroup t) :
    ∃ s', newLeaf (ε := ε) s t = .ok (s', s.vars.length) ∧ Tight s0 s' ((s.vars.length, .tree t) :: m) := by
  obtain ⟨l, el, hl⟩ : ∃ l, leafOf (ε := ε) t = .ok l ∧ leafValue l = some t := by
    cases t with
    | group => exact ht.elim
    | ident | punct | literal => exact ⟨_, rfl, rfl⟩
  obtain ⟨s', e, h'⟩ := h.step (ε := ε) (op := .leaf l) (m' := (s.vars.length, .tree t) :: m) trivial
    (fun v hR hS => ⟨v ++ [.tree t], by simp only [vstep, hl],
      by rw [hR.len]; exact hS.add (by rw [← hR.len]; exact h.run.vlen) _⟩)
    (fun s' e => by
      simp only [Heap.step] at e
      split at e
      · cases e; rfl
      · cases e)
    (by cases t <;> simp_all [cellsOf_cons, cells, groupsIn, NotGroup])
  exact ⟨s', by simp only [newLeaf, el, e, bind, Res.bind], h'⟩

theorem setSpan_tight {ε : Type} {s0 s : State} {m : List (Nat × Val)} {i : Nat} {t : TokenTree} (h : Tight s0 s ((i, .tree t) :: m))
    (span : Span) : ∃ s', exec (ε := ε) s (.setSpan i span) = .ok s' ∧ Tight s0 s' ((i, .tree (t.setSpan span)) :: m) := by
  refine h.step (op := .setSpan i span) (h.ge (.head _))
    (fun v hR hS => ⟨_, by simp only [vstep, (hS.hold i _ (.head _)).2], hS.replace _⟩)
    (fun s' e => by
      simp only [Heap.step] at e
      split at e
      · cases e; rfl
      · cases e)
    (by simp [cellsOf_cons, cells, groupsIn_setSpan])

theorem pushOwned_tight {ε : Type} {s0 s : State} {m : List (Nat × Val)} {i j : Nat} {t : TokenTree} {ts : List TokenTree}
    (h : Tight s0 s ((j, .tree t) :: (i, .owned ts) :: m)) :
    ∃ s', exec (ε := ε) s (.pushOwned i j) = .ok s' ∧ Tight s0 s' ((i, .owned (ts ++ [t])) :: m) := by
  refine h.step (op := .pushOwned i j) ⟨h.ge (.tail _ (.head _)), h.ge (.head _)⟩
    (fun v hR hS => ⟨(v.set j .dead).set i (.owned (ts ++ [t])), by simp only [vstep, (hS.hold i _ (.tail _ (.head _))).2, (hS.hold j _ (.head _)).2], ?_⟩)
    (fun s' e => by
      simp only [Heap.step] at e
      split at e
      · cases e; rfl
      · cases e)
    (by simp [cellsOf_cons, cells, groupsIn'_append, groupsIn']; omega)
  exact (hS.replace .dead).remove.replace _

theorem groupNew_tight {ε : Type} {s0 s : State} {m : List (Nat × Val)} {i : Nat} {d : Delimiter} {ts : List TokenTree}
    (h : Tight s0 s ((i, .stream ts) :: m)) :
    ∃ s', exec (ε := ε) s (.groupNew d i) = .ok s' ∧ Tight s0 s' ((s.vars.length, .tree (groupNew d ts)) :: m) := by
  refine h.step (op := .groupNew d i) (h.ge (.head _))
    (fun v hR hS => ⟨v.set i .dead ++ [.tree (groupNew d ts)], by simp only [vstep, (hS.hold i _ (.head _)).2]; rfl, ?_⟩)
    (fun s' e => by
      simp only [Heap.step] at e
      split at e
      · cases e; rfl
      · cases e)
    (by simp [cellsOf_cons, cells, groupsIn, groupNew])
  have h1 := (hS.replace .dead).remove.add (by simp; rw [← hR.len]; exact h.run.vlen) (.tree (groupNew d ts))
  simpa [hR.len] using h1

theorem build_tight {ε : Type} {s0 s : State} {m : List (Nat × Val)} {i : Nat} {ts : List TokenTree}
    (h : Tight s0 s ((i, .owned ts) :: m)) :
    ∃ s', exec (ε := ε) s (.build i) = .ok s' ∧ Tight s0 s' ((s.vars.length, .stream ts) :: m) := by
  obtain ⟨v, hR, hS⟩ := h.run.rel
  have e : vstep v (.build i) = some (v.set i .dead ++ [.stream ts]) := by simp only [vstep, (hS.hold i _ (.head _)).2]
  obtain ⟨s', e', hR'⟩ := step_spec hR e
  have hh : ∃ l, s'.heap = (s.heap.alloc l).1 := by
    simp only [Heap.step] at e'
    split at e'
    · cases e'; exact ⟨_, rfl⟩
    · cases e'
  obtain ⟨l, hh⟩ := hh
  have hlen := h.run.sep.hlen
  have h1 := (hS.replace .dead).remove.add (by simp; rw [← hR.len]; exact h.run.vlen) (.stream ts)
  refine ⟨s', exec_ok e', ⟨⟨_, hR', by simpa [hR.len] using h1⟩, 
    h.run.sep.step (op := .build i) (h.ge (.head _)) e'⟩, ?_, ?_⟩
  · intro a ha hl
    rw [hh, get_alloc]
    split
    · exact ⟨_, rfl, rfl⟩
    · refine h.one a ha ?_
      rw [hh] at hl
      simp [Heap.alloc] at hl
      omega
  · rw [hh]
    have := h.count
    simp [cellsOf_cons, cells, Heap.alloc] at this ⊢
    omega

theorem newSpanned_tight {ε : Type} {s0 s : State} {m : List (Nat × Val)} (h : Tight s0 s m) {t : TokenTree} (ht : NotGroup t)
    (span : Span) : ∃ s', newSpanned (ε := ε) s t span = .ok (s', s.vars.length) ∧
      Tight s0 s' ((s.vars.length, .tree (t.setSpan span)) :: m) := by
  obtain ⟨s1, e1, h1⟩ := newLeaf_tight (ε := ε) h ht
  obtain ⟨s2, e2, h2⟩ := setSpan_tight (ε := ε) h1 span
  exact ⟨s2, by simp only [newSpanned, e1, e2, bind, Res.bind], h2⟩

theorem pushSpanned_tight {ε : Type} {s0 s : State} {m : List (Nat × Val)} {b : Nat} {ts : List TokenTree}
    (h : Tight s0 s ((b, .owned ts) :: m)) {t : TokenTree} (ht : NotGroup t) (span : Span) :
    ∃ s', pushSpanned (ε := ε) s b t span = .ok s' ∧ Tight s0 s' ((b, .owned (ts ++ [t.setSpan span])) :: m) := by
  obtain ⟨s1, e1, h1⟩ := newSpanned_tight (ε := ε) h ht span
  obtain ⟨s2, e2, h2⟩ := pushOwned_tight (ε := ε) h1
  exact ⟨s2, by simp only [pushSpanned, e1, e2, bind, Res.bind], h2⟩

theorem pushGroup_tight {ε : Type} {s0 s : State} {m : List (Nat × Val)} {b outer : Nat} {us ts : List TokenTree}
    (h : Tight s0 s ((b, .owned us) :: (outer, .owned ts) :: m)) (d : Delimiter) (span : Span) :
    ∃ s', pushGroup (ε := ε) s outer d b span = .ok s' ∧
      Tight s0 s' ((outer, .owned (ts ++ [(groupNew d us).setSpan span])) :: m) := by
  obtain ⟨s1, e1, h1⟩ := build_tight (ε := ε) h
  obtain ⟨s2, e2, h2⟩ := groupNew_tight (ε := ε) (d := d) h1
  obtain ⟨s3, e3, h3⟩ := setSpan_tight (ε := ε) h2 span
  obtain ⟨s4, e4, h4⟩ := pushOwned_tight (ε := ε) h3
  exact ⟨s4, by simp only [pushGroup, e1, e2, e3, e4, bind, Res.bind], h4⟩

/-! ### Dropping the variables -/

theorem Run.perm {s0 s : State} {m m' : List (Nat × Val)} (h : Run s0 s m) (hp : m.Perm m') : Run s0 s m' := by
  obtain ⟨v, hR, hS⟩ := h.rel
  exact ⟨⟨v, hR, hS.perm hp⟩, h.sep⟩

theorem dropOwned_run {ε : Type} {s0 s : State} {m : List (Nat × Val)} {i : Nat} {ts : List TokenTree}
    (h : Run s0 s ((i, .owned ts) :: m)) : ∃ s', exec (ε := ε) s (.dropOwned i) = .ok s' ∧ Run s0 s' m := by
  obtain ⟨v, hR, hS⟩ := h.rel
  have hi := hS.hold i _ (.head _)
  have e : vstep v (.dropOwned i) = some (v.set i .dead) := by simp only [vstep, hi.2]
  obtain ⟨s', e', hR'⟩ := step_spec hR e
  exact ⟨s', exec_ok e', ⟨_, hR', (hS.replace .dead).remove⟩, h.sep.step (op := .dropOwned i) hi.1 e'⟩

theorem dropStream_run {s0 s : State} {m : List (Nat × Val)} {i : Nat} {ts : List TokenTree}
    (h : Run s0 s ((i, .stream ts) :: m)) : ∃ s', Heap.step s (.dropStream i) = .ok s' ∧ Run s0 s' m := by
  obtain ⟨v, hR, hS⟩ := h.rel
  have hi := hS.hold i _ (.head _)
  have e : vstep v (.dropStream i) = some (v.set i .dead) := by simp only [vstep, hi.2]
  obtain ⟨s', e', hR'⟩ := step_spec hR e
  exact ⟨s', e', ⟨_, hR', (hS.replace .dead).remove⟩, h.sep.step (op := .dropStream i) hi.1 e'⟩

theorem dropBuilders_run {ε : Type} {s0 : State} : ∀ (l : List (Nat × List TokenTree)) {s : State},
    Run s0 s (l.map (fun p => (p.1, Val.owned p.2))) →
      ∃ s', dropBuilders (ε := ε) s (l.map Prod.fst) = .ok s' ∧ Run s0 s' []
  | [], s, h => ⟨s, rfl, h⟩
  | p :: l, s, h => by
    obtain ⟨s1, e1, h1⟩ := dropOwned_run (ε := ε) h
    obtain ⟨s2, e2, h2⟩ := dropBuilders_run (ε := ε) l h1
    exact ⟨s2, by simp only [List.map_cons, dropBuilders, e1, e2, bind, Res.bind], h2⟩

theorem fail_run {α : Type} {s0 s : State} (l : List (Nat × List TokenTree)) {is : List Nat} (hi : is.Perm (l.map Prod.fst))
    (h : Run s0 s (l.map (fun p => (p.1, Val.owned p.2)))) (span : Span) :
    ∃ s', fail (α := α) s is span = .err (span, s') ∧ Run s0 s' [] := by
  -- the same variables in the order of `is`
  obtain ⟨l', hl, rfl⟩ : ∃ l' : List (Nat × List TokenTree), l.Perm l' ∧ l'.map Prod.fst = is := by
    clear h
    induction is generalizing l with
    | nil =>
      have : l.map Prod.fst = [] := hi.symm.eq_nil
      simp at this
      exact ⟨[], by rw [this], rfl⟩
    | cons i is ih =>
      have hm : i ∈ l.map Prod.fst := hi.mem_iff.mp (.head _)
      obtain ⟨p, hp, rfl⟩ := List.mem_map.mp hm
      obtain ⟨a, b, rfl⟩ := List.append_of_mem hp
      have h1 : (a ++ p :: b).Perm (p :: (a ++ b)) := List.perm_middle
      have h2 : is.Perm ((a ++ b).map Prod.fst) := by
        have := hi.trans (h1.map Prod.fst)
        simpa using this
      obtain ⟨l', h3, h4⟩ := ih (a ++ b) h2
      exact ⟨p :: l', h1.trans (h3.cons p), by simp [h4]⟩
  obtain ⟨s', e, h'⟩ := dropBuilders_run (ε := Span × State) l' (h.perm (hl.map _))
  exact ⟨s', by simp only [fail, e, bind, Res.bind], h'⟩

/-! ### Functions that do not fail -/

/-- An outcome without errors, for any type of errors. -/
def conv {ε α : Type} : Res Empty α → Res ε α
  | .ok a => .ok a
  | .err e => e.elim
  | .panic => .panic
  | .diverge => .diverge

/-- Positions are added without errors. -/
class PosErr (ο : Type) [Pos ο] : Prop where
  add_eq : ∀ {ε : Type} (o : ο) (n : Nat), Pos.add (ε := ε) o n = conv (Pos.add o n)

instance : PosErr Nat := ⟨fun o n => by
  show addU32 _ _ = conv (addU32 _ _)
  unfold addU32
  split <;> rfl⟩

instance : PosErr Unit := ⟨fun _ _ => rfl⟩

section
variable {ε α β : Type}

theorem conv_bind (x : Res Empty α) (f : α → Res Empty β) :
    (conv (x.bind f) : Res ε β) = (conv x).bind (fun a => conv (f a)) := by
  cases x with
  | err e => exact e.elim
  | ok | panic | diverge => rfl

theorem conv_ite {c : Prop} [Decidable c] (x y : Res Empty α) :
    (conv (if c then x else y) : Res ε α) = if c then conv x else conv y := by
  split <;> rfl

theorem conv_ifOk {δ : Type} (x : Res δ α) (k : α → Res Empty β) (h : Unit → Res Empty β) :
    (conv (x.ifOk k h) : Res ε β) = x.ifOk (fun a => conv (k a)) (fun u => conv (h u)) := by
  cases x <;> rfl

theorem sliceTo_conv (s : List Char) (n : Nat) : sliceTo (ε := ε) s n = conv (sliceTo s n) := by
  unfold sliceTo
  cases splitAtByte s n <;> rfl

theorem sliceFrom_conv (s : List Char) (n : Nat) : sliceFrom (ε := ε) s n = conv (sliceFrom s n) := by
  unfold sliceFrom
  cases splitAtByte s n <;> rfl

variable {ο : Type} [Pos ο] [PosErr ο]

theorem advance_conv (c : Cursor ο) (n : Nat) : advance (ε := ε) c n = conv (advance c n) := by
  unfold advance
  cases splitAtByte c.rest n with
  | none => rfl
  | some p =>
    simp only [bind]
    rw [PosErr.add_eq, conv_bind]
    rfl

theorem takeUntilLoop_conv (input : Cursor ο) : ∀ (l : List Char) (i : Nat),
    takeUntilLoop (ε := ε) input l i = conv (takeUntilLoop input l i)
  | [], i => by
    simp only [takeUntilLoop, bind]
    rw [advance_conv, conv_bind]
    rfl
  | ch :: chars, i => by
    simp only [takeUntilLoop, bind, conv_ite, conv_bind]
    have h1 := fun n => advance_conv (ε := ε) input n
    have h2 := fun l n => sliceTo_conv (ε := ε) l n
    have h3 := fun l n => sliceFrom_conv (ε := ε) l n
    have h4 := fun n => takeUntilLoop_conv input chars n
    simp only [h1, h2, h3, h4]
    rfl

theorem skipWsLoop_conv [UnicodeTables] : ∀ (fuel : Nat) (c : Cursor ο), skipWsLoop (ε := ε) fuel c = conv (skipWsLoop fuel c)
  | 0, _ => rfl
  | fuel + 1, s => by
    have ih := skipWsLoop_conv fuel
    unfold skipWsLoop
    cases s.rest with
    | nil => rfl
    | cons ch t =>
      simp only [bind, conv_ite, conv_bind, conv_ifOk, takeUntilNewlineOrEof]
      have h1 := fun n => advance_conv (ε := ε) s n
      have h2 := fun l n => takeUntilLoop_conv (ε := ε) s l n
      simp only [h1, h2, ih]
      rfl

theorem skipWhitespace_conv [UnicodeTables] (c : Cursor ο) : skipWhitespace (ε := ε) c = conv (skipWhitespace c) :=
  skipWsLoop_conv _ c

end

/-! ### The lexer -/

section
variable {ο : Type} [Pos ο] [PosErr ο] [UnicodeTables]

/-- The same outcome on the heap: the results are related by `ok`, the errors by `er`. -/
def Same {ε δ α β : Type} (ok : α → β → Prop) (er : ε → δ → Prop) (x : Res ε α) (y : Res δ β) : Prop :=
  match x, y with
  | .ok a, .ok b => ok a b
  | .err a, .err b => er a b
  | .panic, .panic => True
  | .diverge, .diverge => True
  | _, _ => False

theorem docComment_same {s0 s : State} {m : List (Nat × Val)} {b : Nat} {ts : List TokenTree}
    (h : Tight s0 s ((b, .owned ts) :: m)) (input : Cursor ο) :
    Same (fun r r' => r'.1 = r.1 ∧ Tight s0 r'.2 ((b, .owned (ts ++ r.2)) :: m)) (fun _ _ => True)
      (docComment input) (docCommentH s b input) := by
  simp only [docComment, docCommentH]
  cases e0 : docCommentContents input with
  | err => simp [bind, Res.bind, Same]
  | panic => simp [bind, Res.bind, Same]
  | diverge => simp [bind, Res.bind, Same]
  | ok p =>
    obtain ⟨rest, comment, inner⟩ := p
    simp only [bind, Res.bind]
    cases e1 : scanBareCr (comment.length + 1) comment with
    | err => simp [Same]
    | panic => simp [Same]
    | diverge => simp [Same]
    | ok u =>
      have hp : ∀ c sp, isPunctCtorChar c = true → punctNew (ε := Unit) c sp = .ok (.punct c sp Span.callSite) := by
        intro c sp hc; simp [punctNew, hc]
      simp only [hp '#' .alone (by decide), hp '!' .alone (by decide), hp '=' .alone (by decide)]
      generalize hspan : (Pos.span input.off rest.off : Span) = span
      obtain ⟨s1, q1, h1⟩ := pushSpanned_tight (ε := Unit) h (t := .punct '#' .alone Span.callSite) trivial span
      simp only [q1]
      obtain ⟨s2, q2, h2⟩ : ∃ s2, (if inner then pushSpanned (ε := Unit) s1 b (.punct '!' .alone Span.callSite) span else .ok s1) = .ok s2 ∧
          Tight s0 s2 ((b, .owned (ts ++ [.punct '#' .alone span] ++ (if inner then [.punct '!' .alone span] else []))) :: m) := by
        cases inner with
        | false => exact ⟨s1, rfl, by simpa [TokenTree.setSpan] using h1⟩
        | true =>
          obtain ⟨s2, q2, h2⟩ := pushSpanned_tight (ε := Unit) h1 (t := .punct '!' .alone Span.callSite) trivial span
          exact ⟨s2, by simpa using q2, by simpa [TokenTree.setSpan] using h2⟩
      simp only [q2]
      obtain ⟨s3, q3, h3⟩ := newLeaf_tight (ε := Unit) h2 (t := identNewUnchecked ['d', 'o', 'c'] span) trivial
      simp only [q3]
      obtain ⟨s4, q4, h4⟩ := newSpanned_tight (ε := Unit) h3 (t := .punct '=' .alone Span.callSite) trivial span
      simp only [q4]
      obtain ⟨s5, q5, h5⟩ := newSpanned_tight (ε := Unit) h4 (t := literalNew (litString comment)) trivial span
      simp only [q5]
      obtain ⟨s6, q6, h6⟩ := builder_tight (ε := Unit) h5
      simp only [q6]
      obtain ⟨s7, q7, h7⟩ := pushOwned_tight (ε := Unit) (h6.perm ((List.perm_middle (l₁ := [_, _, _]))))
      simp only [q7]
      obtain ⟨s8, q8, h8⟩ := pushOwned_tight (ε := Unit) (h7.perm ((List.perm_middle (l₁ := [_, _]))))
      simp only [q8]
      obtain ⟨s9, q9, h9⟩ := pushOwned_tight (ε := Unit) (h8.perm ((List.perm_middle (l₁ := [_]))))
      simp only [q9]
      obtain ⟨s10, q10, h10⟩ := pushGroup_tight (ε := Unit) h9 .bracket span
      simp only [q10, Same]
      cases inner <;> exact ⟨rfl, by simpa [TokenTree.setSpan] using h10⟩

theorem leafToken_leaf {input rest : Cursor ο} {t : TokenTree} (h : leafToken input = .ok (rest, t)) : NotGroup t := by
  unfold leafToken at h
  cases e1 : literal input with
  | ok p => rw [e1] at h; simp only [Res.ifOk] at h; cases h; trivial
  | panic => rw [e1] at h; cases h
  | diverge => rw [e1] at h; cases h
  | err =>
    rw [e1] at h
    simp only [Res.ifOk] at h
    cases e2 : punct input with
    | panic => rw [e2] at h; cases h
    | diverge => rw [e2] at h; cases h
    | ok p =>
      rw [e2] at h
      simp only at h
      cases h
      have hn : ∀ {c sp t}, punctNew (ε := Unit) c sp = .ok t → NotGroup t := by
        intro c sp t h
        unfold punctNew at h
        split at h
        · cases h; trivial
        · cases h
      unfold punct at e2
      obtain ⟨⟨r1, ch⟩, q1, q2⟩ := res_bind_ok e2
      simp only at q2
      split at q2
      · obtain ⟨⟨r2, _⟩, q3, q4⟩ := res_bind_ok q2
        simp only at q4
        split at q4
        · cases q4
        · obtain ⟨p, q5, q6⟩ := res_bind_ok q4
          cases q6
          exact hn q5
      · unfold Res.ifOk at q2
        split at q2
        · obtain ⟨p, q5, q6⟩ := res_bind_ok q2
          cases q6
          exact hn q5
        · obtain ⟨p, q5, q6⟩ := res_bind_ok q2
          cases q6
          exact hn q5
        · cases q2
        · cases q2
    | err =>
      rw [e2] at h
      simp only at h
      cases e3 : ident input with
      | panic => rw [e3] at h; cases h
      | diverge => rw [e3] at h; cases h
      | ok p =>
        rw [e3] at h
        cases h
        unfold ident at e3
        split at e3
        · cases e3
        · unfold identAny at e3
          obtain ⟨r1, q1, q2⟩ := res_bind_ok e3
          obtain ⟨⟨r2, sym⟩, q3, q4⟩ := res_bind_ok q2
          simp only at q4
          split at q4
          · cases q4; trivial
          · split at q4
            · cases q4
            · cases q4; trivial
      | err =>
        rw [e3] at h
        simp only at h
        split at h
        · obtain ⟨r, q1, q2⟩ := res_bind_ok h
          cases q2
          trivial
        · cases h

/-- The stack of the lexer, and what the variables of its builders hold. -/
inductive Frames : List (FrameH ο) → List (StackEntry ο) → List (Nat × List TokenTree) → Prop
  | nil : Frames [] [] []
  | cons {lo d i outer fs es l} : Frames fs es l → Frames (⟨lo, d, i⟩ :: fs) (⟨lo, d, outer⟩ :: es) ((i, outer) :: l)

theorem Frames.fst {fs : List (FrameH ο)} {es : List (StackEntry ο)} {l : List (Nat × List TokenTree)} (h : Frames fs es l) :
    fs.map FrameH.outer = l.map Prod.fst := by
  induction h with
  | nil => rfl
  | cons _ ih => simp [ih]

/-- The state of the lexer on the heap is that of the lexer. -/
structure LexRel (s0 : State) (st : LState ο) (sh : LStateH ο) : Prop where
  input : sh.input = st.input
  vars : ∃ l, Frames sh.stack st.stack l ∧
    Tight s0 sh.state (((sh.tokens, st.tokens) :: l).map (fun p => (p.1, Val.owned p.2)))

/-- The error of the lexer on the heap: its variables have been dropped. -/
def ErrRel (s0 : State) (e : Span) (e' : Span × State) : Prop := e'.1 = e ∧ Run s0 e'.2 []

/-- The result of the lexer on the heap. -/
def OkRel (s0 : State) (ts : List TokenTree) (r : State × Nat) : Prop := Tight s0 r.1 [(r.2, .stream ts)]

/-- One step of the two lexers. -/
def StepRel (s0 : State) : LState ο ⊕ List TokenTree → LStateH ο ⊕ (State × Nat) → Prop
  | .inl st, .inl sh => LexRel s0 st sh
  | .inr ts, .inr r => OkRel s0 ts r
  | _, _ => False

theorem lexStep_same {s0 : State} {st : LState ο} {sh : LStateH ο} (h : LexRel s0 st sh) :
    Same (StepRel s0)
      (ErrRel s0) (lexStep st) (lexStepH sh) := by
  obtain ⟨state, input, tokens, stack⟩ := sh
  obtain ⟨input', tokens', stack'⟩ := st
  obtain ⟨rfl, l, hf, ht⟩ := h
  simp only at hf ht
  have hfail : ∀ {is : List Nat} (span : Span), is.Perm (tokens :: l.map Prod.fst) →
      ∃ s', fail (α := LStateH ο ⊕ (State × Nat)) state is span = .err (span, s') ∧ Run s0 s' [] := fun span hp =>
    fail_run ((tokens, tokens') :: l) (by simpa using hp) ht.run span
  have hstd : ((stack.map FrameH.outer).reverse ++ [tokens]).Perm (tokens :: l.map Prod.fst) := by
    rw [hf.fst]
    refine (List.perm_append_comm).trans ?_
    exact (List.reverse_perm _).cons tokens
  have hdead : ∀ {is : List Nat} (span : Span), is.Perm (tokens :: l.map Prod.fst) →
      Same (StepRel s0) (ErrRel s0) (.err span : Res Span (LState ο ⊕ List TokenTree)) (fail state is span) := by
    intro is span hp
    obtain ⟨s', e, h⟩ := hfail span hp
    rw [e]
    exact ⟨rfl, h⟩
  simp only [lexStep, lexStepH, bind]
  rw [skipWhitespace_conv (ε := Span), skipWhitespace_conv (ε := Span × State)]
  cases skipWhitespace (ε := Empty) input with
  | err e => exact e.elim
  | panic => exact trivial
  | diverge => exact trivial
  | ok input =>
    simp only [conv, Res.bind]
    have hd := docComment_same (s := state) (b := tokens) (ts := tokens') (m := l.map (fun p => (p.1, Val.owned p.2))) ht input
    cases e1 : docComment input with
    | ok p =>
      cases e2 : docCommentH state tokens input with
      | ok q =>
        rw [e1, e2] at hd
        obtain ⟨h1, h2⟩ := hd
        exact ⟨h1, l, hf, h2⟩
      | err | panic | diverge => rw [e1, e2] at hd; exact hd.elim
    | panic =>
      cases e2 : docCommentH state tokens input with
      | panic => exact trivial
      | ok | err | diverge => rw [e1, e2] at hd; exact hd.elim
    | diverge =>
      cases e2 : docCommentH state tokens input with
      | diverge => exact trivial
      | ok | err | panic => rw [e1, e2] at hd; exact hd.elim
    | err e =>
      have e2 : ∃ e', docCommentH state tokens input = .err e' := by
        cases e2 : docCommentH state tokens input with
        | err e' => exact ⟨e', rfl⟩
        | ok | panic | diverge => rw [e1, e2] at hd; exact hd.elim
      obtain ⟨e', e2⟩ := e2
      rw [e2]
      simp only [Res.ifOk]
      cases hb : bytesOf input.rest with
      | nil =>
        cases hf with
        | nil =>
          obtain ⟨s', q, h⟩ := build_tight (ε := Span × State) ht
          simp only [q, Same]
          exact h
        | cons hf =>
          exact hdead _ hstd
      | cons first bytes =>
        simp only
        cases openDelimiter input first with
        | some d =>
          simp only
          rw [advance_conv (ε := Span), advance_conv (ε := Span × State)]
          cases advance (ε := Empty) input 1 with
          | err e => exact e.elim
          | panic => exact trivial
          | diverge => exact trivial
          | ok input1 =>
            obtain ⟨s', q, h⟩ := builder_tight (ε := Span × State) ht
            simp only [conv, q, Same]
            exact ⟨rfl, _, .cons hf, h⟩
        | none =>
          simp only
          cases closeDelimiter first with
          | some d =>
            cases hf with
            | nil => exact hdead _ (.refl _)
            | @cons lo d' i outer fs es l hf =>
              simp only
              by_cases hne : d' ≠ d
              · rw [if_pos hne, if_pos hne]
                refine hdead _ ?_
                rw [hf.fst]
                show (i :: (List.map Prod.fst l).reverse ++ [tokens]).Perm (tokens :: i :: List.map Prod.fst l)
                refine (List.perm_append_comm).trans ?_
                exact ((List.reverse_perm _).cons i).cons tokens
              · rw [if_neg hne, if_neg hne]
                rw [advance_conv (ε := Span), advance_conv (ε := Span × State)]
                cases advance (ε := Empty) input 1 with
                | err e => exact e.elim
                | panic => exact trivial
                | diverge => exact trivial
                | ok input1 =>
                  obtain ⟨s', q, h⟩ := pushGroup_tight (ε := Span × State) ht d' (Pos.span lo input1.off)
                  simp only [conv, q, Same]
                  exact ⟨rfl, l, hf, h⟩
          | none =>
            simp only
            cases e3 : leafToken input with
            | ok p =>
              obtain ⟨rest, t⟩ := p
              obtain ⟨s', q, h⟩ := pushSpanned_tight (ε := Span × State) ht (leafToken_leaf e3) (Pos.span input.off rest.off)
              simp only [q, Same]
              exact ⟨rfl, l, hf, h⟩
            | err e => exact hdead _ hstd
            | panic => exact trivial
            | diverge => exact trivial

theorem lexLoop_same {s0 : State} : ∀ (fuel : Nat) {st : LState ο} {sh : LStateH ο}, LexRel s0 st sh →
    Same (OkRel s0) (ErrRel s0) (lexLoop fuel st) (lexLoopH fuel sh)
  | 0, _, _, _ => trivial
  | fuel + 1, st, sh, h => by
    have hs := lexStep_same h
    simp only [lexLoop, lexLoopH]
    cases e1 : lexStep st with
    | ok r =>
      cases e2 : lexStepH sh with
      | ok r' =>
        rw [e1, e2] at hs
        cases r with
        | inl st' =>
          cases r' with
          | inl sh' => exact lexLoop_same fuel hs
          | inr => exact hs.elim
        | inr ts =>
          cases r' with
          | inl => exact hs.elim
          | inr r => exact hs
      | err | panic | diverge => rw [e1, e2] at hs; exact hs.elim
    | err e =>
      cases e2 : lexStepH sh with
      | err e' => rw [e1, e2] at hs; exact hs
      | ok | panic | diverge => rw [e1, e2] at hs; exact hs.elim
    | panic =>
      cases e2 : lexStepH sh with
      | panic => exact trivial
      | ok | err | diverge => rw [e1, e2] at hs; exact hs.elim
    | diverge =>
      cases e2 : lexStepH sh with
      | diverge => exact trivial
      | ok | err | panic => rw [e1, e2] at hs; exact hs.elim

theorem Tight.start {s : State} {v : List Val} (hR : Rel s v) : Tight s s [] := by
  refine ⟨⟨⟨v, hR, by simp, by simp, fun i w hi hv _ => ?_⟩, .refl s⟩, fun a h1 h2 => by omega, by simp [cellsOf]⟩
  have := (List.getElem?_eq_some_iff.mp hv).1
  rw [← hR.len] at this
  omega

theorem fromStr_same {s : State} {v : List Val} (hR : Rel s v) (src : List Char) (off : ο) :
    Same (OkRel s) (ErrRel s) (fromStrAt src off) (fromStrH s src off) := by
  have key : ∀ c : Cursor ο, Same (OkRel s) (ErrRel s) (tokenStream c) (tokenStreamH s c) := by
    intro c
    obtain ⟨s', q, h⟩ := builder_tight (ε := Span × State) (Tight.start hR)
    simp only [tokenStream, tokenStreamH, q, bind, Res.bind]
    exact lexLoop_same _ ⟨rfl, [], .nil, h⟩
  simp only [fromStrAt, fromStrH, bind]
  by_cases hb : startsWith src ['\ufeff'] = true
  · rw [if_pos hb, if_pos hb, advance_conv (ε := Span), advance_conv (ε := Span × State)]
    cases advance (ε := Empty) (⟨src, off⟩ : Cursor ο) 3 with
    | err e => exact e.elim
    | panic => exact trivial
    | diverge => exact trivial
    | ok c => exact key c
  · rw [if_neg hb, if_neg hb]
    exact key _

end

end PM2
