import Verif.Proof.HeapApi
/-!
# The API on the heap: states and values
-/

namespace PM2
open Heap Spec HeapApi Wrap Spec.Direct

/-! ### Lists of variables -/

inductive HoldsL (h : Heap) : List Root → List Val → Prop
  | nil : HoldsL h [] []
  | cons {r w q v} : Spec.Holds h r w → HoldsL h q v → HoldsL h (r :: q) (w :: v)

theorem HoldsL.of {h : Heap} : ∀ {q : List Root} {v : List Val}, q.length = v.length →
    (∀ (i : Nat) r w, q[i]? = some r → v[i]? = some w → Spec.Holds h r w) → HoldsL h q v
  | [], [], _, _ => .nil
  | [], _ :: _, hl, _ => by cases hl
  | _ :: _, [], hl, _ => by cases hl
  | r :: q, w :: v, hl, hh =>
    .cons (hh 0 r w rfl rfl) (.of (by simpa using hl) (fun i r w h1 h2 => hh (i + 1) r w h1 h2))

theorem HoldsL.length {h : Heap} {q : List Root} {v : List Val} (hh : HoldsL h q v) : q.length = v.length := by
  induction hh with
  | nil => rfl
  | cons _ _ ih => simp [ih]

theorem HoldsL.get {h : Heap} {q : List Root} {v : List Val} (hh : HoldsL h q v) : ∀ (i : Nat) r w, q[i]? = some r →
    v[i]? = some w → Spec.Holds h r w := by
  induction hh with
  | nil => intro i r w h1; simp at h1
  | cons h1 _ ih =>
    intro i r w hr hw
    cases i with
    | zero => cases hr; cases hw; exact h1
    | succ i => exact ih i r w hr hw

theorem HoldsL.append {h : Heap} {q q' : List Root} {v v' : List Val} (h1 : HoldsL h q v) (h2 : HoldsL h q' v') :
    HoldsL h (q ++ q') (v ++ v') := by
  induction h1 with
  | nil => exact h2
  | cons h _ ih => exact .cons h ih

theorem HoldsL.split {h : Heap} : ∀ {v v' : List Val} {q : List Root}, HoldsL h q (v ++ v') →
    ∃ q1 q2, q = q1 ++ q2 ∧ HoldsL h q1 v ∧ HoldsL h q2 v'
  | [], _, q, hh => ⟨[], q, rfl, .nil, hh⟩
  | w :: v, v', _, .cons h1 h2 => by
    obtain ⟨q1, q2, rfl, h3, h4⟩ := h2.split
    exact ⟨_ :: q1, q2, rfl, .cons h1 h3, h4⟩

theorem HoldsL.dead {h : Heap} : ∀ {n : Nat} {q : List Root}, HoldsL h q (List.replicate n .dead) →
    q = List.replicate n .dead
  | 0, _, hh => by cases hh; rfl
  | n + 1, q, hh => by
    rw [List.replicate_succ] at hh
    cases hh with
    | cons h1 h2 =>
      cases h1
      rw [HoldsL.dead h2]
      rfl

theorem Rel.all {s : State} {v : List Val} (hR : Rel s v) : HoldsL s.heap s.vars v := .of hR.len hR.holds

/-- Other variables, with the same references. -/
theorem Rel.sub {h : Heap} {q q' : List Root} {v v' : List Val} (hR : Rel ⟨h, q⟩ v) (hH : HoldsL h q' v')
    (hc : varRefs q' = varRefs q) (hb : ∀ ts, Val.borrowed ts ∉ v') : Rel ⟨h, q'⟩ v' := by
  refine ⟨hH.length, hH.get, ?_, fun i a hi => ?_⟩
  · show Inv h (fun x => (varRefs q').count x)
    rw [hc]
    exact hR.inv
  · have hl : i < v'.length := by rw [← hH.length]; exact (List.getElem?_eq_some_iff.mp hi).1
    have := hH.get i _ _ hi (List.getElem?_eq_getElem hl)
    generalize e : v'[i] = w at this
    cases this with
    | @borrowed _ c ts _ _ => exact absurd (e ▸ List.getElem_mem hl) (hb ts)

theorem varRefs_replicate (n : Nat) : varRefs (List.replicate n .dead) = [] := by
  induction n with
  | zero => rfl
  | succ n ih => rw [List.replicate_succ]; exact ih

section
variable [CompilerTypes]

/-! ### What can be seen of a value without the heap -/

inductive TreeShape where
  | group (d : Delimiter) (s : Span)
  | ident (sym : List Char) (raw : Bool) (s : Span)
  | punct (ch : Char) (sp : Spacing) (s : Span)
  | literal (r : List Char) (s : Span)

inductive Shape where
  | stream
  | tree (t : TreeShape)
  | iter (n : Nat)
  | span (s : Span)
  | error (s : Span)
  | delim (s : Span)
  | plain (p : Plain)

def hshape : HTree → TreeShape
  | .group d _ s => .group d s
  | .ident sym raw s => .ident sym raw s
  | .punct ch sp s => .punct ch sp s
  | .literal r s => .literal r s

def tshape : TokenTree → TreeShape
  | .group d _ s => .group d s
  | .ident sym raw s => .ident sym raw s
  | .punct ch sp s => .punct ch sp s
  | .literal r s => .literal r s

def hvShape : HValue → Shape
  | .stream _ => .stream
  | .tree t => .tree (hshape t)
  | .iter l => .iter l.length
  | .span s => .span s
  | .error s => .error s
  | .delim s => .delim s
  | .datum d => .plain (plainOf d)

def fvShape : FValue → Shape
  | .stream _ => .stream
  | .tree t => .tree (tshape t)
  | .iter ts => .iter ts.length
  | .span s => .span s
  | .error s => .error s
  | .delim _ _ s => .delim s
  | .plain p => .plain p

/-- The tokens of a value. -/
def fval : FValue → Val
  | .stream ts => .stream ts
  | .tree t => .tree t
  | .iter ts => .owned ts
  | _ => .dead

def ofVal : Val → FValue
  | .stream ts => .stream ts
  | .tree t => .tree t
  | .owned ts => .iter ts
  | _ => .plain .none

def withVal (f : FValue) (w : Val) : FValue :=
  match fval f with
  | .dead => f
  | _ => ofVal w

theorem shows_shape {h : Heap} {t : HTree} {t' : TokenTree} (hs : Shows h [t] [t']) : hshape t = tshape t' := by
  cases hs <;> rfl

theorem shows_length {h : Heap} {l : List HTree} {ts : List TokenTree} (hs : Shows h l ts) : l.length = ts.length := by
  induction hs with
  | nil => rfl
  | ident _ ih | punct _ ih | literal _ ih => simp [ih]
  | group _ _ _ _ ih => simp [ih]

theorem holds_shape {h : Heap} {r : Root} {w : Val} (hh : Spec.Holds h r w) : hvShape (.ofRoot r) = fvShape (ofVal w) := by
  cases hh with
  | dead | stream | borrowed => rfl
  | tree hs => simp only [HValue.ofRoot, ofVal, hvShape, fvShape, shows_shape hs]
  | owned hs => simp only [HValue.ofRoot, ofVal, hvShape, fvShape, shows_length hs]

theorem root_ofRoot {r : Root} (hb : ∀ a, r ≠ .borrowed a) : (HValue.ofRoot r).root = r := by
  cases r <;> first | rfl | exact absurd rfl (hb _)

theorem fval_ofVal {w : Val} (hb : ∀ ts, w ≠ .borrowed ts) : fval (ofVal w) = w := by
  cases w <;> first | rfl | exact absurd rfl (hb _)

/-- Heap and values agree. -/
structure RelA (s : HState) (f : FState) : Prop where
  sm : s.sm = f.sm
  rel : Rel s.state (f.vars.map fval)
  shape : s.vars.map hvShape = f.vars.map fvShape

theorem RelA.len {s : HState} {f : FState} (hR : RelA s f) : s.vars.length = f.vars.length := by
  have := congrArg List.length hR.shape
  simpa using this

theorem root_dead {v : HValue} {w : FValue} (h : hvShape v = fvShape w) : v.root = .dead ↔ fval w = .dead := by
  cases v <;> cases w <;> simp [hvShape, fvShape] at h <;> simp [HValue.root, fval]

theorem zip_core {h : Heap} : ∀ {hv : List HValue} {fv : List FValue} {q1 : List Root} {vals : List Val},
    hv.map hvShape = fv.map fvShape → HoldsL h q1 vals → fv.length = vals.length →
    (∀ p ∈ fv.zip vals, fval p.1 = .dead → p.2 = .dead) → (∀ ts, Val.borrowed ts ∉ vals) → ∀ (q2 : List Root),
    (List.zipWith HValue.withRoot hv (q1 ++ q2)).map HValue.root = q1 ∧
    (List.zipWith withVal fv vals).map fval = vals ∧
    (List.zipWith HValue.withRoot hv (q1 ++ q2)).map hvShape = (List.zipWith withVal fv vals).map fvShape
  | [], [], _, _, _, hh, hl, _, _, q2 => by
    cases hh with
    | nil => simp
    | cons => cases hl
  | _ :: _, [], _, _, hs, _, _, _, _, _ => by cases hs
  | [], _ :: _, _, _, hs, _, _, _, _, _ => by cases hs
  | x :: hv, y :: fv, _, _, hs, hh, hl, hd, hb, q2 => by
    cases hh with
    | nil => cases hl
    | @cons r w q1 vals h1 h2 =>
      simp only [List.map_cons, List.cons.injEq] at hs
      obtain ⟨i1, i2, i3⟩ := zip_core hs.2 h2 (by simpa using hl) (fun p hp => hd p (by simp [hp]))
        (fun ts hm => hb ts (by simp [hm])) q2
      have hw : ∀ ts, w ≠ .borrowed ts := fun ts e => hb ts (by simp [e])
      have hr : ∀ a, r ≠ .borrowed a := by
        rintro a rfl
        cases h1
        exact hw _ rfl
      have h0 := root_dead hs.1
      simp only [List.cons_append, List.zipWith_cons_cons, List.map_cons, i1, i2, i3, List.cons.injEq, and_true]
      by_cases e : fval y = .dead
      · have e1 := h0.mpr e
        have e2 : w = .dead := hd (y, w) (by simp) e
        subst e2
        cases h1
        simp only [HValue.withRoot, withVal, e, e1, hs.1, and_self]
      · have e1 : x.root ≠ .dead := fun h => e (h0.mp h)
        have w1 : x.withRoot r = .ofRoot r := by
          unfold HValue.withRoot
          cases e' : x.root <;> first | rfl | exact absurd e' e1
        have w2 : withVal y w = ofVal w := by
          unfold withVal
          cases e' : fval y <;> first | rfl | exact absurd e' e
        rw [w1, w2]
        exact ⟨root_ofRoot hr, fval_ofVal hw, holds_shape h1⟩

/-- After operations on the heap. -/
theorem RelA.after {s : HState} {f : FState} (hR : RelA s f) {st : State} {vals : List Val} {a : Nat}
    (hst : Rel st (vals ++ List.replicate a .dead)) (hl : f.vars.length = vals.length)
    (hd : ∀ p ∈ f.vars.zip vals, fval p.1 = .dead → p.2 = .dead) (hb : ∀ ts, Val.borrowed ts ∉ vals) :
    RelA (s.after st) ⟨f.sm, List.zipWith withVal f.vars vals⟩ := by
  obtain ⟨q1, q2, e, h1, h2⟩ := hst.all.split
  obtain ⟨i1, i2, i3⟩ := zip_core hR.shape h1 hl hd hb q2
  obtain ⟨h, q⟩ := st
  simp only at e h1 h2
  subst e
  refine ⟨hR.sm, ?_, i3⟩
  show Rel ⟨h, (List.zipWith HValue.withRoot s.vars (q1 ++ q2)).map HValue.root⟩ ((List.zipWith withVal f.vars vals).map fval)
  rw [i1, i2]
  refine hst.sub h1 ?_ hb
  rw [varRefs_append, h2.dead, varRefs_replicate, List.append_nil]

/-- After operations on the heap with a result. -/
theorem RelA.afterPush {s : HState} {f : FState} (hR : RelA s f) {st : State} {vals : List Val} {a b : Nat} {w : Val}
    (hst : Rel st (vals ++ (List.replicate a .dead ++ w :: List.replicate b .dead))) (hl : f.vars.length = vals.length)
    (hd : ∀ p ∈ f.vars.zip vals, fval p.1 = .dead → p.2 = .dead) (hb : ∀ ts, Val.borrowed ts ∉ vals)
    (hw : ∀ ts, w ≠ .borrowed ts) :
    ∃ r, st.vars[s.vars.length + a]? = some r ∧
      RelA ((s.after st).push (.ofRoot r)) ⟨f.sm, List.zipWith withVal f.vars vals ++ [ofVal w]⟩ := by
  obtain ⟨q1, q2, e, h1, h2⟩ := hst.all.split
  obtain ⟨q3, q4, e', h3, h4⟩ := h2.split
  cases h4 with
  | @cons r _ q5 _ h5 h6 =>
  obtain ⟨i1, i2, i3⟩ := zip_core hR.shape h1 hl hd hb q2
  obtain ⟨h, q⟩ := st
  simp only at e e' h1 h2 h3 h5 h6
  have hr : ∀ a, r ≠ .borrowed a := by
    rintro a rfl
    cases h5
    exact hw _ rfl
  have l1 := h1.length
  have l3 := h3.length
  have hlen := hR.len
  refine ⟨r, ?_, hR.sm, ?_, ?_⟩
  · show q[s.vars.length + a]? = _
    rw [e, e', ← List.append_assoc]
    simp only [List.length_replicate] at l3
    rw [List.getElem?_append_right (by simp; omega)]
    simp [show s.vars.length + a - (q1.length + q3.length) = 0 by omega]
  · show Rel ⟨h, (List.zipWith HValue.withRoot s.vars q ++ [HValue.ofRoot r]).map HValue.root⟩ _
    rw [e, List.map_append, List.map_append, i1, i2]
    simp only [List.map_cons, List.map_nil, root_ofRoot hr, fval_ofVal hw]
    refine hst.sub (h1.append (.cons h5 .nil)) ?_ ?_
    · show varRefs (q1 ++ [r]) = varRefs q
      rw [e, e', h3.dead, h6.dead]
      have : ∀ n, varRefs (r :: List.replicate n .dead) = varRefs [r] := fun n => by
        show rootRefs r ++ varRefs (List.replicate n .dead) = rootRefs r ++ []
        rw [varRefs_replicate]
      simp only [varRefs_append, varRefs_replicate, this, List.nil_append]
    · intro ts hm
      rcases List.mem_append.mp hm with hm | hm
      · exact hb ts hm
      · simp only [List.mem_singleton] at hm
        exact hw ts hm.symm
  · show (List.zipWith HValue.withRoot s.vars q ++ [HValue.ofRoot r]).map hvShape = _
    rw [e, List.map_append, List.map_append, i3]
    simp only [List.map_cons, List.map_nil, holds_shape h5]

/-! ### Values after operations -/

theorem withVal_self (x : FValue) : withVal x (fval x) = x := by cases x <;> rfl

theorem zip_self (fv : List FValue) : List.zipWith withVal fv (fv.map fval) = fv := by
  induction fv with
  | nil => rfl
  | cons x fv ih => simp only [List.map_cons, List.zipWith_cons_cons, withVal_self, ih]

theorem zip_set : ∀ {fv : List FValue} (vals : List Val) {i : Nat} {x : FValue} (w : Val), fv[i]? = some x → fval x ≠ .dead →
    fv.length = vals.length → List.zipWith withVal fv (vals.set i w) = (List.zipWith withVal fv vals).set i (ofVal w)
  | y :: fv, u :: vals, 0, x, w, h, hx, _ => by
    cases h
    have : withVal y w = ofVal w := by
      unfold withVal
      cases e : fval y <;> first | rfl | exact absurd e hx
    simp only [List.set_cons_zero, List.zipWith_cons_cons, this]
  | y :: fv, u :: vals, i + 1, x, w, h, hx, hl => by
    simp only [List.set_cons_succ, List.zipWith_cons_cons]
    rw [zip_set (fv := fv) (i := i) vals w h hx (by simpa using hl)]
  | [], _, _, _, _, h, _, _ => by simp at h
  | _ :: _, [], _, _, _, _, _, hl => by simp at hl

theorem kill_eq : ∀ (is : List Nat) (f : FState), f.kill is = ⟨f.sm, (FState.kill f is).vars⟩
  | [], _ => rfl
  | i :: is, f => by
    simp only [FState.kill]
    rw [kill_eq is]
    rfl

theorem kill_sm (sm : SourceMap) : ∀ (is : List Nat) (vars : List FValue), ((⟨sm, vars⟩ : FState).kill is).sm = sm
  | [], _ => rfl
  | i :: is, vars => kill_sm sm is _

/-- Token values in the variables `is`. -/
def Tokens (fv : List FValue) (is : List Nat) : Prop := ∀ i ∈ is, ∃ x, fv[i]? = some x ∧ fval x ≠ .dead

theorem zip_kill {fv : List FValue} {sm : SourceMap} : ∀ (is : List Nat) (vals : List Val), Tokens fv is →
    fv.length = vals.length →
    (⟨sm, List.zipWith withVal fv (killv vals is)⟩ : FState) = (⟨sm, List.zipWith withVal fv vals⟩ : FState).kill is
  | [], _, _, _ => rfl
  | i :: is, vals, h, hl => by
    obtain ⟨x, hx, hd⟩ := h i (by simp)
    simp only [killv, FState.kill]
    rw [zip_kill is _ (fun j hj => h j (by simp [hj])) (by simpa using hl), zip_set vals _ hx hd hl]
    rfl

theorem dead_self (fv : List FValue) : ∀ p ∈ fv.zip (fv.map fval), fval p.1 = .dead → p.2 = .dead := by
  induction fv with
  | nil => intro p hp; cases hp
  | cons x fv ih =>
    intro p hp
    simp only [List.map_cons, List.zip_cons_cons, List.mem_cons] at hp
    rcases hp with rfl | hp
    · exact id
    · exact ih p hp

theorem dead_set : ∀ {fv : List FValue} {vals : List Val} {i : Nat} {w : Val},
    (∀ p ∈ fv.zip vals, fval p.1 = .dead → p.2 = .dead) → (∀ x, fv[i]? = some x → fval x = .dead → w = .dead) →
    ∀ p ∈ fv.zip (vals.set i w), fval p.1 = .dead → p.2 = .dead
  | [], _, _, _, _, _, p, hp => by simp at hp
  | _ :: _, [], _, _, _, _, p, hp => by simp at hp
  | y :: fv, u :: vals, 0, w, h, hw, p, hp => by
    simp only [List.set_cons_zero, List.zip_cons_cons, List.mem_cons] at hp
    rcases hp with rfl | hp
    · exact hw y rfl
    · exact h p (by simp [hp])
  | y :: fv, u :: vals, i + 1, w, h, hw, p, hp => by
    simp only [List.set_cons_succ, List.zip_cons_cons, List.mem_cons] at hp
    rcases hp with rfl | hp
    · exact h _ (by simp)
    · exact dead_set (fv := fv) (vals := vals) (i := i) (fun p hp => h p (by simp [hp])) (fun x hx => hw x hx) p hp

theorem dead_kill {fv : List FValue} : ∀ (is : List Nat) {vals : List Val},
    (∀ p ∈ fv.zip vals, fval p.1 = .dead → p.2 = .dead) → ∀ p ∈ fv.zip (killv vals is), fval p.1 = .dead → p.2 = .dead
  | [], _, h => h
  | _ :: is, _, h => dead_kill is (dead_set h (fun _ _ _ => rfl))

theorem borrowed_self (fv : List FValue) (ts : List TokenTree) : Val.borrowed ts ∉ fv.map fval := by
  intro h
  obtain ⟨x, -, hx⟩ := List.mem_map.mp h
  cases x <;> cases hx

theorem borrowed_set {vals : List Val} {i : Nat} {w : Val} (h : ∀ ts, Val.borrowed ts ∉ vals) (hw : ∀ ts, w ≠ .borrowed ts)
    (ts : List TokenTree) : Val.borrowed ts ∉ vals.set i w := by
  intro hm
  rcases List.mem_or_eq_of_mem_set hm with hm | hm
  · exact h ts hm
  · exact hw ts hm.symm

theorem borrowed_kill : ∀ (is : List Nat) {vals : List Val}, (∀ ts, Val.borrowed ts ∉ vals) →
    ∀ ts, Val.borrowed ts ∉ killv vals is
  | [], _, h => h
  | _ :: is, _, h => borrowed_kill is (borrowed_set h (fun _ => by simp))

end

end PM2
