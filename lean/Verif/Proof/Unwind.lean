import Verif.Spec.Unwind
import Verif.Props.HeapParse
/-! # Iterators of the user and panics: the heap refines values -/

set_option linter.unusedSectionVars false
set_option linter.unusedSimpArgs false

namespace PM2
open Heap Spec Props

/-- A stream that is being extended cannot be used. -/
def hide : Val → Val
  | .borrowed _ => .dead
  | w => w

/-- The same streams are being extended, and hold the same. -/
structure Kept (b b' : List Val) : Prop where
  len : b.length ≤ b'.length
  same : ∀ (k : Nat) ts, b'[k]? = some (.borrowed ts) ↔ b[k]? = some (.borrowed ts)

theorem Kept.refl (b : List Val) : Kept b b := ⟨Nat.le_refl _, fun _ _ => Iff.rfl⟩

theorem Kept.trans {a b c : List Val} (h : Kept a b) (h' : Kept b c) : Kept a c :=
  ⟨Nat.le_trans h.len h'.len, fun k ts => (h'.same k ts).trans (h.same k ts)⟩

def NotB (w : Val) : Prop := ∀ ts, w ≠ .borrowed ts

theorem kept_set {b : List Val} {i : Nat} {w x : Val} (hw : b[i]? = some w) (h1 : NotB w) (h2 : NotB x) : Kept b (b.set i x) := by
  refine ⟨by simp, fun k ts => ?_⟩
  by_cases e : i = k
  · subst e
    rw [List.getElem?_set_self (List.getElem?_eq_some_iff.mp hw).1, hw]
    simp only [Option.some.injEq]
    exact ⟨fun h => absurd h (h2 ts), fun h => absurd h (h1 ts)⟩
  · rw [List.getElem?_set_ne e]

theorem kept_app {b l : List Val} (h : ∀ x ∈ l, NotB x) : Kept b (b ++ l) := by
  refine ⟨by simp, fun k ts => ?_⟩
  by_cases e : k < b.length
  · rw [List.getElem?_append_left e]
  · rw [List.getElem?_append_right (by omega), List.getElem?_eq_none (l := b) (by omega)]
    constructor
    · intro h'
      exact absurd rfl (h _ (List.mem_of_getElem? h') ts)
    · intro h'; cases h'

theorem kept_one {b : List Val} {x : Val} (h : NotB x) : Kept b (b ++ [x]) := kept_app (by simpa using h)

theorem hide_get {b : List Val} {i : Nat} : (b.map hide)[i]? = (b[i]?).map hide := List.getElem?_map

theorem notB_owned (ts) : NotB (.owned ts) := fun _ h => by cases h
theorem notB_stream (ts) : NotB (.stream ts) := fun _ h => by cases h
theorem notB_tree (t) : NotB (.tree t) := fun _ h => by cases h
theorem notB_dead : NotB .dead := fun _ h => by cases h

/-- A call does the same if streams that are being extended are hidden. -/
theorem vstep_hide {b : List Val} {o : Heap.Op} (h : (Act.op o).isCall = true) :
    vstep (b.map hide) o = (vstep b o).map (·.map hide) := by
  cases o with
  | makeMut | pushMut | extendMut | pushMutPM | endMut => simp [Act.isCall] at h
  | builder => simp [vstep, hide]
  | leaf t => simp only [vstep]; cases leafValue t <;> simp [hide]
  | build i | cloneStream i | cloneTree i | cloneOwned i | dropStream i | dropTree i | dropOwned i | intoOwned i
  | groupNew d i | setSpan i sp =>
    simp only [vstep, hide_get]
    cases b[i]? with
    | none => rfl
    | some w => cases w <;> simp [hide, List.map_set]
  | next i =>
    simp only [vstep, hide_get]
    cases b[i]? with
    | none => rfl
    | some w =>
      cases w with
      | owned ts => cases ts <;> simp [hide, List.map_set]
      | _ => simp [hide]
  | groupStream i =>
    simp only [vstep, hide_get]
    cases b[i]? with
    | none => rfl
    | some w =>
      cases w with
      | tree t => cases t <;> simp [hide, List.map_set]
      | _ => simp [hide]
  | pushOwned i j | pushOwnedPM i j =>
    simp only [vstep, hide_get]
    cases b[i]? with
    | none => rfl
    | some w =>
      cases b[j]? with
      | none => cases w <;> rfl
      | some x => cases w <;> cases x <;> simp [hide, List.map_set]
  | extendOwned i j =>
    simp only [vstep, hide_get]
    cases b[i]? with
    | none => rfl
    | some w =>
      cases b[j]? with
      | none => cases w <;> rfl
      | some x =>
        cases w <;> cases x <;> simp [hide, List.map_set]
        split <;> simp [hide, List.map_set]

/-- And it changes none of them. -/
theorem vstep_kept {b b' : List Val} {o : Heap.Op} (h : (Act.op o).isCall = true) (e : vstep b o = some b') : Kept b b' := by
  cases o with
  | makeMut | pushMut | extendMut | pushMutPM | endMut => simp [Act.isCall] at h
  | builder => simp only [vstep, Option.some.injEq] at e; subst e; exact kept_one (notB_owned _)
  | leaf t =>
    simp only [vstep] at e
    split at e <;> simp at e
    subst e
    exact kept_one (notB_tree _)
  | cloneStream i | cloneTree i | cloneOwned i | groupStream i =>
    simp only [vstep] at e
    split at e <;> simp at e
    subst e
    exact kept_one (by first | exact notB_stream _ | exact notB_tree _ | exact notB_owned _)
  | dropStream i | dropTree i | dropOwned i | setSpan i sp =>
    simp only [vstep] at e
    split at e <;> simp at e
    rename_i hw
    subst e
    exact kept_set hw (by first | exact notB_stream _ | exact notB_tree _ | exact notB_owned _)
      (by first | exact notB_dead | exact notB_tree _)
  | build i | intoOwned i | groupNew d i =>
    simp only [vstep] at e
    split at e <;> simp at e
    rename_i hw
    subst e
    refine (kept_set hw ?_ notB_dead).trans (b := _) (c := _) ?_
    · first | exact notB_stream _ | exact notB_tree _ | exact notB_owned _
    · rw [show ∀ (x : Val), b.set i .dead ++ [x] = b.set i .dead ++ [x] from fun _ => rfl]
      exact kept_one (by first | exact notB_stream _ | exact notB_tree _ | exact notB_owned _)
  | next i =>
    simp only [vstep] at e
    split at e <;> simp at e
    · rename_i hw
      subst e
      exact (kept_set hw (notB_owned _) (notB_owned _)).trans (kept_one (notB_tree _))
    · subst e; exact .refl _
  | pushOwned i j | pushOwnedPM i j =>
    simp only [vstep] at e
    split at e <;> simp at e
    rename_i hi hj
    subst e
    refine (kept_set hj (notB_tree _) notB_dead).trans ?_
    have hne : j ≠ i := by rintro rfl; rw [hi] at hj; cases hj
    exact kept_set (by rw [List.getElem?_set_ne hne]; exact hi) (notB_owned _) (notB_owned _)
  | extendOwned i j =>
    simp only [vstep] at e
    split at e <;> try simp at e
    rename_i hi hj
    obtain ⟨hne, e⟩ := e
    subst e
    refine (kept_set hj (notB_owned _) notB_dead).trans ?_
    exact kept_set (by rw [List.getElem?_set_ne (Ne.symm hne)]; exact hi) (notB_owned _) (notB_owned _)

theorem hints_eq : ∀ it : Iter, it.hints = endsInHint it
  | .stop _ => rfl
  | .yield _ _ it => hints_eq it
  | .hint .. => rfl

section
variable [UnicodeTables]

theorem same_bind {ε δ α β α' β' : Type} {ok : α → β → Prop} {ok' : α' → β' → Prop} {er : ε → δ → Prop} {x : Res ε α}
    {y : Res δ β} {f : α → Res ε α'} {g : β → Res δ β'} (h : Same ok er x y) (h' : ∀ a b, ok a b → Same ok' er (f a) (g b)) :
    Same ok' er (x >>= f) (y >>= g) := by
  cases x <;> cases y <;> first | exact h.elim | skip
  · exact h' _ _ h
  · exact h
  · trivial
  · trivial

theorem step_same {s : State} {b : List Val} (hR : Rel s b) (o : Heap.Op) :
    (∃ b' s', vstep b o = some b' ∧ Heap.step s o = .ok s' ∧ Rel s' b') ∨ (vstep b o = none ∧ Heap.step s o = .err ()) := by
  cases e : vstep b o with
  | none => exact .inr ⟨rfl, step_none hR e⟩
  | some b' =>
    obtain ⟨s', h1, h2⟩ := step_spec hR e
    exact .inl ⟨b', s', rfl, h1, h2⟩

/-- How code ends on values and on the heap. -/
def Ends (b : List Val) (x : SourceMap × List Val × Bool) (y : SourceMap × State × Bool) : Prop :=
  y.1 = x.1 ∧ y.2.2 = x.2.2 ∧ ∃ b', Rel y.2.1 b' ∧ b'.map hide = x.2.1 ∧ Kept b b'

/-- How an iterator ends while the stream `i` is extended, which held `ts`. -/
def EndsAt (b : List Val) (i : Nat) (ts : List TokenTree) (x : SourceMap × List Val × List TokenTree × Bool)
    (y : SourceMap × State × Bool) : Prop :=
  y.1 = x.1 ∧ y.2.2 = x.2.2.2 ∧ ∃ b', Rel y.2.1 b' ∧ b'.map hide = x.2.1 ∧ b'[i]? = some (.borrowed (ts ++ x.2.2.1)) ∧
    b.length ≤ b'.length ∧ ∀ (k : Nat) us, k ≠ i → (b'[k]? = some (.borrowed us) ↔ b[k]? = some (.borrowed us))

theorem act_hide {s : State} {b : List Val} (hR : Rel s b) (sm : SourceMap) (a : Act) (h : a.isCall = true) :
    Same (fun x y => y.1 = x.1 ∧ ∃ b', Rel y.2 b' ∧ b'.map hide = x.2 ∧ Kept b b') (fun _ _ => True)
      (vact sm (b.map hide) a) (act sm s a) := by
  have key := act_same hR sm a
  cases a with
  | op o =>
    simp only [vact, vstep_hide h] at key ⊢
    cases e : vstep b o with
    | none =>
      rw [e] at key
      simp only [Option.map_none] at key ⊢
      generalize act sm s (.op o) = y at key
      cases y <;> first | exact key.elim | exact key
    | some b' =>
      rw [e] at key
      simp only [Option.map_some] at key ⊢
      generalize act sm s (.op o) = y at key
      cases y <;> first | exact key.elim | skip
      exact ⟨key.1, b', key.2, rfl, vstep_kept h e⟩
  | parse src =>
    simp only [vact] at key ⊢
    generalize TokenStream.fromStr sm src = x at key ⊢
    generalize act sm s (.parse src) = y at key ⊢
    obtain ⟨sm1, x⟩ := x
    cases x <;> cases y <;> first | exact key.elim | skip
    · exact ⟨key.1, _, key.2, by simp [hide], kept_one (notB_stream _)⟩
    · exact ⟨key.1, _, key.2, rfl, .refl _⟩
    · trivial
    · trivial

theorem dropVar_same {s : State} {b : List Val} (hR : Rel s b) {k : Nat} (hk : k < b.length) (hn : ∀ ts, b[k]? ≠ some (.borrowed ts)) :
    ∃ s', dropVar s k = .ok s' ∧ Rel s' (b.set k .dead) := by
  have hw : b[k]? = some b[k] := List.getElem?_eq_getElem hk
  obtain ⟨r, hr, hh⟩ := hR.val hw
  generalize b[k] = w at hw hh
  cases hh with
  | dead =>
    refine ⟨s, by simp [dropVar, hr], ?_⟩
    rw [set_self_eq hw]; exact hR
  | borrowed => exact absurd hw (hn _)
  | stream | tree | owned =>
    simp only [dropVar, hr]
    exact step_spec hR (by simp only [vstep, hw])

theorem dropFrom_same : ∀ (m : Nat) {n : Nat} {s : State} {b : List Val}, Rel s b → n + m ≤ b.length →
    (∀ (k : Nat) ts, n ≤ k → b[k]? ≠ some (.borrowed ts)) →
    ∃ s' b', dropFrom n m s = .ok s' ∧ Rel s' b' ∧ b'.length = b.length ∧
      ∀ (k : Nat), k < b.length → b'[k]? = if n ≤ k ∧ k < n + m then some .dead else b[k]?
  | 0, n, s, b, hR, _, _ => ⟨s, b, rfl, hR, rfl, fun k hk => by rw [if_neg (by omega)]⟩
  | m + 1, n, s, b, hR, hl, hn => by
    obtain ⟨s1, e1, hR1⟩ := dropVar_same hR (k := n + m) (by omega) (fun ts => hn _ ts (by omega))
    obtain ⟨s', b', e2, hR2, hl2, h2⟩ := dropFrom_same m (n := n) hR1 (by simp; omega) (by
      intro k ts hk
      by_cases e : n + m = k
      · subst e; rw [List.getElem?_set_self (by omega)]; simp
      · rw [List.getElem?_set_ne e]; exact hn k ts hk)
    refine ⟨s', b', ?_, hR2, by simpa using hl2, fun k hk => ?_⟩
    · simp only [dropFrom, e1, bind, Res.bind]; exact e2
    · rw [h2 k (by simpa using hk)]
      by_cases e : n + m = k
      · subst e
        rw [if_neg (by omega), if_pos (by omega), List.getElem?_set_self (by omega)]
      · rw [List.getElem?_set_ne e]
        by_cases e' : n ≤ k ∧ k < n + m
        · rw [if_pos e', if_pos (by omega)]
        · rw [if_neg e', if_neg (by omega)]

theorem Kept.length_le {b b' : List Val} (hk : Kept b b') : ∀ (k : Nat) ts, b.length ≤ k → b'[k]? ≠ some (.borrowed ts) := by
  intro k ts h e
  have := (hk.same k ts).mp e
  rw [List.getElem?_eq_none h] at this
  cases this

theorem step_ok {s : State} {b b' : List Val} (hR : Rel s b) {o : Heap.Op} (e : vstep b o = some b') :
    ∃ s', Heap.step s o = .ok s' ∧ Rel s' b' := step_spec hR e

theorem hide_inv {b : List Val} {i : Nat} {w : Val} (h : (b.map hide)[i]? = some w) (hw : w ≠ .dead) : b[i]? = some w := by
  rw [hide_get] at h
  cases e : b[i]? with
  | none => rw [e] at h; cases h
  | some x =>
    rw [e] at h
    simp only [Option.map_some, Option.some.injEq] at h
    cases x <;> simp [hide] at h <;> first | (subst h; rfl) | (exact absurd h.symm hw)

/-- The stream is borrowed, the iterator is run, and the borrow ends. -/
theorem extend_same {s : State} {b : List Val} (hR : Rel s b) {i : Nat} {ts : List TokenTree}
    (hi : b[i]? = some (.stream ts)) : ∃ s', Heap.step s (.makeMut i) = .ok s' ∧ Rel s' (b.set i (.borrowed ts)) ∧
      (b.set i (.borrowed ts)).map hide = (b.map hide).set i .dead ∧ (b.set i (.borrowed ts))[i]? = some (.borrowed ts) := by
  obtain ⟨s', e, h⟩ := step_ok hR (o := .makeMut i) (b' := b.set i (.borrowed ts)) (by simp [vstep, hi])
  exact ⟨s', e, h, by simp [List.map_set, hide], List.getElem?_set_self (List.getElem?_eq_some_iff.mp hi).1⟩

theorem extended {b b' : List Val} {i : Nat} {ts us : List TokenTree} {w x : Val} (hi : b[i]? = some w) (hw : NotB w)
    (hx : NotB x) (hb : b'[i]? = some (.borrowed us)) (hl : (b.set i (.borrowed ts)).length ≤ b'.length)
    (hk : ∀ (k : Nat) us, k ≠ i →
      (b'[k]? = some (.borrowed us) ↔ (b.set i (.borrowed ts))[k]? = some (.borrowed us))) : Kept b (b'.set i x) := by
  refine ⟨by simpa using hl, fun k vs => ?_⟩
  by_cases e : k = i
  · subst e
    rw [List.getElem?_set_self (List.getElem?_eq_some_iff.mp hb).1, hi]
    simp only [Option.some.injEq]
    exact ⟨fun h => absurd h (hx vs), fun h => absurd h (hw vs)⟩
  · rw [List.getElem?_set_ne (Ne.symm e), hk k vs e, List.getElem?_set_ne (Ne.symm e)]

theorem takeSome_vrun {i m : Nat} : ∀ (k : Nat) {b : List Val} {ts us : List TokenTree}, b[i]? = some (.borrowed ts) →
    b[m]? = some (.owned us) →
    (us.length ≤ k → vrun b (takeSome i m k b.length) = none) ∧
    (k < us.length → ∃ b', vrun b (takeSome i m k b.length) = some b' ∧
      b' = ((b.set i (.borrowed (ts ++ us.take k))).set m .dead) ++ List.replicate (k + 1) .dead)
  | 0, b, ts, us, hi, hm => by
    have hl := (List.getElem?_eq_some_iff.mp hm).1
    cases us with
    | nil =>
      refine ⟨fun _ => ?_, fun h => absurd h (by simp)⟩
      simp [takeSome, vrun, vstep, hm]
    | cons u us =>
      refine ⟨fun h => absurd h (by simp), fun _ => ⟨_, ?_, rfl⟩⟩
      simp only [takeSome, vrun, vstep, hm, Option.bind_some]
      rw [List.getElem?_append_right (by simp)]
      simp only [List.length_set, Nat.sub_self, List.getElem?_cons_zero, Option.bind_some]
      rw [List.set_append_right _ _ (by simp)]
      simp only [List.length_set, Nat.sub_self, List.set_cons_zero]
      rw [List.getElem?_append_left (by simpa using hl), List.getElem?_set_self hl]
      simp only [Option.bind_some, List.take_zero, List.append_nil]
      rw [List.set_append_left _ _ (by simpa using hl), List.set_set, set_self_eq hi]
      rfl
  | k + 1, b, ts, us, hi, hm => by
    have hl := (List.getElem?_eq_some_iff.mp hm).1
    have hl' := (List.getElem?_eq_some_iff.mp hi).1
    have hne : m ≠ i := by rintro rfl; rw [hi] at hm; cases hm
    cases us with
    | nil =>
      refine ⟨fun _ => ?_, fun h => absurd h (by simp)⟩
      simp [takeSome, vrun, vstep, hm, hi]
    | cons u us =>
      have e1 : vrun b (takeSome i m (k + 1) b.length) =
          vrun ((b.set m (.owned us)).set i (.borrowed (ts ++ [u])) ++ [.dead]) (takeSome i m k (b.length + 1)) := by
        simp only [takeSome, vrun, vstep, hm, Option.bind_some]
        rw [List.getElem?_append_left (by simpa using hl'), List.getElem?_set_ne hne, hi,
          List.getElem?_append_right (by simp)]
        simp only [List.length_set, Nat.sub_self, List.getElem?_cons_zero, Option.bind_some]
        rw [List.set_append_right _ _ (by simp)]
        simp only [List.length_set, Nat.sub_self, List.set_cons_zero]
        rw [List.set_append_left _ _ (by simpa using hl')]
      have hlen : b.length + 1 = ((b.set m (.owned us)).set i (.borrowed (ts ++ [u])) ++ [Val.dead]).length := by simp
      obtain ⟨h1, h2⟩ := takeSome_vrun k (b := (b.set m (.owned us)).set i (.borrowed (ts ++ [u])) ++ [.dead])
        (ts := ts ++ [u]) (us := us)
        (by rw [List.getElem?_append_left (by simpa using hl')]; exact List.getElem?_set_self (by simpa using hl'))
        (by rw [List.getElem?_append_left (by simpa using hl), List.getElem?_set_ne (Ne.symm hne)]
            exact List.getElem?_set_self hl)
      rw [← hlen] at h1 h2
      rw [e1]
      refine ⟨fun h => h1 (by simpa using h), fun h => ?_⟩
      obtain ⟨b', h3, h4⟩ := h2 (by simpa using h)
      refine ⟨b', h3, ?_⟩
      rw [h4, List.set_append_left _ _ (by simpa using hl'), List.set_append_left _ _ (by simpa using hl), List.set_set,
        List.set_comm (Val.owned us) _ hne, List.set_set, List.append_assoc]
      simp [List.replicate_succ]

/-- one element of an iterator is done: the rest goes on from `b1` -/
theorem EndsAt.step {b b1 : List Val} {i : Nat} {ts us : List TokenTree} {x : SourceMap × List Val × List TokenTree × Bool}
    {y : SourceMap × State × Bool} (h : EndsAt b1 i (ts ++ us) x y) (hl : b.length ≤ b1.length)
    (hk : ∀ (k : Nat) vs, k ≠ i → (b1[k]? = some (.borrowed vs) ↔ b[k]? = some (.borrowed vs))) :
    EndsAt b i ts (x.1, x.2.1, us ++ x.2.2.1, x.2.2.2) y := by
  obtain ⟨h1, h2, b', hR, hb, hi, hl', hk'⟩ := h
  refine ⟨h1, h2, b', hR, hb, by rw [← List.append_assoc]; exact hi, Nat.le_trans hl hl', fun k vs e => ?_⟩
  exact (hk' k vs e).trans (hk k vs e)

/-- the iterator ends after code that ended as `Ends` says -/
theorem Ends.stop {b : List Val} {i : Nat} {ts : List TokenTree} {x : SourceMap × List Val × Bool}
    {y : SourceMap × State × Bool} (h : Ends b x y) (hi : b[i]? = some (.borrowed ts)) :
    EndsAt b i ts (x.1, x.2.1, [], x.2.2) y := by
  obtain ⟨h1, h2, b', hR, hb, hk⟩ := h
  exact ⟨h1, h2, b', hR, hb, by rw [List.append_nil]; exact (hk.same _ _).mpr hi, hk.len, fun k vs _ => hk.same k vs⟩

theorem set_kept_but {b1 : List Val} {i j : Nat} {x w : Val} {z : List Val} {us : List TokenTree} (hj : b1[j]? = some w)
    (hw : NotB w) (hz : ∀ u ∈ z, NotB u) (hx : x = .borrowed us) :
    b1.length ≤ ((b1.set j .dead).set i x ++ z).length ∧
    ∀ (k : Nat) vs, k ≠ i → (((b1.set j .dead).set i x ++ z)[k]? = some (.borrowed vs) ↔ b1[k]? = some (.borrowed vs)) := by
  refine ⟨by simp, fun k vs e => ?_⟩
  have h1 := (kept_app (b := (b1.set j .dead).set i x) hz).same k vs
  rw [h1, List.getElem?_set_ne (Ne.symm e)]
  exact (kept_set hj hw notB_dead).same k vs

mutual
theorem execCode_same : ∀ (c : Code) {s : State} {b : List Val} (_ : Rel s b) (sm : SourceMap),
    Same (Ends b) (fun _ _ => True) (vexec c sm (b.map hide)) (execCode c sm s)
  | .skip, s, b, hR, sm => by
    simp only [vexec, execCode]
    exact ⟨rfl, rfl, b, hR, rfl, .refl _⟩
  | .panic, s, b, hR, sm => by
    simp only [vexec, execCode]
    exact ⟨rfl, rfl, b, hR, rfl, .refl _⟩
  | .act a, s, b, hR, sm => by
    simp only [vexec, execCode]
    split
    · trivial
    · rename_i h
      split
      · exact ⟨rfl, rfl, b, hR, rfl, .refl _⟩
      · refine same_bind (act_hide hR sm a (by simpa using h)) ?_
        rintro ⟨sm1, v1⟩ ⟨sm2, s2⟩ ⟨h1, b', h2, h3, h4⟩
        exact ⟨h1, rfl, b', h2, h3, h4⟩
  | .invalidate, s, b, hR, sm => by
    simp only [vexec, execCode]
    exact ⟨rfl, rfl, b, hR, rfl, .refl _⟩
  | .seq c d, s, b, hR, sm => by
    simp only [vexec, execCode]
    refine same_bind (execCode_same c hR sm) ?_
    rintro ⟨sm1, v1, p1⟩ ⟨sm2, s2, p2⟩ ⟨h1, h2, b', hR', hb, hk⟩
    simp only at h1 h2 hb
    subst h1 h2 hb
    cases p2 with
    | true => exact ⟨rfl, rfl, b', hR', rfl, hk⟩
    | false =>
      simp only [Bool.false_eq_true, if_false]
      have := execCode_same d hR' sm2
      generalize vexec d sm2 (b'.map hide) = x at this ⊢
      generalize execCode d sm2 s2 = y at this ⊢
      cases x <;> cases y <;> first | exact this.elim | skip
      · obtain ⟨h1, h2, b2, hR2, hb2, hk2⟩ := this
        exact ⟨h1, h2, b2, hR2, hb2, hk.trans hk2⟩
      · trivial
      · trivial
      · trivial
  | .catch_ c, s, b, hR, sm => by
    simp only [vexec, execCode]
    refine same_bind (execCode_same c hR sm) ?_
    rintro ⟨sm1, v1, p1⟩ ⟨sm2, s2, p2⟩ ⟨h1, h2, b', hR', hb, hk⟩
    simp only at h1 h2 hb
    subst h1 h2 hb
    cases p2 with
    | false => exact ⟨rfl, rfl, b', hR', rfl, hk⟩
    | true =>
      obtain ⟨s3, b3, e, hR3, hl3, h3⟩ := dropFrom_same (b'.length - b.length) (n := b.length) hR'
        (by have := hk.len; omega) hk.length_le
      simp only [if_true, hR.len, hR'.len, e, bind, Res.bind]
      have hl := hk.len
      refine ⟨rfl, rfl, b3, hR3, ?_, ⟨by rw [hl3]; exact hl, fun k ts => ?_⟩⟩
      · refine List.ext_getElem? fun k => ?_
        rw [hide_get]
        by_cases e1 : k < b'.length
        · rw [h3 k e1]
          by_cases e2 : k < b.length
          · rw [if_neg (by omega), List.getElem?_append_left (by simp; omega),
              List.getElem?_take_of_lt (by simpa using e2), hide_get]
          · rw [if_pos (by omega), List.getElem?_append_right (by simp; omega), List.getElem?_replicate, if_pos (by simp; omega)]
            rfl
        · rw [List.getElem?_eq_none (by omega), List.getElem?_eq_none (by simp; omega)]
          rfl
      · by_cases e1 : k < b'.length
        · rw [h3 k e1]
          by_cases e2 : k < b.length
          · rw [if_neg (by omega)]; exact hk.same k ts
          · rw [if_pos (by omega), List.getElem?_eq_none (l := b) (by omega)]; simp
        · rw [List.getElem?_eq_none (by omega), List.getElem?_eq_none (by omega)]
  | .extendTrees i it, s, b, hR, sm => by
    simp only [vexec, execCode]
    split
    · rename_i ts hi
      have hi := hide_inv hi (by simp)
      obtain ⟨s1, e1, hR1, hb1, hi1⟩ := extend_same hR hi
      simp only [e1, bind, Res.bind]
      rw [← hb1]
      refine same_bind (eachTree_same it hR1 hi1 sm) ?_
      rintro ⟨sm1, v1, us, p1⟩ ⟨sm2, s2, p2⟩ ⟨h1, h2, b', hR', hb, hi', hl, hk⟩
      simp only at h1 h2 hb hi'
      subst h1 h2 hb
      obtain ⟨s3, e3, hR3⟩ := step_ok hR' (o := .endMut i) (b' := b'.set i (.stream (ts ++ us))) (by simp [vstep, hi'])
      simp only [e3, bind, Res.bind]
      exact ⟨rfl, rfl, _, hR3, by simp [List.map_set, hide], extended hi (notB_stream _) (notB_stream _) hi' hl hk⟩
    · rename_i hi
      have : Heap.step s (.makeMut i) = .err () := by
        refine step_none hR ?_
        simp only [vstep]
        split
        · rename_i ts e
          exact absurd (by rw [hide_get, e]; rfl) (hi ts)
        · rfl
      simp only [this, bind, Res.bind]
      trivial
  | .extendStreams i it, s, b, hR, sm => by
    simp only [vexec, execCode]
    split
    · rename_i ts hi
      have hi := hide_inv hi (by simp)
      obtain ⟨s1, e1, hR1, hb1, hi1⟩ := extend_same hR hi
      simp only [e1, bind, Res.bind]
      rw [← hb1]
      refine same_bind (eachStream_same it hR1 hi1 sm) ?_
      rintro ⟨sm1, v1, us, p1⟩ ⟨sm2, s2, p2⟩ ⟨h1, h2, b', hR', hb, hi', hl, hk⟩
      simp only at h1 h2 hb hi'
      subst h1 h2 hb
      obtain ⟨s3, e3, hR3⟩ := step_ok hR' (o := .endMut i) (b' := b'.set i (.stream (ts ++ us))) (by simp [vstep, hi'])
      simp only [e3, bind, Res.bind]
      exact ⟨rfl, rfl, _, hR3, by simp [List.map_set, hide], extended hi (notB_stream _) (notB_stream _) hi' hl hk⟩
    · rename_i hi
      have : Heap.step s (.makeMut i) = .err () := by
        refine step_none hR ?_
        simp only [vstep]
        split
        · rename_i ts e
          exact absurd (by rw [hide_get, e]; rfl) (hi ts)
        · rfl
      simp only [this, bind, Res.bind]
      trivial
  | .collectTrees it, s, b, hR, sm => by
    simp only [vexec, execCode]
    have e0 : vrun b [.builder, .build b.length, .makeMut (b.length + 1)] = some (b ++ [.dead, .borrowed []]) := by
      simp [vrun, vstep]
    obtain ⟨s1, e1, hR1⟩ := run_spec _ hR e0
    have hb1 : (b ++ [Val.dead, Val.borrowed []]).map hide = b.map hide ++ [.dead, .dead] := by simp [hide]
    have hi1 : (b ++ [.dead, .borrowed []])[b.length + 1]? = some (.borrowed []) := by simp
    simp only [hR.len, Nat.add_sub_cancel, e1, bind, Res.bind]
    rw [← hb1]
    refine same_bind (eachTree_same it hR1 hi1 sm) ?_
    rintro ⟨sm1, v1, us, p1⟩ ⟨sm2, s2, p2⟩ ⟨h1, h2, b', hR', hb, hi', hl, hk⟩
    simp only at h1 h2 hb hi'
    rw [List.nil_append] at hi'
    subst h1 h2 hb
    have hk' : ∀ x, NotB x → Kept b (b'.set (b.length + 1) x) := by
      intro x hx
      refine ⟨by simp at hl; simp; omega, fun k vs => ?_⟩
      by_cases e : k = b.length + 1
      · subst e
        rw [List.getElem?_set_self (List.getElem?_eq_some_iff.mp hi').1, List.getElem?_eq_none (l := b) (by omega)]
        simp only [Option.some.injEq]
        exact ⟨fun h => absurd h (hx vs), fun h => by cases h⟩
      · rw [List.getElem?_set_ne (Ne.symm e), hk k vs e]
        by_cases e' : k < b.length
        · rw [List.getElem?_append_left e']
        · rw [List.getElem?_append_right (by omega), List.getElem?_eq_none (l := b) (by omega)]
          by_cases e2 : k = b.length
          · subst e2; simp
          · rw [List.getElem?_eq_none (by simp; omega)]
    have hlt := (List.getElem?_eq_some_iff.mp hi').1
    cases p2 with
    | false =>
      obtain ⟨s3, e3, hR3⟩ := run_spec [.endMut (b.length + 1)] hR' (v' := b'.set (b.length + 1) (.stream us))
        (by simp [vrun, vstep, hi'])
      simp only [Bool.false_eq_true, if_false, e3, List.length_map]
      exact ⟨rfl, rfl, _, hR3, by simp [List.map_set, hide], hk' _ (notB_stream _)⟩
    | true =>
      obtain ⟨s3, e3, hR3⟩ := run_spec [.endMut (b.length + 1), .dropStream (b.length + 1)] hR'
        (v' := b'.set (b.length + 1) .dead) (by
          simp only [vrun, vstep, hi', Option.bind_some, List.getElem?_set_self hlt, List.set_set])
      simp only [if_true, e3, List.length_map]
      exact ⟨rfl, rfl, _, hR3, by simp [List.map_set, hide], hk' _ notB_dead⟩
  | .collectStreams (.stop c), s, b, hR, sm => by
    simp only [vexec, execCode]
    refine same_bind (execCode_same c hR sm) ?_
    rintro ⟨sm1, v1, p1⟩ ⟨sm2, s2, p2⟩ ⟨h1, h2, b', hR', hb, hk⟩
    simp only at h1 h2 hb
    subst h1 h2 hb
    cases p2 with
    | true =>
      simp only [if_true, run, bind, Res.bind, List.append_nil]
      exact ⟨rfl, rfl, b', hR', rfl, hk⟩
    | false =>
      obtain ⟨s3, e3, hR3⟩ := run_spec [.builder, .build b'.length] hR' (v' := b' ++ [.dead, .stream []])
        (by simp [vrun, vstep])
      simp only [Bool.false_eq_true, if_false, hR'.len, e3, bind, Res.bind]
      refine ⟨rfl, rfl, _, hR3, by simp [hide], hk.trans (kept_app ?_)⟩
      simp only [List.mem_cons, List.not_mem_nil, or_false]
      rintro x (rfl | rfl)
      · exact notB_dead
      · exact notB_stream _
  | .collectStreams (.yield c i it), s, b, hR, sm => by
    simp only [vexec, execCode]
    refine same_bind (execCode_same c hR sm) ?_
    rintro ⟨sm1, v1, p1⟩ ⟨sm2, s2, p2⟩ ⟨h1, h2, b0, hR0, hb, hk0⟩
    simp only at h1 h2 hb
    subst h1 h2 hb
    cases p2 with
    | true => exact ⟨rfl, rfl, b0, hR0, rfl, hk0⟩
    | false =>
      simp only [Bool.false_eq_true, if_false]
      split
      · rename_i ts hi
        have hi := hide_inv hi (by simp)
        obtain ⟨s1, e1, hR1, hb1, hi1⟩ := extend_same hR0 hi
        simp only [e1, bind, Res.bind]
        rw [← hb1]
        refine same_bind (eachStream_same it hR1 hi1 sm2) ?_
        rintro ⟨sm3, v1, us, p1⟩ ⟨sm4, s2, p2⟩ ⟨h1, h2, b', hR', hb, hi', hl, hk⟩
        simp only at h1 h2 hb hi'
        subst h1 h2 hb
        have hlt := (List.getElem?_eq_some_iff.mp hi').1
        cases p2 with
        | false =>
          obtain ⟨s3, e3, hR3⟩ := run_spec [.endMut i] hR' (v' := b'.set i (.stream (ts ++ us))) (by simp [vrun, vstep, hi'])
          simp only [Bool.false_eq_true, if_false, e3, bind, Res.bind]
          exact ⟨rfl, rfl, _, hR3, by simp [List.map_set, hide],
            hk0.trans (extended hi (notB_stream _) (notB_stream _) hi' hl hk)⟩
        | true =>
          obtain ⟨s3, e3, hR3⟩ := run_spec [.endMut i, .dropStream i] hR' (v' := b'.set i .dead) (by
            simp only [vrun, vstep, hi', Option.bind_some, List.getElem?_set_self hlt, List.set_set])
          simp only [if_true, e3, bind, Res.bind]
          exact ⟨rfl, rfl, _, hR3, by simp [List.map_set, hide],
            hk0.trans (extended hi (notB_stream _) notB_dead hi' hl hk)⟩
      · rename_i hi
        have : Heap.step s2 (.makeMut i) = .err () := by
          refine step_none hR0 ?_
          simp only [vstep]
          split
          · rename_i ts e
            exact absurd (by rw [hide_get, e]; rfl) (hi ts)
          · rfl
        simp only [this, bind, Res.bind]
        trivial
  | .collectStreams (.hint ..), s, b, hR, sm => by
    simp only [vexec, execCode]
    trivial
  | .gatherStreams it, s, b, hR, sm => by
    simp only [vexec, execCode, hints_eq it]
    cases endsInHint it with
    | true => trivial
    | false =>
    simp only [Bool.false_eq_true, if_false]
    have e0 : vrun b [.builder, .build b.length, .makeMut (b.length + 1)] = some (b ++ [.dead, .borrowed []]) := by
      simp [vrun, vstep]
    obtain ⟨s1, e1, hR1⟩ := run_spec _ hR e0
    have hb1 : (b ++ [Val.dead, Val.borrowed []]).map hide = b.map hide ++ [.dead, .dead] := by simp [hide]
    have hi1 : (b ++ [.dead, .borrowed []])[b.length + 1]? = some (.borrowed []) := by simp
    simp only [hR.len, Nat.add_sub_cancel, e1, bind, Res.bind]
    rw [← hb1]
    refine same_bind (eachStream_same it hR1 hi1 sm) ?_
    rintro ⟨sm1, v1, us, p1⟩ ⟨sm2, s2, p2⟩ ⟨h1, h2, b', hR', hb, hi', hl, hk⟩
    simp only at h1 h2 hb hi'
    rw [List.nil_append] at hi'
    subst h1 h2 hb
    have hk' : ∀ x, NotB x → Kept b (b'.set (b.length + 1) x) := by
      intro x hx
      refine ⟨by simp at hl; simp; omega, fun k vs => ?_⟩
      by_cases e : k = b.length + 1
      · subst e
        rw [List.getElem?_set_self (List.getElem?_eq_some_iff.mp hi').1, List.getElem?_eq_none (l := b) (by omega)]
        simp only [Option.some.injEq]
        exact ⟨fun h => absurd h (hx vs), fun h => by cases h⟩
      · rw [List.getElem?_set_ne (Ne.symm e), hk k vs e]
        by_cases e' : k < b.length
        · rw [List.getElem?_append_left e']
        · rw [List.getElem?_append_right (by omega), List.getElem?_eq_none (l := b) (by omega)]
          by_cases e2 : k = b.length
          · subst e2; simp
          · rw [List.getElem?_eq_none (by simp; omega)]
    have hlt := (List.getElem?_eq_some_iff.mp hi').1
    cases p2 with
    | false =>
      obtain ⟨s3, e3, hR3⟩ := run_spec [.endMut (b.length + 1)] hR' (v' := b'.set (b.length + 1) (.stream us))
        (by simp [vrun, vstep, hi'])
      simp only [Bool.false_eq_true, if_false, e3, List.length_map]
      exact ⟨rfl, rfl, _, hR3, by simp [List.map_set, hide], hk' _ (notB_stream _)⟩
    | true =>
      obtain ⟨s3, e3, hR3⟩ := run_spec [.endMut (b.length + 1), .dropStream (b.length + 1)] hR'
        (v' := b'.set (b.length + 1) .dead) (by
          simp only [vrun, vstep, hi', Option.bind_some, List.getElem?_set_self hlt, List.set_set])
      simp only [if_true, e3, List.length_map]
      exact ⟨rfl, rfl, _, hR3, by simp [List.map_set, hide], hk' _ notB_dead⟩

theorem eachTree_same : ∀ (it : Iter) {s : State} {b : List Val} {i : Nat} {ts : List TokenTree} (_ : Rel s b)
    (_ : b[i]? = some (.borrowed ts)) (sm : SourceMap),
    Same (EndsAt b i ts) (fun _ _ => True) (vtrees it sm (b.map hide)) (eachTree i it sm s)
  | .stop c, s, b, i, ts, hR, hi, sm => by
    simp only [vtrees, eachTree]
    have := execCode_same c hR sm
    generalize vexec c sm (b.map hide) = x at this ⊢
    generalize execCode c sm s = y at this ⊢
    cases x <;> cases y <;> first | exact this.elim | skip
    · exact this.stop hi
    · trivial
    · trivial
    · trivial
  | .yield c j it, s, b, i, ts, hR, hi, sm => by
    simp only [vtrees, eachTree]
    refine same_bind (execCode_same c hR sm) ?_
    rintro ⟨sm1, v1, p1⟩ ⟨sm2, s2, p2⟩ ⟨h1, h2, b1, hR1, hb, hk⟩
    simp only at h1 h2 hb
    subst h1 h2 hb
    have hi1 := (hk.same i ts).mpr hi
    cases p2 with
    | true => exact Ends.stop (x := (sm2, b1.map hide, true)) (y := (sm2, s2, true)) ⟨rfl, rfl, b1, hR1, rfl, hk⟩ hi
    | false =>
      simp only [Bool.false_eq_true, if_false]
      split
      · rename_i t hj
        have hj := hide_inv hj (by simp)
        have hne : j ≠ i := by rintro rfl; rw [hi1] at hj; cases hj
        obtain ⟨s3, e3, hR3⟩ := step_ok hR1 (o := .pushMutPM i j)
          (b' := (b1.set j .dead).set i (.borrowed (ts ++ splitNeg t))) (by simp [vstep, hi1, hj])
        have hlt := (List.getElem?_eq_some_iff.mp hi1).1
        have hb3 : ((b1.set j .dead).set i (.borrowed (ts ++ splitNeg t))).map hide = (b1.map hide).set j .dead := by
          rw [List.map_set, List.map_set]
          refine set_self_eq ?_
          show ((b1.map hide).set j Val.dead)[i]? = some Val.dead
          rw [List.getElem?_set_ne hne, hide_get, hi1]
          rfl
        simp only [e3, bind, Res.bind]
        rw [← hb3]
        have ih := eachTree_same it hR3 (i := i) (ts := ts ++ splitNeg t) (List.getElem?_set_self (by simpa using hlt)) sm2
        obtain ⟨k1, k2⟩ := set_kept_but (i := i) (z := []) hj (notB_tree _) (by simp) (rfl : _ = Val.borrowed (ts ++ splitNeg t))
        rw [List.append_nil] at k1 k2
        generalize vtrees it sm2 _ = x at ih ⊢
        generalize eachTree i it sm2 s3 = y at ih ⊢
        cases x <;> cases y <;> first | exact ih.elim | skip
        · exact EndsAt.step ih (Nat.le_trans hk.len k1) (fun k vs e => (k2 k vs e).trans (hk.same k vs))
        · trivial
        · trivial
        · trivial
      · rename_i hj
        have : Heap.step s2 (.pushMutPM i j) = .err () := by
          refine step_none hR1 ?_
          simp only [vstep, hi1]
          split
          · rename_i e1 e2
            exact absurd (by rw [hide_get, e2]; rfl) (hj _)
          · rfl
        simp only [this, bind, Res.bind]
        trivial
  | .hint .., s, b, i, ts, hR, hi, sm => by
    simp only [vtrees, eachTree]
    trivial

theorem eachStream_same : ∀ (it : Iter) {s : State} {b : List Val} {i : Nat} {ts : List TokenTree} (_ : Rel s b)
    (_ : b[i]? = some (.borrowed ts)) (sm : SourceMap),
    Same (EndsAt b i ts) (fun _ _ => True) (vstreams it sm (b.map hide)) (eachStream i it sm s)
  | .stop c, s, b, i, ts, hR, hi, sm => by
    simp only [vstreams, eachStream]
    have := execCode_same c hR sm
    generalize vexec c sm (b.map hide) = x at this ⊢
    generalize execCode c sm s = y at this ⊢
    cases x <;> cases y <;> first | exact this.elim | skip
    · exact this.stop hi
    · trivial
    · trivial
    · trivial
  | .yield c j it, s, b, i, ts, hR, hi, sm => by
    simp only [vstreams, eachStream]
    refine same_bind (execCode_same c hR sm) ?_
    rintro ⟨sm1, v1, p1⟩ ⟨sm2, s2, p2⟩ ⟨h1, h2, b1, hR1, hb, hk⟩
    simp only at h1 h2 hb
    subst h1 h2 hb
    have hi1 := (hk.same i ts).mpr hi
    cases p2 with
    | true => exact Ends.stop (x := (sm2, b1.map hide, true)) (y := (sm2, s2, true)) ⟨rfl, rfl, b1, hR1, rfl, hk⟩ hi
    | false =>
      simp only [Bool.false_eq_true, if_false]
      have hlt := (List.getElem?_eq_some_iff.mp hi1).1
      split
      · rename_i us hj
        have hj := hide_inv hj (by simp)
        have hne : j ≠ i := by rintro rfl; rw [hi1] at hj; cases hj
        have e0 : vrun b1 [.intoOwned j, .extendMut i b1.length] =
            some ((b1.set j .dead).set i (.borrowed (ts ++ us)) ++ [.dead]) := by
          simp only [vrun, vstep, hj, Option.bind_some]
          rw [List.getElem?_append_left (by simpa using hlt), List.getElem?_set_ne hne, hi1,
            List.getElem?_append_right (by simp)]
          simp only [List.length_set, Nat.sub_self, List.getElem?_cons_zero, Option.bind_some]
          rw [List.set_append_right _ _ (by simp)]
          simp only [List.length_set, Nat.sub_self, List.set_cons_zero]
          rw [List.set_append_left _ _ (by simpa using hlt)]
        obtain ⟨s3, e3, hR3⟩ := run_spec _ hR1 e0
        have hb3 : ((b1.set j .dead).set i (.borrowed (ts ++ us)) ++ [Val.dead]).map hide =
            (b1.map hide).set j .dead ++ [.dead] := by
          rw [List.map_append, List.map_set, List.map_set]
          congr 1
          refine set_self_eq ?_
          show ((b1.map hide).set j Val.dead)[i]? = some Val.dead
          rw [List.getElem?_set_ne hne, hide_get, hi1]
          rfl
        simp only [hR1.len, e3, bind, Res.bind]
        rw [← hb3]
        have ih := eachStream_same it hR3 (i := i) (ts := ts ++ us)
          (by rw [List.getElem?_append_left (by simpa using hlt)]; exact List.getElem?_set_self (by simpa using hlt)) sm2
        obtain ⟨k1, k2⟩ := set_kept_but (i := i) (z := [.dead]) hj (notB_stream _) (by simpa using notB_dead)
          (rfl : _ = Val.borrowed (ts ++ us))
        generalize vstreams it sm2 _ = x at ih ⊢
        generalize eachStream i it sm2 s3 = y at ih ⊢
        cases x <;> cases y <;> first | exact ih.elim | skip
        · exact EndsAt.step ih (Nat.le_trans hk.len k1) (fun k vs e => (k2 k vs e).trans (hk.same k vs))
        · trivial
        · trivial
        · trivial
      · rename_i hj
        have : Heap.run s2 [.intoOwned j, .extendMut i s2.vars.length] = .err () := by
          refine run_none hR1 ?_
          simp only [vrun, vstep]
          split
          · rename_i e2
            exact absurd (by rw [hide_get, e2]; rfl) (hj _)
          · rfl
        simp only [this, bind, Res.bind]
        trivial
  | .hint c j k, s, b, i, ts, hR, hi, sm => by
    simp only [vstreams, eachStream]
    refine same_bind (execCode_same c hR sm) ?_
    rintro ⟨sm1, v1, p1⟩ ⟨sm2, s2, p2⟩ ⟨h1, h2, b1, hR1, hb, hk⟩
    simp only at h1 h2 hb
    subst h1 h2 hb
    have hi1 := (hk.same i ts).mpr hi
    cases p2 with
    | true => exact Ends.stop (x := (sm2, b1.map hide, true)) (y := (sm2, s2, true)) ⟨rfl, rfl, b1, hR1, rfl, hk⟩ hi
    | false =>
      simp only [Bool.false_eq_true, if_false]
      have hlt := (List.getElem?_eq_some_iff.mp hi1).1
      split
      · rename_i us hj
        have hj := hide_inv hj (by simp)
        have hne : j ≠ i := by rintro rfl; rw [hi1] at hj; cases hj
        have e0 : vrun b1 (.intoOwned j :: takeSome i b1.length k (b1.length + 1)) =
            vrun (b1.set j .dead ++ [.owned us]) (takeSome i b1.length k (b1.set j .dead ++ [Val.owned us]).length) := by
          simp [vrun, vstep, hj]
        obtain ⟨t1, t2⟩ := takeSome_vrun (i := i) (m := b1.length) k (b := b1.set j .dead ++ [.owned us]) (ts := ts) (us := us)
          (by rw [List.getElem?_append_left (by simpa using hlt), List.getElem?_set_ne hne]; exact hi1) (by simp)
        split
        · rename_i hlk
          obtain ⟨b', g1, g2⟩ := t2 hlk
          obtain ⟨s3, e3, hR3⟩ := run_spec _ hR1 (e0.trans g1)
          have hb' : b' = (b1.set j .dead).set i (.borrowed (ts ++ us.take k)) ++ List.replicate (k + 2) .dead := by
            rw [g2, List.set_append_left _ _ (by simpa using hlt), List.set_append_right _ _ (by simp), List.append_assoc]
            simp [List.replicate_succ]
          subst hb'
          simp only [hR1.len, e3, bind, Res.bind]
          obtain ⟨k1, k2⟩ := set_kept_but (i := i) (z := List.replicate (k + 2) .dead) hj (notB_stream _)
            (by intro u hu; rw [(List.mem_replicate.mp hu).2]; exact notB_dead) (rfl : _ = Val.borrowed (ts ++ us.take k))
          refine ⟨rfl, rfl, _, hR3, ?_, ?_, Nat.le_trans hk.len k1, fun k vs e => (k2 k vs e).trans (hk.same k vs)⟩
          · simp only [List.map_append, List.map_set, List.map_replicate]
            congr 1
            refine set_self_eq ?_
            show ((b1.map hide).set j Val.dead)[i]? = some Val.dead
            rw [List.getElem?_set_ne hne, hide_get, hi1]
            rfl
          · rw [List.getElem?_append_left (by simpa using hlt)]
            exact List.getElem?_set_self (by simpa using hlt)
        · rename_i hlk
          have := run_none hR1 (e0.trans (t1 (by omega)))
          simp only [hR1.len, this, bind, Res.bind]
          trivial
      · rename_i hj
        have : Heap.run s2 (.intoOwned j :: takeSome i s2.vars.length k (s2.vars.length + 1)) = .err () := by
          refine run_none hR1 ?_
          simp only [vrun, vstep]
          split
          · rename_i e2
            exact absurd (by rw [hide_get, e2]; rfl) (hj _)
          · rfl
        simp only [this, bind, Res.bind]
        trivial
end

end

end PM2
