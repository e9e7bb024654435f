import Verif.Proof.HeapRun
import Verif.Proof.HeapPrint
import Verif.Spec.HeapApi
/-!
# The API on the heap: programs on values
-/

namespace PM2
open Heap Spec

/-- The variables are dead. -/
def killv (v : List Val) : List Nat → List Val
  | [] => v
  | i :: is => killv (v.set i .dead) is

@[simp] theorem killv_length (v : List Val) (is : List Nat) : (killv v is).length = v.length := by
  induction is generalizing v with
  | nil => rfl
  | cons i is ih => simp [killv, ih]

theorem killv_append_left : ∀ (is : List Nat) (v x : List Val), (∀ i ∈ is, i < v.length) →
    killv (v ++ x) is = killv v is ++ x
  | [], _, _, _ => rfl
  | i :: is, v, x, h => by
    simp only [killv]
    rw [List.set_append_left _ _ (h i (by simp)), killv_append_left is _ x (by simpa using fun j hj => h j (by simp [hj]))]

theorem killv_get : ∀ (is : List Nat) (v : List Val) {i : Nat}, i ∉ is → (killv v is)[i]? = v[i]?
  | [], _, _, _ => rfl
  | j :: is, v, i, h => by
    simp only [List.mem_cons, not_or] at h
    simp only [killv]
    rw [killv_get is _ h.2, List.getElem?_set_ne (Ne.symm h.1)]

theorem killv_set : ∀ (is : List Nat) (v : List Val) {i : Nat} (w : Val), i ∉ is →
    killv (v.set i w) is = (killv v is).set i w
  | [], _, _, _, _ => rfl
  | j :: is, v, i, w, h => by
    simp only [List.mem_cons, not_or] at h
    simp only [killv]
    rw [List.set_comm _ _ h.1, killv_set is _ w h.2]

theorem killv_range : ∀ (x v y : List Val), killv (v ++ x ++ y) (List.range' v.length x.length) =
    v ++ List.replicate x.length .dead ++ y
  | [], v, y => by simp [killv]
  | w :: x, v, y => by
    have h := killv_range x (v ++ [.dead]) y
    simp only [List.length_append, List.length_cons, List.length_nil, Nat.zero_add] at h
    simp only [List.length_cons, List.range'_succ, killv, List.append_assoc, List.cons_append, List.replicate_succ]
    rw [List.set_append_right _ _ (Nat.le_refl _)]
    simpa [List.append_assoc] using h

theorem vrun_app (v : List Val) (ops ops' : List Op) :
    vrun v (ops ++ ops') = (vrun v ops).bind (fun v' => vrun v' ops') := by
  induction ops generalizing v with
  | nil => rfl
  | cons op ops ih =>
    simp only [List.cons_append, vrun]
    cases vstep v op with
    | none => rfl
    | some v' => exact ih v'

/-- What streams and trees have in common. -/
structure Kind (α : Type) where
  emb : α → Val
  clone : Nat → Op
  drop : Nat → Op
  clone_ok : ∀ {v : List Val} {i : Nat} {a : α}, v[i]? = some (emb a) → vstep v (clone i) = some (v ++ [emb a])
  drop_ok : ∀ {v : List Val} {i : Nat} {a : α}, v[i]? = some (emb a) → vstep v (drop i) = some (v.set i .dead)
  drop_dead : ∀ {v : List Val} {i : Nat}, v[i]? = some .dead → vstep v (drop i) = none

def streamKind : Kind (List TokenTree) where
  emb := .stream
  clone := .cloneStream
  drop := .dropStream
  clone_ok h := by simp [vstep, h]
  drop_ok h := by simp [vstep, h]
  drop_dead h := by simp [vstep, h]

def treeKind : Kind TokenTree where
  emb := .tree
  clone := .cloneTree
  drop := .dropTree
  clone_ok h := by simp [vstep, h]
  drop_ok h := by simp [vstep, h]
  drop_dead h := by simp [vstep, h]

variable {α : Type} (K : Kind α)

/-- The variables `is` hold `as`. -/
def At (v : List Val) (is : List Nat) (as : List α) : Prop :=
  is.map (fun i => v[i]?) = as.map (fun a => some (K.emb a))

variable {K}

theorem At.len {v : List Val} {is : List Nat} {as : List α} (h : At K v is as) : is.length = as.length := by
  have := congrArg List.length h
  simpa using this

theorem At.lt {v : List Val} : ∀ {is : List Nat} {as : List α}, At K v is as → ∀ i ∈ is, i < v.length
  | [], _, _, _, h => by cases h
  | j :: is, [], h, _, _ => by simp [At] at h
  | j :: is, a :: as, h, i, hi => by
    simp only [At, List.map_cons, List.cons.injEq] at h
    cases hi with
    | head => exact (List.getElem?_eq_some_iff.mp h.1).1
    | tail _ hi => exact At.lt h.2 i hi

theorem At.mono {v v' : List Val} {is : List Nat} {as : List α} (h : At K v is as) (hv : ∀ i ∈ is, v'[i]? = v[i]?) :
    At K v' is as := by
  unfold At at *
  rw [← h]
  exact List.map_congr_left hv

theorem At.cons {v : List Val} {i : Nat} {is : List Nat} {a : α} {as : List α} :
    At K v (i :: is) (a :: as) ↔ v[i]? = some (K.emb a) ∧ At K v is as := by
  simp [At]

theorem At.range : ∀ (as : List α) (v y : List Val), At K (v ++ as.map K.emb ++ y) (List.range' v.length as.length) as
  | [], _, _ => rfl
  | a :: as, v, y => by
    have h := At.range as (v ++ [K.emb a]) y
    simp only [List.length_append, List.length_cons, List.length_nil, Nat.zero_add] at h
    simp only [List.length_cons, List.range'_succ]
    refine At.cons.mpr ⟨?_, ?_⟩
    · simp
    · simpa [List.append_assoc] using h

theorem vrun_clones : ∀ {is : List Nat} {as : List α} {v : List Val}, At K v is as →
    vrun v (is.map K.clone) = some (v ++ as.map K.emb)
  | [], [], _, _ => by simp [vrun]
  | [], _ :: _, _, h => by simp [At] at h
  | _ :: _, [], _, h => by simp [At] at h
  | i :: is, a :: as, v, h => by
    rw [At.cons] at h
    simp only [List.map_cons, vrun, K.clone_ok h.1, Option.bind_some]
    rw [vrun_clones (h.2.mono (fun j hj => List.getElem?_append_left (h.2.lt j hj)))]
    simp

theorem vrun_drops : ∀ {is : List Nat} {as : List α} {v : List Val}, At K v is as →
    vrun v (is.map K.drop) = if is.Nodup then some (killv v is) else none
  | [], _, _, _ => by simp [vrun, killv]
  | _ :: _, [], _, h => by simp [At] at h
  | i :: is, a :: as, v, h => by
    rw [At.cons] at h
    simp only [List.map_cons, vrun, K.drop_ok h.1, Option.bind_some, List.nodup_cons]
    by_cases hi : i ∈ is
    · rw [if_neg (fun h => h.1 hi)]
      have hl : i < v.length := (List.getElem?_eq_some_iff.mp h.1).1
      -- the variable is dead when it is dropped again
      have key : ∀ {is : List Nat} {as : List α} {u : List Val}, i ∈ is → u[i]? = some .dead →
          (∀ j ∈ is, u[j]? = some .dead ∨ ∃ a, u[j]? = some (K.emb a)) → vrun u (is.map K.drop) = none := by
        intro is
        induction is with
        | nil => intro _ _ h; cases h
        | cons j is ih =>
          intro _ u hm hu hall
          rcases hall j (by simp) with hj | ⟨b, hj⟩
          · simp only [List.map_cons, vrun, K.drop_dead hj, Option.bind_none]
          · simp only [List.map_cons, vrun, K.drop_ok hj, Option.bind_some]
            have hjl : j < u.length := (List.getElem?_eq_some_iff.mp hj).1
            by_cases e : i = j
            · subst e; rw [hu] at hj
              have h2 := K.drop_ok (v := u) (i := i) (by rw [hu]; exact hj)
              rw [K.drop_dead hu] at h2
              cases h2
            · refine ih (as := []) ((List.mem_cons.mp hm).resolve_left e) (by rw [List.getElem?_set_ne (Ne.symm e)]; exact hu) ?_
              intro k hk
              by_cases e' : j = k
              · subst e'; left; simp [hjl]
              · rw [List.getElem?_set_ne e']
                exact hall k (by simp [hk])
      refine key (as := []) hi (by simp [hl]) ?_
      intro k hk
      by_cases e : i = k
      · subst e; left; simp [hl]
      · right
        rw [List.getElem?_set_ne e]
        have := h.2
        unfold At at this
        have h3 : v[k]? ∈ is.map (fun i => v[i]?) := List.mem_map_of_mem hk
        rw [this, List.mem_map] at h3
        obtain ⟨b, -, hb⟩ := h3
        exact ⟨b, hb.symm⟩
    · rw [vrun_drops (as := as) (h.2.mono (fun j hj => List.getElem?_set_ne (by rintro rfl; exact hi hj)))]
      simp only [hi, not_false_eq_true, true_and, killv]

/-- Arguments by value. -/
theorem vrun_args {own : Bool} {is : List Nat} {as : List α} {v : List Val} (h : At K v is as) :
    vrun v (is.map K.clone ++ if own then is.map K.drop else []) =
      if own then (if is.Nodup then some (killv v is ++ as.map K.emb) else none) else some (v ++ as.map K.emb) := by
  rw [vrun_app, vrun_clones h]
  cases own with
  | false => simp [vrun]
  | true =>
    simp only [Option.bind_some, if_true]
    rw [vrun_drops (as := as) (h.mono (fun j hj => List.getElem?_append_left (h.lt j hj)))]
    rw [killv_append_left _ _ _ h.lt]

theorem vrun_pushes {i : Nat} : ∀ {js : List Nat} {us : List TokenTree} {v : List Val} {ts : List TokenTree},
    v[i]? = some (.borrowed ts) → js.Nodup → i ∉ js → At treeKind v js us →
    vrun v (js.map (.pushMutPM i)) = some ((killv v js).set i (.borrowed (ts ++ us.flatMap splitNeg)))
  | [], [], v, ts, h, _, _, _ => by
    have hl : i < v.length := (List.getElem?_eq_some_iff.mp h).1
    simp only [List.map_nil, vrun, killv, List.flatMap_nil, List.append_nil, Option.some.injEq]
    apply List.ext_getElem?
    intro k
    by_cases e : i = k
    · subst e; rw [h]; simp [hl]
    · rw [List.getElem?_set_ne e]
  | [], _ :: _, _, _, _, _, _, h => by simp [At] at h
  | _ :: _, [], _, _, _, _, _, h => by simp [At] at h
  | j :: js, u :: us, v, ts, h, hn, hi, hj => by
    rw [At.cons] at hj
    simp only [List.mem_cons, not_or] at hi
    rw [List.nodup_cons] at hn
    have hl : i < v.length := (List.getElem?_eq_some_iff.mp h).1
    simp only [List.map_cons, vrun, vstep, h, show v[j]? = some (.tree u) from hj.1, Option.bind_some]
    have hat : At treeKind ((v.set j .dead).set i (.borrowed (ts ++ splitNeg u))) js us := by
      refine hj.2.mono fun k hk => ?_
      rw [List.getElem?_set_ne (by rintro rfl; exact hi.2 hk), List.getElem?_set_ne (by rintro rfl; exact hn.1 hk)]
    rw [vrun_pushes (ts := ts ++ splitNeg u) (by simp [hl]) hn.2 hi.2 hat]
    simp only [killv]
    rw [killv_set _ _ _ hi.2, List.set_set]
    simp

theorem vrun_extendTrees {i : Nat} {js : List Nat} {us : List TokenTree} {v : List Val} {ts : List TokenTree}
    (h : v[i]? = some (.stream ts)) (hn : js.Nodup) (hi : i ∉ js) (hj : At treeKind v js us) :
    vrun v (HeapApi.extendTrees i js) = some ((killv v js).set i (.stream (ts ++ us.flatMap splitNeg))) := by
  have hl : i < v.length := (List.getElem?_eq_some_iff.mp h).1
  simp only [HeapApi.extendTrees, List.cons_append, vrun, vstep, h, Option.bind_some]
  rw [vrun_app, vrun_pushes (ts := ts) (by simp [hl]) hn hi
    (hj.mono fun k hk => List.getElem?_set_ne (by rintro rfl; exact hi hk)) (us := us)]
  simp only [Option.bind_some, vrun, vstep]
  rw [killv_set _ _ _ hi, List.set_set]
  simp [hl]

theorem vrun_iters {i : Nat} : ∀ {js : List Nat} {us : List (List TokenTree)} {v : List Val} {ts : List TokenTree},
    v[i]? = some (.borrowed ts) → js.Nodup → i ∉ js → At streamKind v js us →
    vrun v (HeapApi.extendStreams.go i v.length js) =
      some ((killv v js).set i (.borrowed (ts ++ us.flatten)) ++ List.replicate js.length .dead)
  | [], [], v, ts, h, _, _, _ => by
    have hl : i < v.length := (List.getElem?_eq_some_iff.mp h).1
    simp only [HeapApi.extendStreams.go, vrun, killv, List.flatten_nil, List.append_nil, Option.some.injEq, List.length_nil,
      List.replicate_zero]
    apply List.ext_getElem?
    intro k
    by_cases e : i = k
    · subst e; rw [h]; simp [hl]
    · rw [List.getElem?_set_ne e]
  | [], _ :: _, _, _, _, _, _, h => by simp [At] at h
  | _ :: _, [], _, _, _, _, _, h => by simp [At] at h
  | j :: js, u :: us, v, ts, h, hn, hi, hj => by
    have hlt := hj.lt
    rw [At.cons] at hj
    simp only [List.mem_cons, not_or] at hi
    rw [List.nodup_cons] at hn
    have hl : i < v.length := (List.getElem?_eq_some_iff.mp h).1
    have h1 : (v.set j Val.dead ++ [Val.owned u])[i]? = some (.borrowed ts) := by
      rw [List.getElem?_append_left (by simpa using hl), List.getElem?_set_ne (Ne.symm hi.1)]; exact h
    have h2 : (v.set j Val.dead ++ [Val.owned u])[v.length]? = some (.owned u) := by simp
    have h3 : ((v.set j Val.dead ++ [Val.owned u]).set v.length .dead).set i (.borrowed (ts ++ u)) =
        (v.set j .dead).set i (.borrowed (ts ++ u)) ++ [.dead] := by
      rw [List.set_append_right _ _ (by simp), List.set_append_left _ _ (by simpa using hl)]
      simp
    simp only [HeapApi.extendStreams.go, vrun, vstep, show v[j]? = some (.stream u) from hj.1, Option.bind_some, h1, h2, h3]
    have hat : At streamKind ((v.set j .dead).set i (.borrowed (ts ++ u)) ++ [.dead]) js us := by
      refine hj.2.mono fun k hk => ?_
      rw [List.getElem?_append_left (by simpa using hlt k (by simp [hk])),
        List.getElem?_set_ne (by rintro rfl; exact hi.2 hk), List.getElem?_set_ne (by rintro rfl; exact hn.1 hk)]
    have ih := vrun_iters (ts := ts ++ u) (i := i)
      (by rw [List.getElem?_append_left (by simpa using hl)]; simp [hl]) hn.2 hi.2 hat
    simp only [List.length_append, List.length_set, List.length_cons, List.length_nil, Nat.zero_add] at ih
    rw [ih, killv_append_left _ _ _ (by simpa using fun k hk => hlt k (by simp [hk])), killv_set _ _ _ hi.2,
      List.set_append_left _ _ (by simpa using hl), List.set_set]
    simp [killv, List.replicate_succ, List.flatten_cons, List.append_assoc]

theorem vrun_extendStreams {i : Nat} {js : List Nat} {us : List (List TokenTree)} {v : List Val} {ts : List TokenTree}
    (h : v[i]? = some (.stream ts)) (hn : js.Nodup) (hi : i ∉ js) (hj : At streamKind v js us) :
    vrun v (HeapApi.extendStreams v.length i js) =
      some ((killv v js).set i (.stream (ts ++ us.flatten)) ++ List.replicate js.length .dead) := by
  have hl : i < v.length := (List.getElem?_eq_some_iff.mp h).1
  simp only [HeapApi.extendStreams, List.cons_append, vrun, vstep, h, Option.bind_some]
  have := vrun_iters (i := i) (ts := ts) (v := v.set i (.borrowed ts)) (by simp [hl]) hn hi
    (hj.mono fun k hk => List.getElem?_set_ne (by rintro rfl; exact hi hk)) (us := us)
  rw [List.length_set] at this
  rw [vrun_app, this]
  simp only [Option.bind_some, vrun, vstep]
  rw [killv_set _ _ _ hi, List.set_set, List.getElem?_append_left (by simpa using hl)]
  simp only [List.length_set, killv_length, hl, List.getElem?_set_self, Option.bind_some]
  rw [List.set_append_left _ _ (by simpa using hl), List.set_set]

end PM2
