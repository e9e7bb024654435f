import Verif.Proof.HeapApiTake
import Verif.Spec.SampleCompiler
import Verif.Spec.Decide
/-!
# C110: The API on the heap
-/

set_option linter.unusedSectionVars false

namespace PM2.Props
open Spec Heap HeapApi Wrap Spec.Direct

section
variable [Compiler] [UnicodeTables]

/-- **C110.** Every program of the API does on the heap what it does on values: if it is given clones or the values themselves, and if
variables are dropped at any time. The results are the same, and so are the source map, the panics and the
non-termination; a cell is never read or counted after it is freed. -/
theorem C110_run (as : List ApiAct) : Agree (facts ⟨SourceMap.init, []⟩ as) (apiActs HState.init as) :=
  (acts_spec as RelA.init).agree

private theorem api_rel {as : List ApiAct} {s : HState} (h : apiActs HState.init as = .ok s) :
    ∃ f, facts ⟨SourceMap.init, []⟩ as = .ok f ∧ RelA s f := by
  have := acts_spec as RelA.init
  rw [h] at this
  cases e : facts ⟨SourceMap.init, []⟩ as <;> rw [e] at this <;> first | exact this.elim | skip
  exact ⟨_, rfl, this⟩

/-- **C110.** At any time, the cells that are allocated are those that a variable owns. -/
theorem C110_live {as : List ApiAct} {s : HState} (h : apiActs HState.init as = .ok s) (a : Addr) :
    (∃ c, s.heap.get a = some c) ↔ Owned s.state a := by
  obtain ⟨f, -, hR⟩ := api_rel h
  exact rel_live hR.rel a

private theorem dead_empty {s : State} {v : List Val} (hR : Rel s v) (h : ∀ r ∈ s.vars, r = .dead) (a : Addr) :
    s.heap.get a = none := by
  cases e : s.heap.get a with
  | none => rfl
  | some c =>
    have := (rel_live hR a).mp ⟨c, e⟩
    exfalso
    clear e
    induction this with
    | root hr hp => rw [h _ hr] at hp; exact hp
    | child _ _ _ ih => exact ih

/-- **C110.** If no variable has a stream, a tree or an iterator, everything is freed. -/
theorem C110_no_leak {as : List ApiAct} {s : HState} (h : apiActs HState.init as = .ok s)
    (hv : ∀ v ∈ s.vars, (∀ a, v ≠ .stream a) ∧ (∀ t, v ≠ .tree t) ∧ (∀ l, v ≠ .iter l)) (a : Addr) : s.heap.get a = none := by
  obtain ⟨f, -, hR⟩ := api_rel h
  refine dead_empty hR.rel (fun r hr => ?_) a
  obtain ⟨v, hm, rfl⟩ := List.mem_map.mp hr
  obtain ⟨h1, h2, h3⟩ := hv v hm
  cases v with
  | stream a => exact absurd rfl (h1 a)
  | tree t => exact absurd rfl (h2 t)
  | iter l => exact absurd rfl (h3 l)
  | _ => rfl

private theorem facts_app (f : FState) (as bs : List ApiAct) :
    facts f (as ++ bs) = Out.bind (facts f as) (fun g => facts g bs) := by
  induction as generalizing f with
  | nil => rfl
  | cons a as ih =>
    simp only [List.cons_append, facts, bind]
    cases fact f a with
    | ok g => exact ih g
    | _ => rfl

private theorem facts_drops : ∀ (is : List Nat) (f : FState), (∀ i ∈ is, i < f.vars.length) →
    facts f (is.map .drop) = .ok (f.kill is)
  | [], _, _ => rfl
  | i :: is, f, h => by
    have hi := h i (by simp)
    have : fact f (.drop i) = .ok (f.kill [i]) := by
      simp only [fact, FState.read, List.getElem?_eq_getElem hi, Out.typed, bind, Out.bind]
    simp only [List.map_cons, facts, this, bind, Out.bind]
    rw [facts_drops is _ (by simpa [FState.kill, FState.set] using fun j hj => h j (by simp [hj]))]
    rfl

private theorem kill_length : ∀ (is : List Nat) (f : FState), (f.kill is).vars.length = f.vars.length
  | [], _ => rfl
  | i :: is, f => by simp only [FState.kill]; rw [kill_length is]; simp [FState.set]

private theorem kill_same : ∀ (is : List Nat) (f : FState) (i : Nat), i ∉ is → (f.kill is).vars[i]? = f.vars[i]?
  | [], _, _, _ => rfl
  | j :: is, f, i, h => by
    simp only [List.mem_cons, not_or] at h
    simp only [FState.kill]
    rw [kill_same is _ i h.2]
    simp only [FState.set]
    exact List.getElem?_set_ne (Ne.symm h.1)

private theorem kill_mem : ∀ (is : List Nat) (f : FState) (i : Nat), i ∈ is → i < f.vars.length →
    (f.kill is).vars[i]? = some (.plain .none)
  | j :: is, f, i, h, hl => by
    simp only [FState.kill]
    by_cases e : i ∈ is
    · exact kill_mem is _ i e (by simpa [FState.set] using hl)
    · rw [kill_same is _ i e]
      cases h with
      | head => simp [FState.set, hl]
      | tail _ h => exact absurd h e

/-- **C110.** If all variables are dropped after a program, in order, everything is freed. -/
theorem C110_drop_all {as : List ApiAct} {s : HState} (h : apiActs HState.init as = .ok s) :
    ∃ s', apiActs s ((List.range s.vars.length).map .drop) = .ok s' ∧ ∀ a, s'.heap.get a = none := by
  obtain ⟨f, -, hR⟩ := api_rel h
  have h1 := acts_spec ((List.range s.vars.length).map .drop) hR
  rw [facts_drops _ _ (by simp [hR.len])] at h1
  cases e : apiActs s ((List.range s.vars.length).map .drop) <;> rw [e] at h1 <;> first | exact h1.elim | skip
  rename_i s'
  refine ⟨s', rfl, fun a => dead_empty h1.rel (fun r hr => ?_) a⟩
  obtain ⟨i, hi, hg⟩ := List.getElem_of_mem hr
  have hr' := h1.rel.holds i r .dead (List.getElem?_eq_some_iff.mpr ⟨hi, hg⟩) ?_
  · cases hr'; rfl
  · have hl := h1.rel.len
    have hi' : i < f.vars.length := by
      have : i < (List.map fval (f.kill (List.range s.vars.length)).vars).length := by rw [← hl]; exact hi
      simpa [kill_length] using this
    rw [List.getElem?_map, kill_mem _ _ _ (by simp [hR.len, hi']) hi']
    rfl

private theorem read_lt {α : Type} {f : FState} {g : FValue → Option α} {i : Nat} {x : α} (h : f.read g i = .ok x) :
    i < f.vars.length := by
  simp only [FState.read] at h
  split at h
  · cases h
  · rename_i e; exact (List.getElem?_eq_some_iff.mp e).1

private theorem reads_lt {α : Type} {f : FState} {g : FValue → Option α} : ∀ {is : List Nat} {xs : List α},
    f.reads g is = .ok xs → ∀ i ∈ is, i < f.vars.length
  | [], _, _, _, hi => by cases hi
  | j :: is, xs, h, i, hi => by
    simp only [FState.reads, bind, Out.bind] at h
    split at h <;> first | cases h | skip
    rename_i x e
    split at h <;> first | cases h | skip
    rename_i xs' e'
    cases hi with
    | head => exact read_lt e
    | tail _ hi => exact reads_lt e' i hi

private theorem takes_lt {f g : FState} {op : Wrap.Op} (h : fstep f op = .ok g) : ∀ i ∈ takes op, i < g.vars.length := by
  intro i hi
  cases op with
  | fromTree k | intoIter k | groupNew d k =>
    simp only [takes, List.mem_singleton] at hi
    subst hi
    simp only [fstep, bind, Out.bind] at h
    split at h <;> first | cases h | skip
    rename_i e
    have := read_lt e
    simp [FState.push]
    omega
  | intoCompiler k =>
    simp only [takes, List.mem_singleton] at hi
    subst hi
    simp only [fstep, bind, Out.bind] at h
    split at h <;> first | cases h | skip
    rename_i e
    have := read_lt e
    split at h <;> first | cases h | skip
    simp [FState.push]
    omega
  | collectTrees is | collectStreams is =>
    simp only [takes] at hi
    simp only [fstep, bind, Out.bind] at h
    split at h <;> first | cases h | skip
    rename_i e
    have := reads_lt e i hi
    simp [FState.push]
    omega
  | extendTrees k is | extendStreams k is =>
    simp only [takes] at hi
    simp only [fstep, bind, Out.bind] at h
    split at h <;> first | cases h | skip
    split at h <;> first | cases h | skip
    rename_i e
    simpa [FState.set] using reads_lt e i hi
  | _ => cases hi

/-- **C110.** Giving a value is like giving a clone of it and then dropping it: the same results, and then the same cells are
allocated, those that the variables own (`C110_live`). -/
theorem C110_move (as : List ApiAct) {op : Wrap.Op} (hn : (extends_ op ++ takes op).Nodup) :
    Agree (facts ⟨SourceMap.init, []⟩ (as ++ [.give op])) (apiActs HState.init (as ++ .call op :: (takes op).map .drop)) := by
  have e : facts ⟨SourceMap.init, []⟩ (as ++ [.give op]) = facts ⟨SourceMap.init, []⟩ (as ++ .call op :: (takes op).map .drop) := by
    rw [facts_app, facts_app]
    congr 1
    funext f
    simp only [facts, fact, if_pos hn, bind]
    cases h : fstep f op with
    | ok g =>
      simp only [Out.bind]
      rw [facts_drops _ _ (takes_lt h)]
    | _ => rfl
  rw [e]
  exact C110_run _

private theorem frun_facts (f : FState) (ops : List Wrap.Op) : frun f ops = facts f (ops.map .call) := by
  induction ops generalizing f with
  | nil => rfl
  | cons op ops ih =>
    simp only [frun, List.map_cons, facts, fact, bind]
    congr 1
    funext g
    exact ih g

/-- **C110.** The model of the wrapper, on values, and the heap: outside a macro, a program without values of the compiler has
the same outcome in both, where all variables have the same contents. -/
theorem C110_wrapper {σ : Type} [Rep σ] (ops : List (Bool × Wrap.Op)) (hi : ∀ x ∈ ops, ¬ Imports x.2)
    (hm : ∀ x ∈ ops, Creates x.2 → x.1 = false) :
    ∃ x : Out FState, Wrap.run (⟨SourceMap.init, []⟩ : Wrap.State σ) ops = mapOut FState.toState x ∧
      Agree x (apiActs HState.init (ops.map (fun x => .call x.2))) := by
  refine ⟨_, C66_fallback ⟨SourceMap.init, []⟩ ops hi hm, ?_⟩
  rw [frun_facts, List.map_map]
  exact C110_run _

end

/-! ### Concrete cases -/

section examples
attribute [local instance] sampleCompiler sampleTables sampleTables_lawful

/-- `a(b)` is parsed; the stream is put into a group twice, once as a clone and once itself; the first group is put into a stream,
which is extended by itself and by the second group. -/
private def apiEx : List ApiAct :=
  [.call (.fromStr ['a', '(', 'b', ')']), .call (.groupNew .brace 0), .give (.groupNew .bracket 0), .give (.fromTree 1),
    .call (.extendStreams 3 [3]), .give (.extendTrees 3 [2]), .call (.display 3)]

private def apiHeap (x : Out HState) : Option (List (Option Nat)) :=
  match x with
  | .ok s => some (s.heap.map (fun c => c.map Cell.rc))
  | _ => none

private def apiText (x : Out HState) (i : Nat) : Option (List Char) :=
  match x with
  | .ok s =>
    match s.vars[i]? with
    | some (.datum (.text t)) => some t
    | _ => none
  | _ => none

/-- C110_run: three groups share the cell of the parsed stream; the one that the stream was extended with is freed. -/
example : apiHeap (apiActs HState.init apiEx) = some [some 1, some 3, none, some 1] ∧
    apiText (apiActs HState.init apiEx) 4 =
      some ['{', ' ', 'a', ' ', '(', 'b', ')', ' ', '}', ' ', '{', ' ', 'a', ' ', '(', 'b', ')', ' ', '}', ' ',
        '[', 'a', ' ', '(', 'b', ')', ']'] := by decide +kernel

/-- C110_run: what is moved cannot be used again, and cannot be given twice. -/
example : apiHeap (apiActs HState.init (apiEx ++ [.call (.isEmpty 0)])) = none ∧
    apiHeap (apiActs HState.init [.call .new, .give (.collectStreams [0, 0])]) = none ∧
    apiHeap (apiActs HState.init [.call .new, .call (.collectStreams [0, 0])]) ≠ none := by decide +kernel

/-- C110_live, C110_drop_all: the program ends. -/
example : ∃ s, apiActs HState.init apiEx = .ok s := by
  have h : apiHeap (apiActs HState.init apiEx) = some [some 1, some 3, none, some 1] := by decide +kernel
  cases e : apiActs HState.init apiEx with
  | ok s => exact ⟨s, rfl⟩
  | _ => rw [e] at h; cases h

/-- C110_no_leak: after the last stream is dropped, no variable has tokens. -/
example : (match apiActs HState.init (apiEx ++ [.call (.debug true 3), .drop 3]) with
    | .ok s => s.vars.map (fun v => match v with | .datum _ => true | _ => false)
    | _ => []) = [true, true, true, true, true, true] ∧
    apiHeap (apiActs HState.init (apiEx ++ [.call (.debug true 3), .drop 3])) = some [none, none, none, none] := by decide +kernel

/-- C110_move: the stream 3 is given twice, which is not possible, and once. -/
example : ¬(extends_ (.extendStreams 3 [3]) ++ takes (.extendStreams 3 [3])).Nodup ∧
    (extends_ (.extendTrees 3 [2, 1]) ++ takes (.extendTrees 3 [2, 1])).Nodup := by simp [extends_, takes]

/-- C110_wrapper: the calls of the program. -/
example : (∀ x ∈ [(false, Wrap.Op.fromStr ['a']), (true, .intoIter 0), (true, .next 1)], ¬ Imports x.2) ∧
    (∀ x ∈ [(false, Wrap.Op.fromStr ['a']), (true, .intoIter 0), (true, .next 1)], Creates x.2 → x.1 = false) := by
  simp [Imports, Creates]

end examples

end PM2.Props
