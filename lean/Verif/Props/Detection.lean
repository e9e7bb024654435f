import Verif.Spec.Detection
/-! # C54, C55: detection of the compiler's API -/

namespace PM2.Props
open Detect Spec

@[simp] theorem upd_self {α : Type} (f : Nat → α) (t : Nat) (a : α) : upd f t a t = a := by simp [upd]
@[simp] theorem upd_ne {α : Type} (f : Nat → α) {t u : Nat} (a : α) (h : u ≠ t) : upd f t a u = f u := by
  simp [upd, h]

/-- Is the thread in the closure of `call_once`? -/
def inClosure : PC → Bool
  | .init (some _) | .store (some _) _ | .leave _ => true
  | _ => false

/-- What holds in every execution. -/
structure G (s : St) : Prop where
  first : s.mo[0]? = some 0
  rest : ∀ i v, s.mo[i]? = some v → i ≠ 0 → v = 1 ∨ v = 2
  view : ∀ t, s.view t < s.mo.length
  done : ∀ w, s.once = .done w → 1 ≤ w ∧ w < s.mo.length
  run : ∀ t, inClosure (s.pc t) = true ↔ s.once = .running t
  depth : ∀ t, match s.pc t with
    | .load d => d = 0 ∨ d = 1 ∧ 1 ≤ s.view t
    | .once d => d = 0
    | .init (some d) => d = 0
    | .store (some d) _ => d = 0
    | .leave d => d = 0 ∧ 1 ≤ s.view t
    | _ => True

theorem G.init : G St.init where
  first := rfl
  rest := by
    intro i v h hi
    cases i with
    | zero => exact absurd rfl hi
    | succ i => simp [St.init] at h
  view := by simp [St.init]
  done := by simp [St.init]
  run := by simp [St.init, inClosure]
  depth := by simp [St.init]

theorem get_insert {mo : List Nat} {p : Nat} (hp : p ≤ mo.length) (x i : Nat) :
    (mo.take p ++ x :: mo.drop p)[i]? = if i < p then mo[i]? else if i = p then some x else mo[i - 1]? := by
  have hl : (mo.take p).length = p := by simp; omega
  split
  · rename_i h
    rw [List.getElem?_append_left (by omega), List.getElem?_take, if_pos h]
  · rename_i h
    rw [List.getElem?_append_right (by omega), hl]
    split
    · rename_i h2; subst h2; simp
    · rename_i h2
      obtain ⟨k, hk⟩ : ∃ k, i - p = k + 1 := ⟨i - p - 1, by omega⟩
      rw [hk, List.getElem?_cons_succ, List.getElem?_drop]
      congr 1
      omega

/-- Memory after a store of 1 or 2. -/
theorem G.write {s : St} (h : G s) {t p x : Nat} (hx : x = 1 ∨ x = 2) (h1 : s.view t < p)
    (h2 : p ≤ s.mo.length) :
    (s.write t p x).mo[0]? = some 0 ∧
    (∀ i v, (s.write t p x).mo[i]? = some v → i ≠ 0 → v = 1 ∨ v = 2) ∧
    (∀ u, (s.write t p x).view u < (s.write t p x).mo.length) ∧
    (∀ w, (s.write t p x).once = .done w → 1 ≤ w ∧ w < (s.write t p x).mo.length) ∧
    (∀ u, (s.write t p x).once = .running u ↔ s.once = .running u) ∧
    (s.write t p x).view t = p ∧ ∀ u, u ≠ t → s.view u ≤ (s.write t p x).view u := by
  have hl : (s.write t p x).mo.length = s.mo.length + 1 := by simp [St.write]; omega
  refine ⟨?_, ?_, ?_, ?_, ?_, ?_, ?_⟩
  · simp only [St.write]
    rw [get_insert h2, if_pos (by omega)]
    exact h.first
  · intro i v hv hi
    simp only [St.write] at hv
    rw [get_insert h2] at hv
    split at hv
    · exact h.rest i v hv hi
    · split at hv
      · simp at hv; subst hv; exact hx
      · exact h.rest _ v hv (by omega)
  · intro u
    rw [hl]
    have := h.view u
    by_cases e : u = t
    · subst e; simp [St.write]; omega
    · simp only [St.write, upd_ne _ _ e]; split <;> omega
  · intro w hw
    rw [hl]
    simp only [St.write] at hw
    split at hw
    · rename_i w' e
      have := h.done w' e
      simp at hw
      subst hw
      split <;> omega
    · rename_i e
      exact absurd hw (e w)
  · intro u
    simp only [St.write]
    split
    · rename_i e; rw [e]; simp
    · rfl
  · simp [St.write]
  · intro u hu
    simp only [St.write, upd_ne _ _ hu]
    split <;> omega

theorem b_toNat (b : Bool) : b.toNat + 1 = 1 ∨ b.toNat + 1 = 2 := by cases b <;> simp

/-- The condition on program counters is kept if those of other threads are the same and their views
are not older. -/
theorem depth_upd {s : St} (h : G s) {t : Nat} {pc : PC} {view : Nat → Nat}
    (hv : ∀ u, u ≠ t → s.view u ≤ view u)
    (ht : match pc with
      | .load d => d = 0 ∨ d = 1 ∧ 1 ≤ view t
      | .once d => d = 0
      | .init (some d) => d = 0
      | .store (some d) _ => d = 0
      | .leave d => d = 0 ∧ 1 ≤ view t
      | _ => True) :
    ∀ u, match upd s.pc t pc u with
      | .load d => d = 0 ∨ d = 1 ∧ 1 ≤ view u
      | .once d => d = 0
      | .init (some d) => d = 0
      | .store (some d) _ => d = 0
      | .leave d => d = 0 ∧ 1 ≤ view u
      | _ => True := by
  intro u
  by_cases e : u = t
  · subst e; simpa using ht
  · rw [upd_ne _ _ e]
    have := h.depth u
    have hv := hv u e
    split <;> rename_i e1 <;> simp only [e1] at this <;> first | trivial | omega

theorem run_upd {s : St} (h : G s) {t : Nat} {pc : PC} (o : OnceState)
    (ht : inClosure pc = true ↔ o = .running t)
    (ho : ∀ u, u ≠ t → (o = .running u ↔ s.once = .running u)) :
    ∀ u, inClosure (upd s.pc t pc u) = true ↔ o = .running u := by
  intro u
  by_cases e : u = t
  · subst e; simpa using ht
  · rw [upd_ne _ _ e, ho u e]; exact h.run u

theorem G.step {s s' : St} {t : Nat} {e : Ev} (h : G s) (hs : Step s t e s') : G s' := by
  have hdep := h.depth t
  have hrun := h.run t
  cases hs with
  | callQuery hp =>
    rw [hp] at hrun
    exact ⟨h.first, h.rest, h.view, h.done, run_upd h _ (by simpa [inClosure] using hrun) (fun _ _ => .rfl),
      depth_upd h (fun _ _ => Nat.le_refl _) (by simp)⟩
  | callForce hp =>
    rw [hp] at hrun
    exact ⟨h.first, h.rest, h.view, h.done, run_upd h _ (by simpa [inClosure] using hrun) (fun _ _ => .rfl),
      depth_upd h (fun _ _ => Nat.le_refl _) trivial⟩
  | callUnforce hp =>
    rw [hp] at hrun
    exact ⟨h.first, h.rest, h.view, h.done, run_upd h _ (by simpa [inClosure] using hrun) (fun _ _ => .rfl),
      depth_upd h (fun _ _ => Nat.le_refl _) trivial⟩
  | @loadFalse d i hp hv hm | @loadTrue d i hp hv hm =>
    rw [hp] at hrun
    refine ⟨h.first, h.rest, fun u => ?_, h.done,
      run_upd h _ (by simpa [inClosure] using hrun) (fun _ _ => .rfl),
      depth_upd h (fun u hu => by simp [hu]) trivial⟩
    by_cases e : u = t
    · subst e
      simp
      exact (List.getElem?_eq_some_iff.mp hm).1
    · simpa [e] using h.view u
  | @loadOther d i v hp hv hm h1 h2 =>
    rw [hp] at hrun hdep
    refine ⟨h.first, h.rest, fun u => ?_, h.done,
      run_upd h _ (by simpa [inClosure] using hrun) (fun _ _ => .rfl),
      depth_upd h (fun u hu => by simp [hu]) ?_⟩
    · by_cases e : u = t
      · subst e
        simp
        exact (List.getElem?_eq_some_iff.mp hm).1
      · simpa [e] using h.view u
    · simp only at hdep ⊢
      rcases hdep with hd | ⟨-, hd⟩
      · exact hd
      · have := h.rest i v hm (by omega)
        omega
  | @onceRun d hp ho =>
    rw [hp] at hdep
    refine ⟨h.first, h.rest, h.view, by simp, run_upd h _ (by simp [inClosure]) (fun u hu => ?_),
      depth_upd h (fun _ _ => Nat.le_refl _) hdep⟩
    rw [ho]
    simp
    exact fun e => hu e.symm
  | @onceDone d w hp ho =>
    rw [hp] at hdep hrun
    simp only at hdep
    subst hdep
    have hw := h.done w ho
    refine ⟨h.first, h.rest, fun u => ?_, h.done,
      run_upd h _ (by simpa [inClosure] using hrun) (fun _ _ => .rfl),
      depth_upd h (fun u hu => by simp [hu]) (.inr ⟨rfl, by simp; omega⟩)⟩
    by_cases e : u = t
    · subst e
      have := h.view u
      simp
      omega
    · simpa [e] using h.view u
  | @detect o b hp =>
    rw [hp] at hdep hrun
    refine ⟨h.first, h.rest, h.view, h.done,
      run_upd h _ ?_ (fun _ _ => .rfl), depth_upd h (fun _ _ => Nat.le_refl _) ?_⟩
    · cases o <;> simpa [inClosure] using hrun
    · cases o <;> simpa using hdep
  | @storeOnce d b p hp h1 h2 =>
    rw [hp] at hdep hrun
    obtain ⟨w1, w2, w3, w4, w5, w6, w7⟩ := h.write (b_toNat b) h1 h2
    refine ⟨w1, w2, w3, w4, run_upd h _ ?_ (fun u _ => w5 u), depth_upd h w7 ⟨hdep, ?_⟩⟩
    · rw [w5]; simpa [inClosure] using hrun
    · rw [w6]; omega
  | @storeUnforce b p hp h1 h2 =>
    rw [hp] at hrun
    obtain ⟨w1, w2, w3, w4, w5, w6, w7⟩ := h.write (b_toNat b) h1 h2
    refine ⟨w1, w2, w3, w4, run_upd h _ ?_ (fun u _ => w5 u), depth_upd h w7 trivial⟩
    rw [w5]; simpa [inClosure] using hrun
  | @leave d hp =>
    rw [hp] at hdep hrun
    simp only at hdep
    have hr : s.once = .running t := hrun.mp rfl
    refine ⟨h.first, h.rest, h.view, ?_, run_upd h _ (by simp [inClosure]) (fun u hu => ?_),
      depth_upd h (fun _ _ => Nat.le_refl _) (.inr ⟨by omega, hdep.2⟩)⟩
    · intro w hw
      simp at hw
      subst hw
      exact ⟨hdep.2, h.view t⟩
    · rw [hr]
      simp
      exact fun e => hu e.symm
  | @force p hp h1 h2 =>
    rw [hp] at hrun
    obtain ⟨w1, w2, w3, w4, w5, w6, w7⟩ := h.write (.inl rfl) h1 h2
    refine ⟨w1, w2, w3, w4, run_upd h _ ?_ (fun u _ => w5 u), depth_upd h w7 trivial⟩
    rw [w5]; simpa [inClosure] using hrun
  | @sync u hp hq =>
    have := h.view u
    have := h.view t
    refine ⟨h.first, h.rest, fun v => ?_, h.done, h.run, fun v => ?_⟩
    · by_cases e : v = u
      · subst e; simp; omega
      · simpa [e] using h.view v
    · by_cases e : v = u
      · subst e; simp [hq]
      · simpa [e] using h.depth v

theorem G.exec {s₀ s : St} (h₀ : G s₀) {es : List (Nat × Ev)} (h : Exec s₀ es s) : G s := by
  induction h with
  | init => exact h₀
  | step _ hs ih => exact ih.step hs

/-- **C55**, termination: in every execution, with any number of threads that query, force and unforce,
every step of a thread brings it nearer to the end of its call, by at least one of at most six steps, and
leaves the other threads where they are. In particular, `inside_proc_macro` calls itself once at most. -/
theorem C55_steps {es : List (Nat × Ev)} {s s' : St} (h : Exec St.init es s) {t : Nat} {e : Ev}
    (hs : Step s t e s') :
    (∀ u, u ≠ t → s'.pc u = s.pc u) ∧ rank (s'.pc t) ≤ 6 ∧
    (IsCall e ∧ s.pc t = .idle ∨ rank (s'.pc t) < rank (s.pc t)) := by
  have hg := G.init.exec h
  have hdep := hg.depth t
  cases hs with
  | callQuery hp => exact ⟨fun u hu => by simp [hu], by simp [rank], .inl ⟨trivial, hp⟩⟩
  | callForce hp => exact ⟨fun u hu => by simp [hu], by simp [rank], .inl ⟨trivial, hp⟩⟩
  | callUnforce hp => exact ⟨fun u hu => by simp [hu], by simp [rank], .inl ⟨trivial, hp⟩⟩
  | loadFalse hp _ _ | loadTrue hp _ _ =>
    rw [hp] at hdep ⊢
    refine ⟨fun u hu => by simp [hu], by simp [rank], .inr ?_⟩
    rcases hdep with rfl | ⟨rfl, -⟩ <;> simp [rank]
  | @loadOther d i v hp hv hm h1 h2 =>
    rw [hp] at hdep ⊢
    rcases hdep with rfl | ⟨-, hd⟩
    · exact ⟨fun u hu => by simp [hu], by simp [rank], .inr (by simp [rank])⟩
    · have := hg.rest i v hm (by omega)
      omega
  | onceRun hp _ =>
    rw [hp] at hdep ⊢
    simp only at hdep
    subst hdep
    exact ⟨fun u hu => by simp [hu], by simp [rank], .inr (by simp [rank])⟩
  | onceDone hp _ =>
    rw [hp] at hdep ⊢
    simp only at hdep
    subst hdep
    exact ⟨fun u hu => by simp [hu], by simp [rank], .inr (by simp [rank])⟩
  | @detect o b hp =>
    rw [hp] at hdep ⊢
    refine ⟨fun u hu => by simp [hu], ?_, .inr ?_⟩ <;> cases o <;> simp_all [rank]
  | storeOnce hp _ _ =>
    rw [hp] at hdep ⊢
    simp only at hdep
    subst hdep
    exact ⟨fun u hu => by simp [hu], by simp [rank], .inr (by simp [rank])⟩
  | storeUnforce hp _ _ =>
    rw [hp]
    exact ⟨fun u hu => by simp [hu], by simp [rank], .inr (by simp [rank])⟩
  | leave hp =>
    rw [hp] at hdep ⊢
    obtain ⟨rfl, -⟩ := hdep
    exact ⟨fun u hu => by simp [hu], by simp [rank], .inr (by simp [rank])⟩
  | force hp _ _ =>
    rw [hp]
    exact ⟨fun u hu => by simp [hu], by simp [rank], .inr (by simp [rank])⟩
  | sync hp hq => exact ⟨fun u hu => rfl, by simp [hp, rank], .inl ⟨trivial, hp⟩⟩

/-- **C55**, no deadlock: a thread in a call can take a step, or it waits in `call_once` for a thread that
can take a step. -/
theorem C55_progress {es : List (Nat × Ev)} {s : St} (h : Exec St.init es s) {t : Nat} (ht : s.pc t ≠ .idle) :
    (∃ e s', Step s t e s') ∨
    (∃ d u e s', s.pc t = .once d ∧ s.once = .running u ∧ Step s u e s') := by
  have hg : G s := G.init.exec h
  have live : ∀ t, s.pc t ≠ .idle → (∀ d, s.pc t ≠ .once d) → ∃ e s', Step s t e s' := by
    intro t ht hn
    have hv := hg.view t
    cases hp : s.pc t with
    | idle => exact absurd hp ht
    | load d =>
      obtain ⟨v, hm⟩ : ∃ v, s.mo[s.view t]? = some v := ⟨_, List.getElem?_eq_getElem hv⟩
      by_cases h1 : v = 1
      · subst h1; exact ⟨_, _, .loadFalse hp (Nat.le_refl _) hm⟩
      · by_cases h2 : v = 2
        · subst h2; exact ⟨_, _, .loadTrue hp (Nat.le_refl _) hm⟩
        · exact ⟨_, _, .loadOther hp (Nat.le_refl _) hm h1 h2⟩
    | once d => exact absurd hp (hn d)
    | init o => exact ⟨_, _, .detect true hp⟩
    | store o b =>
      cases o with
      | none => exact ⟨_, _, .storeUnforce hp hv (Nat.le_refl _)⟩
      | some d => exact ⟨_, _, .storeOnce hp hv (Nat.le_refl _)⟩
    | leave d => exact ⟨_, _, .leave hp⟩
    | force => exact ⟨_, _, .force hp hv (Nat.le_refl _)⟩
  by_cases hn : ∀ d, s.pc t ≠ .once d
  · exact .inl (live t ht hn)
  · simp only [ne_eq, Classical.not_forall, Classical.not_not] at hn
    obtain ⟨d, hp⟩ := hn
    cases ho : s.once with
    | new => exact .inl ⟨_, _, .onceRun hp ho⟩
    | done w => exact .inl ⟨_, _, .onceDone hp ho⟩
    | running u =>
      have hu := (hg.run u).mpr ho
      obtain ⟨e, s', hs⟩ := live u (by intro e; rw [e] at hu; simp [inClosure] at hu)
        (by intro d e; rw [e] at hu; simp [inClosure] at hu)
      exact .inr ⟨d, u, e, s', hp, rfl, hs⟩

/-! ## Racing on first use -/

/-- What holds when neither `force` nor `unforce` is called. -/
structure Race (s : St) (es : List (Nat × Ev)) : Prop where
  pcs : ∀ t, s.pc t ≠ .force ∧ s.pc t ≠ .init none ∧ ∀ b, s.pc t ≠ .store none b
  phase :
    (s.mo = [0] ∧ detections es = [] ∧ answers es = [] ∧ ∀ t o b, s.pc t ≠ .store o b) ∨
    (∃ t b d, s.mo = [0] ∧ detections es = [b] ∧ answers es = [] ∧ s.pc t = .store (some d) b) ∨
    (∃ b, s.mo = [0, b.toNat + 1] ∧ detections es = [b] ∧ (∀ a ∈ answers es, a = b) ∧ s.once ≠ .new ∧
      ∀ t, (∀ o, s.pc t ≠ .init o) ∧ ∀ o b, s.pc t ≠ .store o b)

theorem detections_snoc (es : List (Nat × Ev)) (t : Nat) (e : Ev) :
    detections (es ++ [(t, e)]) = detections es ++ (match e with | .detect _ b => [b] | _ => []) := by
  simp only [detections, List.filterMap_append]
  cases e <;> rfl

theorem answers_snoc (es : List (Nat × Ev)) (t : Nat) (e : Ev) :
    answers (es ++ [(t, e)]) = answers es ++ (match e with | .ret b => [b] | _ => []) := by
  simp only [answers, List.filterMap_append]
  cases e <;> rfl

/-- A step that neither writes nor detects nor answers. -/
theorem Race.keep {s : St} {es : List (Nat × Ev)} (h : Race s es) {t : Nat} {e : Ev} {pc : PC}
    {view : Nat → Nat} {o : OnceState} (ho : s.once ≠ .new → o ≠ .new)
    (hold : ∀ o b, s.pc t ≠ .store o b)
    (hpc : pc ≠ .force ∧ pc ≠ .init none ∧ ∀ o b, pc ≠ .store o b)
    (hinit : ∀ d, pc = .init d → s.once = .new)
    (hd : detections (es ++ [(t, e)]) = detections es) (ha : answers (es ++ [(t, e)]) = answers es) :
    Race ⟨s.mo, view, o, upd s.pc t pc⟩ (es ++ [(t, e)]) where
  pcs u := by
    by_cases e : u = t
    · subst e; simp [hpc]
    · simpa [e] using h.pcs u
  phase := by
    rw [hd, ha]
    rcases h.phase with ⟨a1, a2, a3, a4⟩ | ⟨u, b, d, a1, a2, a3, a4⟩ | ⟨b, a1, a2, a3, a4, a5⟩
    · refine .inl ⟨a1, a2, a3, fun u => ?_⟩
      by_cases e : u = t
      · subst e; simpa using hpc.2.2
      · simpa [e] using a4 u
    · have : u ≠ t := by
        intro e; subst e; exact hold _ _ a4
      exact .inr (.inl ⟨u, b, d, a1, a2, a3, by simpa [this] using a4⟩)
    · refine .inr (.inr ⟨b, a1, a2, a3, ho a4, fun u => ?_⟩)
      by_cases e : u = t
      · subst e
        simp only [upd_self]
        exact ⟨fun o e => a4 (hinit o e), hpc.2.2⟩
      · simpa [e] using a5 u

theorem Race.step {s s' : St} {es : List (Nat × Ev)} (hg : G s) (h : Race s es) {t : Nat} {e : Ev}
    (hs : Step s t e s') (hf : e ≠ .callForce) (hu : e ≠ .callUnforce) : Race s' (es ++ [(t, e)]) := by
  have hpcs := h.pcs t
  have load : ∀ d b i, s.pc t = .load d → s.view t ≤ i → s.mo[i]? = some (b.toNat + 1) →
      Race { s with view := upd s.view t i, pc := upd s.pc t .idle } (es ++ [(t, .ret b)]) := by
    intro d b i hp hv hm
    constructor
    · intro u
      by_cases e : u = t
      · subst e; simp
      · simpa [e] using h.pcs u
    · rw [detections_snoc, answers_snoc]
      rcases h.phase with ⟨a1, -⟩ | ⟨u, b, d, a1, -⟩ | ⟨b', a1, a2, a3, a4, a5⟩
      · rw [a1] at hm
        cases i <;> simp at hm
      · rw [a1] at hm
        cases i <;> simp at hm
      · have hb : b = b' := by
          rw [a1] at hm
          rcases i with _ | _ | i
          · simp at hm
          · cases b <;> cases b' <;> simp_all
          · simp at hm
        subst hb
        refine .inr (.inr ⟨b, a1, by simpa using a2, ?_, a4, fun u => ?_⟩)
        · intro a ha
          simp only [List.mem_append, List.mem_singleton] at ha
          exact ha.elim (a3 a) id
        by_cases e : u = t
        · subst e; simp
        · simpa [e] using a5 u
  cases hs with
  | callQuery hp =>
    exact h.keep id (by simp [hp]) (by simp) (by simp) (by simp [detections_snoc]) (by simp [answers_snoc])
  | callForce hp => exact absurd rfl hf
  | callUnforce hp => exact absurd rfl hu
  | loadFalse hp hv hm => exact load _ false _ hp hv hm
  | loadTrue hp hv hm => exact load _ true _ hp hv hm
  | loadOther hp _ _ _ _ =>
    exact h.keep id (by simp [hp]) (by simp) (by simp) (by simp [detections_snoc]) (by simp [answers_snoc])
  | onceRun hp ho =>
    exact h.keep (by simp) (by simp [hp]) (by simp) (fun _ _ => ho) (by simp [detections_snoc])
      (by simp [answers_snoc])
  | onceDone hp _ =>
    exact h.keep id (by simp [hp]) (by simp) (by simp) (by simp [detections_snoc]) (by simp [answers_snoc])
  | @detect o b hp =>
    cases o with
    | none => exact absurd hp hpcs.2.1
    | some d =>
      constructor
      · intro u
        by_cases e : u = t
        · subst e; simp
        · simpa [e] using h.pcs u
      · rw [detections_snoc, answers_snoc]
        have hr : s.once = .running t := (hg.run t).mp (by rw [hp]; rfl)
        rcases h.phase with ⟨a1, a2, a3, -⟩ | ⟨u, b, d, a1, a2, a3, a4⟩ | ⟨b', a1, a2, a3, a4, a5⟩
        · exact .inr (.inl ⟨t, b, d, a1, by simp [a2], by simp [a3], by simp⟩)
        · have hr2 : s.once = .running u := (hg.run u).mp (by rw [a4]; rfl)
          rw [hr] at hr2
          simp at hr2
          subst hr2
          rw [hp] at a4
          simp at a4
        · exact absurd hp ((a5 t).1 _)
  | @storeOnce d b p hp h1 h2 =>
    have hr : s.once = .running t := (hg.run t).mp (by rw [hp]; rfl)
    constructor
    · intro u
      by_cases e : u = t
      · subst e; simp
      · simpa [e] using h.pcs u
    · rw [detections_snoc, answers_snoc]
      rcases h.phase with ⟨-, -, -, a⟩ | ⟨u, b', d', a1, a2, a3, a4⟩ | ⟨b', a1, a2, a3, a4, a5⟩
      · exact absurd hp (a t _ _)
      · have hr2 : s.once = .running u := (hg.run u).mp (by rw [a4]; rfl)
        rw [hr] at hr2
        simp at hr2
        subst hr2
        rw [hp] at a4
        simp at a4
        obtain ⟨rfl, rfl⟩ := a4
        rw [a1] at h2
        simp at h2
        obtain rfl : p = 1 := by omega
        refine .inr (.inr ⟨b, by simp [St.write, a1], by simpa using a2, by simp [a3], ?_, fun u => ?_⟩)
        · simp [St.write, hr]
        · by_cases e : u = t
          · subst e; simp
          · simp only [ne_eq, e, not_false_eq_true, upd_ne]
            have hu : ¬ inClosure (s.pc u) = true := by
              rw [hg.run u, hr]
              simp
              exact fun x => e x.symm
            have hp := h.pcs u
            constructor
            · intro o ho
              cases o with
              | none => exact hp.2.1 ho
              | some d => rw [ho] at hu; exact hu rfl
            · intro o b ho
              cases o with
              | none => exact hp.2.2 b ho
              | some d => rw [ho] at hu; exact hu rfl
      · exact absurd hp ((a5 t).2 _ _)
  | storeUnforce hp _ _ => exact absurd hp (hpcs.2.2 _)
  | leave hp =>
    exact h.keep (by simp) (by simp [hp]) (by simp) (by simp) (by simp [detections_snoc]) (by simp [answers_snoc])
  | force hp _ _ => exact absurd hp hpcs.1
  | @sync u hp hq =>
    refine ⟨h.pcs, ?_⟩
    rw [detections_snoc, answers_snoc]
    simpa using h.phase

theorem Race.exec {es : List (Nat × Ev)} {s : St} (h : Exec St.init es s) (hn : NoForce es) : Race s es := by
  induction h with
  | init =>
    exact ⟨by simp [St.init], .inl ⟨rfl, rfl, rfl, by simp [St.init]⟩⟩
  | @step es s t e s' h hs ih =>
    have := hn t
    simp only [List.mem_append, not_or] at this
    refine Race.step (G.init.exec h) (ih (fun u => ?_)) hs ?_ ?_
    · have := hn u
      simp only [List.mem_append, not_or] at this
      exact ⟨this.1.1, this.2.1⟩
    · rintro rfl; exact this.1.2 (by simp)
    · rintro rfl; exact this.2.2 (by simp)

/-- **C55**: any number of threads query, in any interleaving and with any values that relaxed loads can
return. Detection runs at most once, and every query answers what it found. -/
theorem C55_agree {es : List (Nat × Ev)} {s : St} (h : Exec St.init es s) (hn : NoForce es) :
    (detections es).length ≤ 1 ∧ ∀ a ∈ answers es, detections es = [a] := by
  rcases (Race.exec h hn).phase with ⟨-, a2, a3, -⟩ | ⟨-, b, -, -, a2, a3, -⟩ | ⟨b, -, a2, a3, -⟩
  · simp [a2, a3]
  · simp [a2, a3]
  · refine ⟨by simp [a2], fun a ha => ?_⟩
    rw [a2, a3 a ha]

/-- **C55**: every query returns whether the compiler's API is available, if `is_available` says so in
every thread. -/
theorem C55_available {es : List (Nat × Ev)} {s : St} (h : Exec St.init es s) (hn : NoForce es)
    (available : Bool) (ha : ∀ t q b, (t, Ev.detect q b) ∈ es → b = available)
    (t : Nat) (b : Bool) (hr : (t, Ev.ret b) ∈ es) : b = available := by
  have hb : b ∈ answers es := List.mem_filterMap.mpr ⟨_, hr, rfl⟩
  have hd := (C55_agree h hn).2 b hb
  have : b ∈ detections es := by rw [hd]; simp
  obtain ⟨⟨u, e⟩, he, hm⟩ := List.mem_filterMap.mp this
  cases e <;> simp at hm
  subst hm
  exact ha _ _ _ he

/-! ## Ordered histories -/

theorem historyOk_snoc {m : Option Bool} {es : List (Nat × Ev)} {x : Nat × Ev} :
    HistoryOk m (es ++ [x]) ↔ HistoryOk m es ∧ StepOk (decided m es) x.2 := by
  induction es generalizing m with
  | nil => simp [HistoryOk, decided]
  | cons y es ih => simp [HistoryOk, ih, decided, and_assoc]

theorem ordered_snoc {c : Nat} {es : List (Nat × Ev)} {x : Nat × Ev} :
    Ordered c (es ++ [x]) ↔ Ordered c es ∧ x.1 = actor c es := by
  induction es generalizing c with
  | nil =>
    obtain ⟨t, e⟩ := x
    cases e <;> simp [Ordered, actor, nextActor]
  | cons y es ih =>
    obtain ⟨t, e⟩ := y
    cases e <;> simp [Ordered, actor, nextActor, ih, and_assoc]

/-- What a thread knows to be decided: what it is about to store, or the newest write it knows. -/
def known (s : St) (c : Nat) : Option Bool :=
  match s.pc c with
  | .store _ b => some b
  | _ => match s.mo[s.view c]? with
    | some 1 => some false
    | some 2 => some true
    | _ => none

/-- What holds in ordered histories, `c` being the acting thread. -/
structure Seq (s : St) (c : Nat) (m : Option Bool) : Prop where
  others : ∀ u, u ≠ c → s.pc u = .idle
  newest : s.view c + 1 = s.mo.length
  mode : known s c = m
  undecided : (∃ d, s.pc c = .once d ∨ s.pc c = .init (some d)) → m = none

theorem Seq.write {s : St} {c : Nat} {m : Option Bool} (h : Seq s c m) {p x : Nat} (h1 : s.view c < p)
    (h2 : p ≤ s.mo.length) :
    (s.write c p x).view c + 1 = (s.write c p x).mo.length ∧
    (s.write c p x).mo[(s.write c p x).view c]? = some x := by
  have := h.newest
  obtain rfl : p = s.mo.length := by omega
  simp [St.write]

theorem Seq.step {s s' : St} {c : Nat} {m : Option Bool} (hg : G s) (h : Seq s c m) {e : Ev}
    (hs : Step s c e s') :
    StepOk m e ∧ Seq s' (nextActor c e) (decide1 m e) := by
  have hm := h.mode
  have hn := h.newest
  have ho : ∀ pc u, u ≠ c → upd s.pc c pc u = .idle := fun pc u hu => by simp [hu, h.others u hu]
  have load : ∀ i v, s.view c ≤ i → s.mo[i]? = some v → i = s.view c := by
    intro i v hi hv
    have := (List.getElem?_eq_some_iff.mp hv).1
    omega
  have hw := fun {p x} => h.write (p := p) (x := x)
  cases hs with
  | callQuery hp =>
    simp only [nextActor]
    refine ⟨trivial, ho _, hn, ?_, by simp⟩
    simpa [known, hp, decide1] using hm
  | callForce hp =>
    simp only [nextActor]
    refine ⟨trivial, ho _, hn, ?_, by simp⟩
    simpa [known, hp, decide1] using hm
  | callUnforce hp =>
    simp only [nextActor]
    refine ⟨trivial, ho _, hn, ?_, by simp⟩
    simpa [known, hp, decide1] using hm
  | @loadFalse d i hp hv he | @loadTrue d i hp hv he =>
    simp only [nextActor]
    obtain rfl := load i _ hv he
    simp [known, hp, he] at hm
    subst hm
    refine ⟨rfl, ho _, by simpa using hn, ?_, by simp⟩
    simp [known, he, decide1]
  | @loadOther d i v hp hv he h1 h2 =>
    simp only [nextActor]
    obtain rfl := load i _ hv he
    have : m = none := by
      rw [← hm]
      simp only [known, hp, he]
      split <;> simp_all
    subst this
    refine ⟨trivial, ho _, by simpa using hn, ?_, by simp [decide1]⟩
    simp only [known, upd_self, he, decide1]
    split <;> simp_all
  | @onceRun d hp ho' =>
    simp only [nextActor]
    have := h.undecided ⟨d, .inl hp⟩
    refine ⟨trivial, ho _, hn, ?_, fun _ => this⟩
    simpa [known, hp, decide1] using hm
  | @onceDone d w hp ho' =>
    simp only [nextActor]
    have := hg.done w ho'
    have hmax : max (s.view c) w = s.view c := by omega
    refine ⟨trivial, ho _, by simpa [hmax] using hn, ?_, by simp⟩
    simpa [known, hp, decide1, hmax] using hm
  | @detect o b hp =>
    simp only [nextActor]
    refine ⟨?_, ho _, hn, by simp [known, decide1], by simp⟩
    cases o with
    | none => trivial
    | some d => exact h.undecided ⟨d, .inr hp⟩
  | @storeOnce d b p hp h1 h2 =>
    simp only [nextActor]
    simp [known, hp] at hm
    subst hm
    refine ⟨trivial, ho _, (hw h1 h2).1, ?_, by simp⟩
    simp only [known, upd_self, (hw h1 h2).2, decide1]
    cases b <;> rfl
  | @storeUnforce b p hp h1 h2 =>
    simp only [nextActor]
    simp [known, hp] at hm
    subst hm
    refine ⟨trivial, ho _, (hw h1 h2).1, ?_, by simp⟩
    simp only [known, upd_self, (hw h1 h2).2, decide1]
    cases b <;> rfl
  | @leave d hp =>
    simp only [nextActor]
    refine ⟨trivial, ho _, hn, ?_, by simp⟩
    simpa [known, hp, decide1] using hm
  | @force p hp h1 h2 =>
    simp only [nextActor]
    refine ⟨trivial, ho _, (hw h1 h2).1, ?_, by simp⟩
    simp only [known, upd_self, (hw h1 h2).2, decide1]
  | @sync u hp hq =>
    simp only [nextActor]
    have := hg.view u
    have hmax : max (s.view u) (s.view c) = s.view c := by omega
    refine ⟨trivial, fun v hv => ?_, by simpa [hmax] using hn, ?_, by simp [hq]⟩
    · by_cases e : v = c
      · subst e; exact hp
      · exact h.others v e
    · simpa [known, hp, hq, decide1, hmax] using hm

theorem Seq.exec {c : Nat} {es : List (Nat × Ev)} {s : St} (h : Exec St.init es s) (ho : Ordered c es) :
    HistoryOk none es ∧ Seq s (actor c es) (decided none es) := by
  induction h with
  | init => exact ⟨trivial, by simp [St.init], rfl, rfl, fun _ => rfl⟩
  | @step es s t e s' h hs ih =>
    obtain ⟨h1, h2⟩ := ordered_snoc.mp ho
    obtain ⟨i1, i2⟩ := ih h1
    simp only at h2
    subst h2
    obtain ⟨k1, k2⟩ := i2.step (G.init.exec h) hs
    exact ⟨historyOk_snoc.mpr ⟨i1, k1⟩, by simpa [actor, decided] using k2⟩

/-- **C54**: in every history whose steps are ordered by happens-before (in particular, in a single
thread) a query answers what the last `force`, `unforce` or detection before it has decided, and it
detects only if nothing has been decided. -/
theorem C54_ordered {c : Nat} {es : List (Nat × Ev)} {s : St} (h : Exec St.init es s) (ho : Ordered c es) :
    HistoryOk none es := (Seq.exec h ho).1

/-- The informed threads after a step. -/
def learn (ks : List Nat) : Ev → List Nat
  | .sync u => u :: ks
  | _ => ks

/-- The informed threads after the steps. -/
def informed (ks : List Nat) (es : List (Nat × Ev)) : List Nat := es.foldl (fun ks e => learn ks e.2) ks

/-- What holds when something is decided and nothing is changed. -/
structure Settled (mo : List Nat) (ks : List Nat) (s : St) : Prop where
  memory : s.mo = mo
  pcs : ∀ t, s.pc t = .idle ∨ s.pc t = .load 0
  views : ∀ t ∈ ks, s.view t + 1 = mo.length

theorem Settled.step {mo ks : List Nat} {s s' : St} {b : Bool} (hm : mo.getLast? = some (b.toNat + 1))
    (hg : G s) (h : Settled mo ks s) {t : Nat} {e : Ev} (ht : t ∈ ks) (hs : Step s t e s')
    (hf : e ≠ .callForce) (hu : e ≠ .callUnforce) :
    (∀ a, e = .ret a → a = b) ∧ (∀ q a, e ≠ .detect q a) ∧
    Settled mo (learn ks e) s' := by
  obtain ⟨rfl, hp, hv⟩ := h
  have hvt := hv t ht
  have val : ∀ i v, s.view t ≤ i → s.mo[i]? = some v → i = s.view t ∧ v = b.toNat + 1 := by
    intro i v hi hv
    have := (List.getElem?_eq_some_iff.mp hv).1
    obtain rfl : i = s.view t := by omega
    rw [List.getLast?_eq_getElem?, ← hvt] at hm
    simp only [Nat.add_sub_cancel] at hm
    rw [hm] at hv
    simp at hv
    exact ⟨rfl, hv.symm⟩
  have hpc := hp t
  have upds : ∀ pc, pc = .idle ∨ pc = .load 0 → ∀ u, upd s.pc t pc u = .idle ∨ upd s.pc t pc u = .load 0 := by
    intro pc h u
    by_cases e : u = t
    · subst e; simpa using h
    · simpa [e] using hp u
  cases hs with
  | callQuery _ => exact ⟨by simp, by simp, rfl, upds _ (.inr rfl), hv⟩
  | callForce _ => exact absurd rfl hf
  | callUnforce _ => exact absurd rfl hu
  | loadFalse _ h1 h2 | loadTrue _ h1 h2 =>
    obtain ⟨rfl, e⟩ := val _ _ h1 h2
    refine ⟨?_, by simp, rfl, upds _ (.inl rfl), fun u hu => ?_⟩
    · intro a ha
      injection ha with ha
      subst ha
      cases b <;> simp at e ⊢
    · by_cases e : u = t
      · subst e; simpa using hvt
      · simpa [e] using hv u hu
  | loadOther _ h1 h2 n1 n2 =>
    obtain ⟨rfl, e⟩ := val _ _ h1 h2
    cases b <;> simp_all
  | onceRun e _ => simp [e] at hpc
  | onceDone e _ => simp [e] at hpc
  | detect _ e => simp [e] at hpc
  | storeOnce e _ _ => simp [e] at hpc
  | storeUnforce e _ _ => simp [e] at hpc
  | leave e => simp [e] at hpc
  | force e _ _ => simp [e] at hpc
  | @sync u _ _ =>
    refine ⟨by simp, by simp, rfl, hp, fun v hv' => ?_⟩
    by_cases e : v = u
    · subst e
      have := hg.view v
      simp
      omega
    · simp only [learn, List.mem_cons, e, false_or] at hv'
      simpa [e] using hv v hv'

theorem informed_snoc {ks : List Nat} {es : List (Nat × Ev)} {x : Nat × Ev} :
    Informed ks (es ++ [x]) ↔ Informed ks es ∧ x.1 ∈ informed ks es := by
  induction es generalizing ks with
  | nil =>
    obtain ⟨t, e⟩ := x
    cases e <;> simp [Informed, informed, learn]
  | cons y es ih =>
    obtain ⟨t, e⟩ := y
    cases e <;> simp [Informed, informed, learn, ih, and_assoc]

theorem Settled.exec {mo ks : List Nat} {s s' : St} {b : Bool} (hm : mo.getLast? = some (b.toNat + 1))
    (hg : G s) (h : Settled mo ks s) {es : List (Nat × Ev)} (he : Exec s es s') (hi : Informed ks es)
    (hn : NoForce es) :
    (∀ a ∈ answers es, a = b) ∧ detections es = [] ∧ Settled mo (informed ks es) s' := by
  induction he with
  | init => exact ⟨by simp [answers], rfl, h⟩
  | @step es s1 t e s2 he hs ih =>
    obtain ⟨i1, i2⟩ := informed_snoc.mp hi
    have := hn t
    simp only [List.mem_append, not_or] at this
    obtain ⟨h1, h2, h3⟩ := ih i1 (fun u => by
      have := hn u
      simp only [List.mem_append, not_or] at this
      exact ⟨this.1.1, this.2.1⟩)
    obtain ⟨k1, k2, k3⟩ := h3.step hm (hg.exec he) i2 hs (by rintro rfl; exact this.1.2 (by simp))
      (by rintro rfl; exact this.2.2 (by simp))
    refine ⟨?_, ?_, by simpa [informed] using k3⟩
    · intro a ha
      rw [answers_snoc] at ha
      simp only [List.mem_append] at ha
      rcases ha with ha | ha
      · exact h1 a ha
      · cases e <;> simp at ha
        subst ha
        exact k1 _ rfl
    · rw [detections_snoc, h2]
      cases e <;> simp
      exact k2 _ _ rfl

/-- **C54** and **C55**: once something is decided in an ordered history, then whatever threads run
afterwards and learn of it, in any interleaving, they answer this, and there is no detection, while no
thread forces or unforces. -/
theorem C54_settled {c : Nat} {es es' : List (Nat × Ev)} {s s' : St} {b : Bool} (h : Exec St.init es s)
    (ho : Ordered c es) (hidle : s.pc (actor c es) = .idle) (hd : decided none es = some b)
    (h' : Exec s es' s') (hi : Informed [actor c es] es') (hn : NoForce es') :
    (∀ a ∈ answers es', a = b) ∧ detections es' = [] := by
  obtain ⟨-, q⟩ := Seq.exec h ho
  have hnew := q.newest
  have hm : s.mo.getLast? = some (b.toNat + 1) := by
    have := q.mode
    rw [hd] at this
    simp only [known, hidle] at this
    rw [List.getLast?_eq_getElem?, ← hnew]
    simp only [Nat.add_sub_cancel]
    split at this <;> simp_all
    all_goals (subst this; rfl)
  have hs : Settled s.mo [actor c es] s := by
    refine ⟨rfl, fun t => .inl ?_, by simpa using hnew⟩
    by_cases e : t = actor c es
    · rw [e]; exact hidle
    · exact q.others t e
  obtain ⟨h1, h2, -⟩ := hs.exec hm (G.init.exec h) h' hi hn
  exact ⟨h1, h2⟩

/-! ## Examples -/

/-- A query of thread 0, from the start, that finds the compiler's API. -/
def queryEvents (t : Nat) (b : Bool) : List (Nat × Ev) :=
  [(t, .callQuery), (t, .other), (t, .other), (t, .detect true b), (t, .other), (t, .other), (t, .ret b)]

/-- The state after such a query. -/
example (t : Nat) (b : Bool) : ∃ s, Exec St.init (queryEvents t b) s ∧ s.pc t = .idle ∧
    NoForce (queryEvents t b) ∧ Ordered t (queryEvents t b) ∧ detections (queryEvents t b) = [b] ∧
    answers (queryEvents t b) = [b] ∧ decided none (queryEvents t b) = some b := by
  have e0 : Exec St.init [] St.init := .init
  have e1 := e0.step (.callQuery (t := t) rfl)
  have e2 := e1.step (.loadOther (t := t) (d := 0) (i := 0) (v := 0) (by simp) (by simp [St.init]) rfl (by simp) (by simp))
  have e3 := e2.step (.onceRun (t := t) (d := 0) (by simp) rfl)
  have e4 := e3.step (.detect (t := t) (o := some 0) b (by simp))
  have e5 := e4.step (.storeOnce (t := t) (d := 0) (b := b) (p := 1) (by simp) (by simp) (by simp [St.init]))
  have e6 := e5.step (.leave (t := t) (d := 0) (by simp))
  cases b with
  | false =>
    have e7 := e6.step (.loadFalse (t := t) (d := 1) (i := 1) (by simp) (by simp [St.write, St.init])
      (by simp [St.write, St.init]))
    exact ⟨_, e7, by simp, by simp [NoForce, queryEvents], by simp [Ordered, queryEvents], rfl, rfl, rfl⟩
  | true =>
    have e7 := e6.step (.loadTrue (t := t) (d := 1) (i := 1) (by simp) (by simp [St.write, St.init])
      (by simp [St.write, St.init]))
    exact ⟨_, e7, by simp, by simp [NoForce, queryEvents], by simp [Ordered, queryEvents], rfl, rfl, rfl⟩

/-- Why **C54** needs an order: thread 0 is in its first query and has asked `is_available`; thread 1
forces the fallback, which is then overwritten, and the next query of thread 1 uses the compiler's API,
although nobody has called `unforce`. -/
theorem C54_race : ∃ es s, Exec St.init es s ∧
    (∀ t, (t, Ev.callUnforce) ∉ es) ∧ es =
      [(0, .callQuery), (0, .other), (0, .other), (0, .detect true true), (1, .callForce), (1, .forced),
        (0, .other), (1, .callQuery), (1, .ret true)] := by
  have e0 : Exec St.init [] St.init := .init
  have e1 := e0.step (.callQuery (t := 0) rfl)
  have e2 := e1.step (.loadOther (t := 0) (d := 0) (i := 0) (v := 0) (by simp) (by simp [St.init]) rfl (by simp) (by simp))
  have e3 := e2.step (.onceRun (t := 0) (d := 0) (by simp) rfl)
  have e4 := e3.step (.detect (t := 0) (o := some 0) true (by simp))
  have e5 := e4.step (.callForce (t := 1) (by simp [St.init]))
  have e6 := e5.step (.force (t := 1) (p := 1) (by simp) (by simp [St.init]) (by simp [St.init]))
  have e7 := e6.step (.storeOnce (t := 0) (d := 0) (b := true) (p := 2) (by simp) (by simp [St.write, St.init])
    (by simp [St.write, St.init]))
  have e8 := e7.step (.callQuery (t := 1) (by simp))
  have e9 := e8.step (.loadTrue (t := 1) (d := 0) (i := 2) (by simp) (by simp [St.write, St.init])
    (by simp [St.write, St.init]))
  exact ⟨_, _, e9, by simp, rfl⟩

/-- Thread 0 forces the fallback and spawns thread 1, which queries. -/
example : ∃ es es' s s', Exec St.init es s ∧ Ordered 0 es ∧ s.pc (actor 0 es) = .idle ∧
    decided none es = some false ∧ Exec s es' s' ∧ Informed [actor 0 es] es' ∧ NoForce es' ∧
    answers es' = [false] := by
  have e0 : Exec St.init [] St.init := .init
  have e1 := e0.step (.callForce (t := 0) rfl)
  have e2 := e1.step (.force (t := 0) (p := 1) (by simp) (by simp [St.init]) (by simp [St.init]))
  have e3 := (Exec.init (s₀ := _)).step (Step.sync (t := 0) (u := 1)
    (s := { ({ St.init with pc := upd St.init.pc 0 .force }).write 0 1 1 with
      pc := upd (upd St.init.pc 0 .force) 0 .idle }) (by simp) (by simp [St.init]))
  have e4 := e3.step (.callQuery (t := 1) (by simp [St.init]))
  have e5 := e4.step (.loadFalse (t := 1) (d := 0) (i := 1) (by simp) (by simp [St.write, St.init])
    (by simp [St.write, St.init]))
  exact ⟨_, _, _, _, e2, by simp [Ordered], by simp [actor, nextActor], rfl, e5,
    by simp [Informed, actor, nextActor], by simp [NoForce], rfl⟩

/-- A thread forces, queries, unforces and queries again; what `is_available` says may change. -/
example : HistoryOk none
    [(0, .callForce), (0, .forced), (0, .callQuery), (0, .ret false), (0, .callUnforce),
     (0, .detect false true), (0, .other), (0, .callQuery), (0, .ret true)] ∧
  ¬ HistoryOk none [(0, .callForce), (0, .forced), (0, .callQuery), (0, .ret true)] := by
  simp [HistoryOk, StepOk, decide1]

end PM2.Props
