import Verif.Props.PanicHook
import Verif.Props.Process
import Verif.Spec.OldProcess
/-! # C106: processes before rustc 1.57 -/

set_option linter.unusedSectionVars false

namespace PM2.Props
open Spec Wrap
open Detect (upd)
open Hook (Handler)
open Process (queries)
open OldProcess (report)

section
variable [Compiler] [UnicodeTables] {σ : Type} [Rep σ]

theorem old_hookEvents_snoc (es : List (Nat × OldProcess.Ev)) (t : Nat) (e : OldProcess.Ev) :
    OldProcess.hookEvents (es ++ [(t, e)]) =
      OldProcess.hookEvents es ++ (OldProcess.hookEvent e).map (t, ·) := by
  simp [OldProcess.hookEvents]

/-- The executions of the process are executions of the detection. -/
theorem old_hook_exec {p₀ p : OldProcess.St σ} {es : List (Nat × OldProcess.Ev)} (h : OldProcess.Exec p₀ es p) :
    Hook.Exec p₀.hook (OldProcess.hookEvents es) p.hook := by
  have ran : ∀ {s₀ s : Hook.St} {es t} {o : Out (State σ)}, Hook.Exec s₀ es s → s.pc t = .idle →
      Hook.Exec s₀ (es ++ ((report s.hook o).map Hook.Ev.ran).toList.map (t, ·)) s := by
    intro s₀ s es t o hx ht
    cases hr : report s.hook o with
    | none => simpa using hx
    | some h' =>
      have : h' = s.hook := by cases o <;> simp_all [report]
      subst this
      exact hx.step (.ran ht)
  induction h with
  | init => exact .init
  | @step es p t e p' _ hs ih =>
    rw [old_hookEvents_snoc]
    cases hs with
    | start _ _ _ hd => exact ih.step hd
    | @finish s op b d _ _ hd =>
      have hi : d.pc t = .idle := by cases hd <;> simp
      have := ran (o := Wrap.step b s op) (ih.step hd) hi
      simpa [OldProcess.hookEvent] using this
    | plain _ _ hi _ => exact ran ih hi
    | force _ _ _ hd => exact ih.step hd
    | internal _ hd => exact ih.step hd
    | panics _ hd => exact ih.step hd

/-- The process with `is_available` that does the same. -/
structure OldSim (p : OldProcess.St σ) (q : Process.St σ) (es : List (Nat × OldProcess.Ev)) : Prop where
  abs : Abs p.hook q.detect
  run : RunOk p.hook
  same : ∀ t, p.hook.pc t ≠ .panicked → p.thread t = q.thread t ∧ p.call t = q.call t
  dead : ∀ t, p.hook.pc t = .panicked → p.thread t = .panic ∧ p.call t = none ∧
    ((t, .hook .race) ∈ es ∨ (t, .hook .poisoned) ∈ es)

theorem hook_pc_other {s s' : Hook.St} {t : Nat} {e : Hook.Ev} (h : Hook.Step s t e s') {u : Nat} (hu : u ≠ t) :
    s'.pc u = s.pc u := by
  cases h <;> simp [hu, Hook.St.write]

theorem hook_pc_alive {s s' : Hook.St} {t : Nat} {e : Hook.Ev} (h : Hook.Step s t e s')
    (he : e ≠ .race ∧ e ≠ .poisoned) : s.pc t ≠ .panicked ∧ s'.pc t ≠ .panicked := by
  cases h <;> simp_all

theorem hook_pc_panics {s s' : Hook.St} {t : Nat} {e : Hook.Ev} (h : Hook.Step s t e s')
    (he : e = .race ∨ e = .poisoned) : s'.pc t = .panicked := by
  cases h <;> simp_all

theorem old_processEvents_snoc (es : List (Nat × OldProcess.Ev)) (t : Nat) (e : OldProcess.Ev) :
    OldProcess.processEvents (es ++ [(t, e)]) =
      OldProcess.processEvents es ++ ((OldProcess.asProcess e).map (t, ·)).toList := by
  simp only [OldProcess.processEvents, List.filterMap_append]
  cases h : OldProcess.asProcess e <;> simp [h]

theorem OldSim.mono {p : OldProcess.St σ} {q : Process.St σ} {es es' : List (Nat × OldProcess.Ev)}
    (h : OldSim p q es) (hs : es ⊆ es') : OldSim p q es' :=
  ⟨h.abs, h.run, h.same, fun t ht => let ⟨a, b, c⟩ := h.dead t ht; ⟨a, b, c.imp (hs ·) (hs ·)⟩⟩

theorem old_exec {p : OldProcess.St σ} {es : List (Nat × OldProcess.Ev)} (h : OldProcess.Exec .init es p) :
    ∃ q, Process.Exec .init (OldProcess.processEvents es) q ∧ OldSim p q es := by
  induction h with
  | init => exact ⟨.init, .init, Abs.init, RunOk.init, fun _ _ => ⟨rfl, rfl⟩, fun _ ht => by cases ht⟩
  | @step es p t e p' _ hs ih =>
    obtain ⟨q, hq, sim⟩ := ih
    have sub : es ⊆ es ++ [(t, e)] := List.subset_append_left _ _
    rw [old_processEvents_snoc]
    -- a step of the detection of a thread that lives
    have live : ∀ {e' d}, Hook.Step p.hook t e' d → e' ≠ .race → e' ≠ .poisoned →
        p.hook.pc t ≠ .panicked ∧ d.pc t ≠ .panicked ∧ ∀ u, u ≠ t → d.pc u = p.hook.pc u :=
      fun hd h1 h2 => ⟨(hook_pc_alive hd ⟨h1, h2⟩).1, (hook_pc_alive hd ⟨h1, h2⟩).2, fun u hu => hook_pc_other hd hu⟩
    cases hs with
    | @start s op d h1 h2 h3 hd =>
      obtain ⟨l1, l2, l3⟩ := live hd (by simp) (by simp)
      obtain ⟨a, k1, k2⟩ := sim.abs.step sim.run hd
      obtain ⟨s1, s2⟩ := sim.same t l1
      refine ⟨_, hq.step (.start (op := op) (s1 ▸ h1) (s2 ▸ h2) h3 k1), k2, sim.run.step hd, fun u hu => ?_, fun u hu => ?_⟩
      · by_cases e : u = t
        · subst e; exact ⟨s1, by simp⟩
        · have := sim.same u (by rw [← l3 u e]; exact hu)
          simpa [e] using this
      · by_cases e : u = t
        · subst e; exact absurd hu l2
        · obtain ⟨x, y, z⟩ := (sim.mono sub).dead u (by rw [← l3 u e]; exact hu)
          exact ⟨x, by simpa [e] using y, z⟩
    | @finish s op b d h1 h2 hd =>
      obtain ⟨l1, l2, l3⟩ := live hd (by simp) (by simp)
      obtain ⟨a, k1, k2⟩ := sim.abs.step sim.run hd
      obtain ⟨s1, s2⟩ := sim.same t l1
      refine ⟨_, hq.step (.finish (op := op) (s1 ▸ h1) (s2 ▸ h2) k1), k2, sim.run.step hd, fun u hu => ?_, fun u hu => ?_⟩
      · by_cases e : u = t
        · subst e; simp
        · have := sim.same u (by rw [← l3 u e]; exact hu)
          simpa [e] using this
      · by_cases e : u = t
        · subst e; exact absurd hu l2
        · obtain ⟨x, y, z⟩ := (sim.mono sub).dead u (by rw [← l3 u e]; exact hu)
          exact ⟨by simpa [e] using x, by simpa [e] using y, z⟩
    | @plain s op h1 h2 h3 h4 =>
      obtain ⟨s1, s2⟩ := sim.same t (by rw [h3]; simp)
      have hidle : q.detect.pc t = .idle := by
        have := sim.abs.pc t
        rw [h3] at this
        generalize q.detect.pc t = x at this ⊢
        cases this; rfl
      refine ⟨_, hq.step (.plain (op := op) (s1 ▸ h1) (s2 ▸ h2) hidle h4), sim.abs, sim.run, fun u hu => ?_, fun u hu => ?_⟩
      · by_cases e : u = t
        · subst e; exact ⟨by simp, s2⟩
        · simpa [e] using sim.same u hu
      · by_cases e : u = t
        · subst e
          have hu : p.hook.pc u = .panicked := hu
          rw [h3] at hu; cases hu
        · simpa [e] using (sim.mono sub).dead u hu
    | @force s e d h1 h2 he hd =>
      obtain ⟨l1, l2, l3⟩ := live hd (by simp) (by simp)
      obtain ⟨a, k1, k2⟩ := sim.abs.step sim.run hd
      obtain ⟨s1, s2⟩ := sim.same t l1
      refine ⟨_, hq.step (.force (s1 ▸ h1) (s2 ▸ h2) he k1), k2, sim.run.step hd, fun u hu => ?_, fun u hu => ?_⟩
      · by_cases e : u = t
        · subst e; exact ⟨s1, s2⟩
        · exact sim.same u (by rw [← l3 u e]; exact hu)
      · by_cases e : u = t
        · subst e; exact absurd hu l2
        · exact (sim.mono sub).dead u (by rw [← l3 u e]; exact hu)
    | @internal e d hi hd =>
      have hne : e ≠ .race ∧ e ≠ .poisoned := by constructor <;> rintro rfl <;> exact hi
      obtain ⟨l1, l2, l3⟩ := live hd hne.1 hne.2
      obtain ⟨a, k1, k2⟩ := sim.abs.step sim.run hd
      have fin : ∀ q' : Process.St σ, q'.thread = q.thread → q'.call = q.call → q'.detect = a →
          OldSim { p with hook := d } q' (es ++ [(t, .hook e)]) := by
        intro q' e1 e2 e3
        refine ⟨by rw [e3]; exact k2, sim.run.step hd, fun u hu => ?_, fun u hu => ?_⟩
        · rw [e1, e2]
          by_cases e : u = t
          · subst e; exact sim.same u l1
          · exact sim.same u (by rw [← l3 u e]; exact hu)
        · by_cases e : u = t
          · subst e; exact absurd hu l2
          · exact (sim.mono sub).dead u (by rw [← l3 u e]; exact hu)
      cases hd' : asDetect e with
      | none =>
        rw [hd'] at k1
        simp only at k1
        refine ⟨q, ?_, fin q rfl rfl k1.symm⟩
        simpa [OldProcess.asProcess, hd'] using hq
      | some e' =>
        rw [hd'] at k1
        have hi' : Process.Internal e' ∧ e' ≠ .callForce ∧ e' ≠ .callUnforce := by
          cases e with
          | api x =>
            simp only [asDetect, Option.some.injEq] at hd'
            subst hd'
            cases x <;> first
              | exact hi.elim
              | exact ⟨trivial, by simp, by simp⟩
          | probe x y z =>
            simp only [asDetect, Option.some.injEq] at hd'
            subst hd'
            exact ⟨trivial, by simp, by simp⟩
          | _ => simp [asDetect] at hd'
        refine ⟨_, ?_, fin { q with detect := a } rfl rfl rfl⟩
        simpa [OldProcess.asProcess, hd'] using hq.step (.internal hi'.1 hi'.2.1 hi'.2.2 k1)
    | @panics e d he hd =>
      obtain ⟨a, k1, k2⟩ := sim.abs.step sim.run hd
      have hn : asDetect e = none := by rcases he with rfl | rfl <;> rfl
      rw [hn] at k1
      simp only at k1
      subst k1
      refine ⟨q, by simpa [OldProcess.asProcess, hn] using hq, k2, sim.run.step hd, fun u hu => ?_, fun u hu => ?_⟩
      · by_cases e' : u = t
        · subst e'; exact absurd (hook_pc_panics hd he) hu
        · simpa [e'] using sim.same u (by rw [← hook_pc_other hd e']; exact hu)
      · by_cases e' : u = t
        · subst e'
          refine ⟨by simp, by simp, ?_⟩
          rcases he with rfl | rfl
          · left; simp
          · right; simp
        · obtain ⟨x, y, z⟩ := (sim.mono sub).dead u (by rw [← hook_pc_other hd e']; exact hu)
          exact ⟨by simpa [e'] using x, by simpa [e'] using y, z⟩

/-- **C106**: whatever a process does, some process with `is_available` does the same, but that a thread can end in the
panic "observed race condition" or in that of a poisoned `Once`. -/
theorem C106_simulated {p : OldProcess.St σ} {es : List (Nat × OldProcess.Ev)} (h : OldProcess.Exec .init es p) :
    ∃ q, Process.Exec .init (OldProcess.processEvents es) q ∧ ∀ t,
      p.thread t = q.thread t ∧ p.call t = q.call t ∨
      p.thread t = .panic ∧ p.call t = none ∧ ((t, .hook .race) ∈ es ∨ (t, .hook .poisoned) ∈ es) := by
  obtain ⟨q, h1, h2⟩ := old_exec h
  refine ⟨q, h1, fun t => ?_⟩
  by_cases ht : p.hook.pc t = .panicked
  · exact .inr (h2.dead t ht)
  · exact .inl (h2.same t ht)

/-- **C106**: if nobody calls `unforce`, and the program does not set or take the panic hook while a detection has taken
it, then the detection never panics, and the process does what some process with `is_available` does. -/
theorem C106_calm {p : OldProcess.St σ} {es : List (Nat × OldProcess.Ev)} (h : OldProcess.Exec .init es p)
    (hn : NoUnforce (OldProcess.hookEvents es)) (hq : Quiet [] (OldProcess.hookEvents es)) :
    ∃ q, Process.Exec .init (OldProcess.processEvents es) q ∧ p.thread = q.thread ∧ p.call = q.call := by
  obtain ⟨q, h1, h2⟩ := old_exec h
  have hx := old_hook_exec h
  have hp := (C76_calm hx hq (C76_once hx hn)).2.2
  exact ⟨q, h1, funext fun t => (h2.same t (hp t)).1, funext fun t => (h2.same t (hp t)).2⟩

/-- **C106**: a call that panics, by itself or by a mismatch, while no detection has taken the hook is reported to the
hook that the program has registered; other calls are not reported. -/
theorem C106_reported {p : OldProcess.St σ} {es : List (Nat × OldProcess.Ev)} (h : OldProcess.Exec .init es p)
    (hn : NoUnforce (OldProcess.hookEvents es)) (hq : Quiet [] (OldProcess.hookEvents es))
    {t : Nat} {e : OldProcess.Ev} {p' : OldProcess.St σ} (hs : OldProcess.Step p t e p')
    (hh : holders [] (OldProcess.hookEvents es) = []) {r : Option Handler}
    (he : (∃ b op, e = .finish b op r) ∨ ∃ op, e = .plain op r) :
    (p'.thread t = .panic ∨ p'.thread t = .mismatch) ∧ r = some (programHook .default (OldProcess.hookEvents es)) ∨
      p'.thread t ≠ .panic ∧ p'.thread t ≠ .mismatch ∧ r = none := by
  have hx := old_hook_exec h
  have hcur := (C76_calm hx hq (C76_once hx hn)).2.1 hh
  rcases he with ⟨b, op, rfl⟩ | ⟨op, rfl⟩
  · cases hs with
    | @finish s _ _ d h1 h2 hd =>
      have e1 : d.hook = p.hook.hook := by cases hd <;> rfl
      rw [← hcur, ← e1]
      simp only [upd_self]
      generalize Wrap.step b s op = o
      cases o <;> simp [report]
  · cases hs with
    | @plain s _ h1 h2 h3 h4 =>
      rw [← hcur]
      simp only [upd_self]
      generalize Wrap.step false s op = o
      cases o <;> simp [report]

/-- The thread has ended in a panic of the detection. -/
def DetectionPanic (p : OldProcess.St σ) (es : List (Nat × OldProcess.Ev)) (t : Nat) : Prop :=
  p.thread t = .panic ∧ ((t, .hook .race) ∈ es ∨ (t, .hook .poisoned) ∈ es)

/-- **C106**: in a process in which nobody calls `force` or `unforce`, the API of the compiler is looked for once at
most, and every thread behaves as if it ran alone with the implementation that was found then, or has ended in a panic
of the detection. -/
theorem C106_uniform {p : OldProcess.St σ} {es : List (Nat × OldProcess.Ev)} (h : OldProcess.Exec .init es p)
    (hn : NoForce (Process.detectEvents (OldProcess.processEvents es))) :
    (detections (Process.detectEvents (OldProcess.processEvents es))).length ≤ 1 ∧
    ∀ b, (∀ a ∈ detections (Process.detectEvents (OldProcess.processEvents es)), a = b) →
      ∀ t, p.thread t = runIn b .init (Process.calls t (OldProcess.processEvents es)) ∨ DetectionPanic p es t := by
  obtain ⟨q, h1, h2⟩ := C106_simulated h
  obtain ⟨k1, k2⟩ := C97_uniform h1 hn
  refine ⟨k1, fun b hb t => ?_⟩
  rcases h2 t with ⟨e, -⟩ | ⟨x, -, y⟩
  · exact .inl (e.trans (k2 b hb t))
  · exact .inr ⟨x, y⟩

/-- **C106**: if moreover the API of the compiler works either always or never, and no value of the compiler gets into
the process when it does not, no thread ever hits the mismatch of both implementations, and all values of all threads are
of one of them. -/
theorem C106_no_mismatch {p : OldProcess.St σ} {es : List (Nat × OldProcess.Ev)} (h : OldProcess.Exec .init es p)
    (hn : NoForce (Process.detectEvents (OldProcess.processEvents es))) (works : Bool)
    (ha : ∀ a ∈ detections (Process.detectEvents (OldProcess.processEvents es)), a = works)
    (hi : works = false → ∀ t, ∀ op ∈ Process.calls t (OldProcess.processEvents es), ¬ Imports op) (t : Nat) :
    p.thread t ≠ .mismatch ∧ ∀ s, p.thread t = .ok s → ∀ v ∈ s.vars, ValueOf works v := by
  obtain ⟨q, h1, h2⟩ := C106_simulated h
  rcases h2 t with ⟨e, -⟩ | ⟨x, -, y⟩
  · rw [e]
    exact C97_no_mismatch h1 hn works ha hi t
  · rw [x]
    exact ⟨by simp, by simp⟩

/-- **C106**: in a history that is ordered by happens-before, with `force` and `unforce` anywhere, every call runs with
what was decided last. -/
theorem C106_ordered {c : Nat} {p : OldProcess.St σ} {es : List (Nat × OldProcess.Ev)}
    (h : OldProcess.Exec .init es p) (ho : Ordered c (Process.detectEvents (OldProcess.processEvents es))) (t : Nat) :
    p.thread t = Wrap.run .init (Process.decidedCalls t none (OldProcess.processEvents es)) ∨
      DetectionPanic p es t := by
  obtain ⟨q, h1, h2⟩ := C106_simulated h
  rcases h2 t with ⟨e, -⟩ | ⟨x, -, y⟩
  · exact .inl (e.trans (C97_ordered h1 ho t))
  · exact .inr ⟨x, y⟩

/-! ### Progress -/

/-- The thread is in `inside_proc_macro`. -/
private def inOldQuery : Hook.PC → Bool
  | .load _ | .once _ | .take1 (some _) | .set1 (some _) _ _ | .probe (some _) _ _ | .store (some _) _ _ _
  | .take2 (some _) _ _ | .set2 (some _) _ _ _ | .check (some _) _ _ | .leave _ => true
  | _ => false

private structure OldWaits {σ : Type} (p : OldProcess.St σ) : Prop where
  query : ∀ t, inOldQuery (p.hook.pc t) = (p.call t).isSome
  alive : ∀ t, p.call t ≠ none → ∃ s, p.thread t = .ok s

private theorem old_pc_step {s s' : Hook.St} {t : Nat} {e : Hook.Ev} (h : Hook.Step s t e s') :
    match e with
      | .api .callQuery => inOldQuery (s'.pc t) = true
      | .api (.ret _) => inOldQuery (s'.pc t) = false ∧ inOldQuery (s.pc t) = true
      | .race | .poisoned => inOldQuery (s'.pc t) = false
      | _ => inOldQuery (s'.pc t) = inOldQuery (s.pc t) := by
  cases h with
  | @take1 o _ hp | @set1 o _ _ hp | @probe o _ _ _ hp | @take2 o _ _ hp | @set2 o _ _ _ hp =>
    simp only [hp, upd_self]
    cases o <;> rfl
  | @store o _ _ _ _ hp =>
    simp only [hp, upd_self]
    cases o <;> rfl
  | _ => simp_all [inOldQuery, Hook.St.write]

private theorem OldWaits.exec {p : OldProcess.St σ} {es : List (Nat × OldProcess.Ev)} (h : OldProcess.Exec .init es p) :
    OldWaits p := by
  induction h with
  | init => exact ⟨fun _ => rfl, fun _ h => absurd rfl h⟩
  | @step es p t e p' _ hs hw =>
    cases hs with
    | start h1 h2 h3 hd =>
      have g := old_pc_step hd
      refine ⟨fun u => ?_, fun u => ?_⟩
      · by_cases hu : u = t
        · subst hu; simpa using g
        · simpa [hu, hook_pc_other hd hu] using hw.query u
      · by_cases hu : u = t
        · subst hu; exact fun _ => ⟨_, h1⟩
        · simpa [hu] using hw.alive u
    | finish h1 h2 hd =>
      have g := old_pc_step hd
      refine ⟨fun u => ?_, fun u => ?_⟩
      · by_cases hu : u = t
        · subst hu; simpa using g.1
        · simpa [hu, hook_pc_other hd hu] using hw.query u
      · by_cases hu : u = t
        · subst hu; simp
        · simpa [hu] using hw.alive u
    | plain h1 h2 h3 h4 =>
      refine ⟨hw.query, fun u => ?_⟩
      by_cases hu : u = t
      · subst hu; exact fun h => absurd h2 h
      · simpa [hu] using hw.alive u
    | force h1 h2 he hd =>
      have g := old_pc_step hd
      refine ⟨fun u => ?_, hw.alive⟩
      by_cases hu : u = t
      · subst hu
        have := hw.query u
        rcases he with rfl | rfl
        · simpa [this] using g
        · simpa [this] using g
      · simpa [hook_pc_other hd hu] using hw.query u
    | @internal e d hi hd =>
      have g := old_pc_step hd
      refine ⟨fun u => ?_, hw.alive⟩
      by_cases hu : u = t
      · subst hu
        have := hw.query u
        cases e with
        | api x => cases x <;> first
            | exact hi.elim
            | simpa [this] using g
        | race => exact hi.elim
        | poisoned => exact hi.elim
        | _ => simpa [this] using g
      · simpa [hook_pc_other hd hu] using hw.query u
    | panics he hd =>
      have g := old_pc_step hd
      refine ⟨fun u => ?_, fun u => ?_⟩
      · by_cases hu : u = t
        · subst hu
          rcases he with rfl | rfl <;> simpa using g
        · simpa [hu, hook_pc_other hd hu] using hw.query u
      · by_cases hu : u = t
        · subst hu; simp
        · simpa [hu] using hw.alive u

private theorem old_lift_step {p : OldProcess.St σ} (hw : OldWaits p) {t : Nat} {e : Hook.Ev} {d : Hook.St}
    (hd : Hook.Step p.hook t e d) (hq : p.hook.pc t ≠ .idle) : ∃ e p', OldProcess.Step p t e p' := by
  have key : e ≠ .api .callQuery ∧ e ≠ .api .callForce ∧ e ≠ .api .callUnforce := by
    refine ⟨?_, ?_, ?_⟩ <;> rintro rfl <;> cases hd <;> exact hq (by assumption)
  by_cases hr : ∃ b, e = .api (.ret b)
  · obtain ⟨b, rfl⟩ := hr
    have h1 := (old_pc_step hd).2
    rw [hw.query t, Option.isSome_iff_exists] at h1
    obtain ⟨op, hop⟩ := h1
    obtain ⟨s, hs⟩ := hw.alive t (by rw [hop]; simp)
    exact ⟨_, _, .finish hs hop hd⟩
  · by_cases hp : e = .race ∨ e = .poisoned
    · exact ⟨_, _, .panics hp hd⟩
    · refine ⟨_, _, .internal ?_ hd⟩
      cases e with
      | api x => cases x <;> first
          | trivial
          | exact absurd rfl key.1
          | exact absurd rfl key.2.1
          | exact absurd rfl key.2.2
          | exact absurd ⟨_, rfl⟩ hr
      | race => exact absurd (.inl rfl) hp
      | poisoned => exact absurd (.inr rfl) hp
      | _ => trivial

/-- **C106**: no deadlock. A thread whose call waits for `inside_proc_macro()` can take a step, or another thread is in
the closure of `call_once` and can take one. By C77_steps there are at most twelve steps to the answer. -/
theorem C106_progress {p : OldProcess.St σ} {es : List (Nat × OldProcess.Ev)} (h : OldProcess.Exec .init es p) {t : Nat}
    (ht : p.call t ≠ none) :
    (∃ e p', OldProcess.Step p t e p') ∨
    (∃ u e p', p.hook.once = .running u ∧ OldProcess.Step p u e p') := by
  have hw := OldWaits.exec h
  have hq : inOldQuery (p.hook.pc t) = true := by
    rw [hw.query t]
    exact Option.isSome_iff_ne_none.mpr ht
  have hidle : p.hook.pc t ≠ .idle := by
    intro hx; rw [hx] at hq; simp [inOldQuery] at hq
  have hpan : p.hook.pc t ≠ .panicked := by
    intro hx; rw [hx] at hq; simp [inOldQuery] at hq
  have hx := old_hook_exec h
  rcases C77_progress hx hidle hpan with ⟨e, d, hd⟩ | ⟨_, u, e, d, -, hu, hd⟩
  · exact .inl (old_lift_step hw hd hidle)
  · refine .inr ?_
    obtain ⟨_, -, -, hr⟩ := Abs.init.exec .init hx
    have hin := (hr u).mpr hu
    have : p.hook.pc u ≠ .idle := by
      intro hx; rw [hx] at hin; simp [hookClosure] at hin
    obtain ⟨e, p', hs⟩ := old_lift_step hw hd this
    exact ⟨u, e, p', hu, hs⟩

end

/-! ### Examples -/

section
attribute [local instance] sampleCompiler sampleTables

/-- Thread 1 registers a hook and makes a punctuation of a character that is none, which panics; thread 0 finds out
that there is no compiler, and makes a stream. -/
private theorem old_example : ∃ p : OldProcess.St Deferred, OldProcess.Exec .init
    [(1, .hook (.set (.user 3))), (1, .plain (.punctNew 'a' .alone) (some (.user 3))), (0, .start .new),
      (0, .hook (.api .other)), (0, .hook (.api .other)), (0, .hook (.enter (.user 3))), (0, .hook .internal),
      (0, .hook (.probe true false (.null 7))), (0, .hook (.api .other)), (0, .hook .internal),
      (0, .hook (.exit (.user 3))), (0, .hook .internal), (0, .hook (.api .other)), (0, .finish false .new none)] p := by
  have e0 : OldProcess.Exec (σ := Deferred) .init [] .init := .init
  have e1 := e0.step (.internal (t := 1) (e := .set (.user 3)) trivial (.set (.user 3) rfl))
  have e2 := e1.step (.plain (t := 1) (op := .punctNew 'a' .alone) rfl rfl rfl rfl)
  have e3 := e2.step (.start (t := 0) (op := .new) rfl rfl rfl (.callQuery rfl))
  have e4 := e3.step (.internal (t := 0) (e := .api .other) trivial (.loadOther (i := 0) (v := 0) (d := 0) rfl (by decide)
    rfl (by decide) (by decide)))
  have e5 := e4.step (.internal (t := 0) (e := .api .other) trivial (.onceRun (d := 0) rfl rfl))
  have e6 := e5.step (.internal (t := 0) (e := .enter (.user 3)) trivial (.take1 (o := some 0) 7 rfl))
  have e7 := e6.step (.internal (t := 0) (e := .internal) trivial (.set1 (o := some 0) (addr := 7) (orig := .user 3) rfl))
  have e8 := e7.step (.internal (t := 0) (e := .probe true false (.null 7)) trivial
    (.probe (o := some 0) (addr := 7) (orig := .user 3) false rfl))
  have e9 := e8.step (.internal (t := 0) (e := .api .other) trivial
    (.store (o := some 0) (addr := 7) (orig := .user 3) (works := false) (p := 1) rfl (by decide) (by decide)))
  have e10 := e9.step (.internal (t := 0) (e := .internal) trivial (.take2 (o := some 0) (addr := 7) (orig := .user 3) rfl))
  have e11 := e10.step (.internal (t := 0) (e := .exit (.user 3)) trivial
    (.set2 (o := some 0) (addr := 7) (orig := .user 3) (got := .null 7) rfl))
  have e12 := e11.step (.internal (t := 0) (e := .internal) trivial (.checkOnce (d := 0) (addr := 7) rfl))
  have e13 := e12.step (.internal (t := 0) (e := .api .other) trivial (.leave (d := 0) rfl))
  have e14 := e13.step (.finish (t := 0) (s := .init) (op := .new) rfl rfl
    (.loadFalse (d := 1) (i := 1) rfl (by decide) rfl))
  exact ⟨_, e14⟩

example : ∃ p : OldProcess.St Deferred, ∃ es, OldProcess.Exec .init es p ∧
    NoForce (Process.detectEvents (OldProcess.processEvents es)) ∧ NoUnforce (OldProcess.hookEvents es) ∧
    Quiet [] (OldProcess.hookEvents es) ∧ detections (Process.detectEvents (OldProcess.processEvents es)) = [false] ∧
    p.thread 0 = runIn false .init [.new] ∧ p.thread 1 = .panic := by
  obtain ⟨p, h⟩ := old_example
  have hn : NoForce (Process.detectEvents (OldProcess.processEvents
    [(1, .hook (.set (.user 3))), (1, .plain (.punctNew 'a' .alone) (some (.user 3))), (0, .start .new),
      (0, .hook (.api .other)), (0, .hook (.api .other)), (0, .hook (.enter (.user 3))), (0, .hook .internal),
      (0, .hook (.probe true false (.null 7))), (0, .hook (.api .other)), (0, .hook .internal),
      (0, .hook (.exit (.user 3))), (0, .hook .internal), (0, .hook (.api .other)), (0, .finish false .new none)])) := by
    intro t
    simp [OldProcess.processEvents, OldProcess.asProcess, asDetect, Process.detectEvents, Process.detectEvent]
  have hu := (C106_uniform h hn).2 false (by decide)
  have h0 := (hu 0).resolve_right (by simp [DetectionPanic])
  have h1 := (hu 1).resolve_right (by simp [DetectionPanic])
  refine ⟨p, _, h, hn, ?_, ?_, rfl, h0, h1⟩
  · intro t; simp [OldProcess.hookEvents, OldProcess.hookEvent]
  · simp [OldProcess.hookEvents, OldProcess.hookEvent, Quiet, QuietStep, holders1]

end

end PM2.Props
