import Verif.Props.Detection
import Verif.Props.Wrapper
import Verif.Spec.Process
import Verif.Spec.SampleCompiler
import Verif.Spec.Decide
/-! # C97: threads of a process use one implementation -/

set_option linter.unusedSectionVars false

namespace PM2.Props
open Spec Wrap
open Detect (upd)
open Process (queries Internal)

section
variable [Compiler] [UnicodeTables] {σ : Type} [Rep σ]

/-! ### The mode matters only to the calls that ask for it -/

/-- **C97**: a call that does not ask `inside_proc_macro()` does not depend on the answer. -/
theorem C97_queries {s : State σ} {op : Op} (h : queries s op = false) (a b : Bool) :
    Wrap.step a s op = Wrap.step b s op := by
  cases op <;> first
    | rfl
    | (simp [queries] at h; done)
    | skip
  case punctNew ch sp =>
    simp only [queries] at h
    simp only [Wrap.step, Wrap.punctNew, h]
    rfl
  case collectStreams is =>
    cases is with
    | nil => simp [queries] at h
    | cons i is =>
      simp only [Wrap.step, State.streams]
      cases s.stream i with
      | ok x =>
        cases State.streams s is with
        | ok xs => rfl
        | _ => rfl
      | _ => rfl
  case errorSpan i =>
    simp only [queries] at h
    simp only [Wrap.step]
    split
    · rename_i e he
      rw [he] at h
      cases e with
      | fallback _ => rfl
      | _ => simp at h
    · rfl

/-! ### Runs -/

theorem run_snoc (s : State σ) (ops : List (Bool × Op)) (x : Bool × Op) :
    Wrap.run s (ops ++ [x]) = Wrap.run s ops >>= fun s => Wrap.step x.1 s x.2 := by
  induction ops generalizing s with
  | nil =>
    show (Wrap.step x.1 s x.2 >>= fun s => Out.ok s) = Wrap.step x.1 s x.2
    cases Wrap.step x.1 s x.2 <;> rfl
  | cons y ops ih =>
    obtain ⟨b, op⟩ := y
    show (Wrap.step b s op >>= fun s => Wrap.run s (ops ++ [x])) =
      (Wrap.step b s op >>= fun s => Wrap.run s ops) >>= _
    cases hs : Wrap.step b s op with
    | ok s' => exact ih s'
    | _ => rfl

/-- The call of an event. -/
private def callOf : Process.Ev → Option Op
  | .finish _ op | .plain op => some op
  | _ => none

private theorem step_thread {p p' : Process.St σ} {t : Nat} {e : Process.Ev} (h : Process.Step p t e p') (u : Nat)
    {m : Bool} (hm : ∀ b op, e = .finish b op → b = m) :
    p'.thread u = match (if t = u then callOf e else none) with
      | some op => p.thread u >>= fun s => Wrap.step m s op
      | none => p.thread u := by
  by_cases hu : t = u
  · subst hu
    rw [if_pos rfl]
    cases h with
    | start => rfl
    | finish h1 h2 h3 =>
      simp only [callOf, upd_self]
      rw [h1, ← hm _ _ rfl]
      rfl
    | plain h1 h2 h3 h4 =>
      simp only [callOf, upd_self]
      rw [h1, C97_queries h4 false m]
      rfl
    | force => rfl
    | internal => rfl
  · rw [if_neg hu]
    have hu' : u ≠ t := fun h => hu h.symm
    cases h <;> simp [hu']

/-- The executions of the process are executions of the detection. -/
theorem detect_exec {p₀ p : Process.St σ} {es : List (Nat × Process.Ev)} (h : Process.Exec p₀ es p) :
    Detect.Exec p₀.detect (Process.detectEvents es) p.detect := by
  induction h with
  | init => exact .init
  | @step es p t e p' _ hs ih =>
    unfold Process.detectEvents at ih ⊢
    rw [List.filterMap_append]
    cases hs with
    | start _ _ _ hd => exact ih.step hd
    | finish _ _ hd => exact ih.step hd
    | plain => simpa [Process.detectEvent] using ih
    | force _ _ _ hd => exact ih.step hd
    | internal _ _ _ hd => exact ih.step hd

private theorem calls_snoc (u : Nat) (es : List (Nat × Process.Ev)) (t : Nat) (e : Process.Ev) :
    Process.calls u (es ++ [(t, e)]) = Process.calls u es ++ (if t = u then callOf e else none).toList := by
  unfold Process.calls
  rw [List.filterMap_append]
  congr 1
  cases e <;> by_cases h : t = u <;> simp [h, callOf]

private theorem events_snoc (es : List (Nat × Process.Ev)) (t : Nat) (e : Process.Ev) :
    Process.detectEvents (es ++ [(t, e)]) =
      Process.detectEvents es ++ ((Process.detectEvent e).map (t, ·)).toList := by
  unfold Process.detectEvents
  rw [List.filterMap_append]
  cases e <;> rfl

private theorem answers_append (es es' : List (Nat × Detect.Ev)) : answers (es ++ es') = answers es ++ answers es' :=
  List.filterMap_append

private theorem run_mode {p₀ p : Process.St σ} {es : List (Nat × Process.Ev)} (h : Process.Exec p₀ es p) {m : Bool}
    (hm : ∀ a ∈ answers (Process.detectEvents es), a = m) (u : Nat) :
    p.thread u = p₀.thread u >>= fun s => runIn m s (Process.calls u es) := by
  induction h with
  | init =>
    show p₀.thread u = p₀.thread u >>= fun s => Out.ok s
    cases p₀.thread u <;> rfl
  | @step es p t e p' _ hs ih =>
    rw [events_snoc, answers_append] at hm
    have ih := ih (fun a ha => hm a (List.mem_append_left _ ha))
    rw [step_thread hs u (m := m) (by
      rintro b op rfl
      exact hm b (List.mem_append_right _ (by simp [Process.detectEvent, answers]))), calls_snoc]
    cases hc : (if t = u then callOf e else none) with
    | none =>
      rw [ih]
      simp
    | some op =>
      simp only [ih, Option.toList]
      cases hp : p₀.thread u with
      | ok s =>
        show runIn m s _ >>= _ = runIn m s _
        unfold runIn
        rw [List.map_append]
        exact (run_snoc _ _ (m, op)).symm
      | _ => rfl

/-! ### Nobody forces -/

/-- **C97**: in a process in which nobody calls `force` or `unforce`, the API of the compiler is looked for once
at most, and every thread behaves as if it ran alone with the implementation that was found then, however the
threads are interleaved. -/
theorem C97_uniform {p : Process.St σ} {es : List (Nat × Process.Ev)} (h : Process.Exec .init es p)
    (hn : NoForce (Process.detectEvents es)) :
    (detections (Process.detectEvents es)).length ≤ 1 ∧
    ∀ b, (∀ a ∈ detections (Process.detectEvents es), a = b) →
      ∀ t, p.thread t = runIn b .init (Process.calls t es) := by
  obtain ⟨h1, h2⟩ := C55_agree (detect_exec h) hn
  refine ⟨h1, fun b hb t => ?_⟩
  exact run_mode h (fun a ha => hb a (by rw [h2 a ha]; simp)) t

/-- **C97**: if moreover the API of the compiler is available either always or never, and no value of the compiler
gets into the process when it is not, then no thread ever hits the mismatch of both implementations, and all values
of all threads are of one of them. -/
theorem C97_no_mismatch {p : Process.St σ} {es : List (Nat × Process.Ev)} (h : Process.Exec .init es p)
    (hn : NoForce (Process.detectEvents es)) (available : Bool)
    (ha : ∀ a ∈ detections (Process.detectEvents es), a = available)
    (hi : available = false → ∀ t, ∀ op ∈ Process.calls t es, ¬ Imports op) (t : Nat) :
    p.thread t ≠ .mismatch ∧ ∀ s, p.thread t = .ok s → ∀ v ∈ s.vars, ValueOf available v := by
  have hr := (C97_uniform h hn).2 available ha t
  have := C57_homogeneous (σ := σ) (m := available) (s := .init)
    (ops := (Process.calls t es).map (available, ·)) (by simp [State.init]) (by
      intro x hx
      obtain ⟨op, -, rfl⟩ := List.mem_map.mp hx
      rfl) (by
      intro hf x hx
      obtain ⟨op, ho, rfl⟩ := List.mem_map.mp hx
      exact hi hf t op ho)
  unfold runIn at hr
  rw [← hr] at this
  exact this

/-! ### After a decision -/

/-- **C97**: after a history that is ordered by happens-before and that has decided for an implementation, by
finding it or by `force`, every thread that learns of it goes on with this implementation, however the threads are
interleaved, while nobody calls `force` or `unforce`. -/
theorem C97_settled {c : Nat} {p p' : Process.St σ} {es es' : List (Nat × Process.Ev)} {b : Bool}
    (h : Process.Exec .init es p) (ho : Ordered c (Process.detectEvents es))
    (hidle : p.detect.pc (actor c (Process.detectEvents es)) = .idle)
    (hd : decided none (Process.detectEvents es) = some b) (h' : Process.Exec p es' p')
    (hi : Informed [actor c (Process.detectEvents es)] (Process.detectEvents es'))
    (hn : NoForce (Process.detectEvents es')) (t : Nat) :
    p'.thread t = p.thread t >>= fun s => runIn b s (Process.calls t es') :=
  run_mode h' (C54_settled (detect_exec h) ho hidle hd (detect_exec h') hi hn).1 t

/-- **C97**: a process that calls `force` before anything else: all threads that learn of it use the fallback, no
value of the compiler appears unless it comes from outside, and nothing mismatches. -/
theorem C97_forced {c : Nat} {p p' : Process.St σ} {es' : List (Nat × Process.Ev)}
    (h : Process.Exec .init [(c, .detect .callForce), (c, .detect .forced)] p) (h' : Process.Exec p es' p')
    (hi : Informed [c] (Process.detectEvents es')) (hn : NoForce (Process.detectEvents es'))
    (him : ∀ t, ∀ op ∈ Process.calls t es', ¬ Imports op) (t : Nat) :
    p'.thread t = runIn false .init (Process.calls t es') ∧ p'.thread t ≠ .mismatch ∧
      ∀ s, p'.thread t = .ok s → ∀ v ∈ s.vars, ValueOf false v := by
  have hidle : p.detect.pc c = .idle := by
    have hx := detect_exec h
    generalize (Process.St.init (σ := σ)).detect = d₀ at hx
    generalize p.detect = d at hx ⊢
    generalize hes : Process.detectEvents [(c, .detect .callForce), (c, .detect .forced)] = es at hx
    have hes' : es = [(c, .callForce)] ++ [(c, .forced)] := hes.symm
    cases hx with
    | init => simp at hes'
    | step hx' hs =>
      obtain ⟨-, e2⟩ := List.append_inj' hes' rfl
      simp only [List.cons.injEq, Prod.mk.injEq, and_true] at e2
      obtain ⟨rfl, rfl⟩ := e2
      cases hs
      simp
  have ht : ∀ u, p.thread u = .ok .init := by
    intro u
    have := run_mode h (m := false) (by simp [Process.detectEvents, Process.detectEvent, answers]) u
    rw [this]
    rfl
  have hr := C97_settled (c := c) (b := false) h ⟨rfl, rfl, trivial⟩ hidle rfl h' hi hn t
  rw [ht t] at hr
  have hr' : p'.thread t = runIn false .init (Process.calls t es') := hr
  refine ⟨hr', ?_⟩
  have := C57_homogeneous (σ := σ) (m := false) (s := .init)
    (ops := (Process.calls t es').map (false, ·)) (by simp [State.init]) (by
      intro x hx
      obtain ⟨op, -, rfl⟩ := List.mem_map.mp hx
      rfl) (by
      intro _ x hx
      obtain ⟨op, ho, rfl⟩ := List.mem_map.mp hx
      exact him t op ho)
  unfold runIn at hr'
  rw [← hr'] at this
  exact this

/-! ### Ordered histories -/

private theorem decidedCalls_snoc (u : Nat) (m : Option Bool) (es : List (Nat × Process.Ev)) (t : Nat)
    (e : Process.Ev) : Process.decidedCalls u m (es ++ [(t, e)]) = Process.decidedCalls u m es ++
      ((if t = u then callOf e else none).toList.map ((decided m (Process.detectEvents es)).getD false, ·)) := by
  induction es generalizing m with
  | nil =>
    cases e <;> by_cases h : t = u <;> simp [Process.decidedCalls, Process.detectEvents, decided, h, callOf]
  | cons x es ih =>
    obtain ⟨v, e'⟩ := x
    simp only [List.cons_append, Process.decidedCalls]
    rw [ih, List.append_assoc]
    congr 2
    cases e' <;> simp [Process.detectEvents, Process.detectEvent, decided]

/-- **C97**: in a history that is ordered by happens-before, with `force` and `unforce` anywhere, every call runs
with what was decided last. -/
theorem C97_ordered {c : Nat} {p : Process.St σ} {es : List (Nat × Process.Ev)} (h : Process.Exec .init es p)
    (ho : Ordered c (Process.detectEvents es)) (t : Nat) :
    p.thread t = Wrap.run .init (Process.decidedCalls t none es) := by
  have hk := C54_ordered (detect_exec h) ho
  clear ho
  induction h with
  | init => rfl
  | @step es p u e p' hx hs ih =>
    rw [events_snoc] at hk
    have hk' : HistoryOk none (Process.detectEvents es) ∧
        ∀ d, Process.detectEvent e = some d → StepOk (decided none (Process.detectEvents es)) d := by
      cases hd : Process.detectEvent e with
      | none => rw [hd] at hk; exact ⟨by simpa using hk, by simp⟩
      | some d =>
        rw [hd] at hk
        have := historyOk_snoc.mp hk
        exact ⟨this.1, by rintro _ ⟨⟩; exact this.2⟩
    have ih := ih hk'.1
    rw [step_thread hs t (m := (decided none (Process.detectEvents es)).getD false) (by
      rintro b op rfl
      have := hk'.2 _ rfl
      simp only [StepOk] at this
      rw [this]; rfl), decidedCalls_snoc]
    cases hc : (if u = t then callOf e else none) with
    | none => rw [ih]; simp
    | some op =>
      simp only [ih, Option.toList, List.map_cons, List.map_nil]
      exact (run_snoc (σ := σ) _ _ (_, op)).symm

/-! ### Progress -/

/-- The thread is in `inside_proc_macro`. -/
private def inQuery : Detect.PC → Bool
  | .load _ | .once _ | .init (some _) | .store (some _) _ | .leave _ => true
  | _ => false

private structure Waits {σ : Type} (p : Process.St σ) : Prop where
  query : ∀ t, inQuery (p.detect.pc t) = (p.call t).isSome
  alive : ∀ t, p.call t ≠ none → ∃ s, p.thread t = .ok s

private theorem pc_step {s s' : Detect.St} {t : Nat} {e : Detect.Ev} (h : Detect.Step s t e s') :
    (∀ u, u ≠ t → s'.pc u = s.pc u) ∧ match e with
      | .callQuery => inQuery (s'.pc t) = true
      | .ret _ => inQuery (s'.pc t) = false ∧ inQuery (s.pc t) = true
      | _ => inQuery (s'.pc t) = inQuery (s.pc t) := by
  cases h with
  | @detect o b hp =>
    refine ⟨fun u hu => by simp [hu], ?_⟩
    rw [hp]
    simp only [upd_self]
    cases o <;> rfl
  | _ => simp_all [inQuery, Detect.St.write] <;> (intro u hu; simp [hu])

private theorem Waits.step {p p' : Process.St σ} {t : Nat} {e : Process.Ev} (hw : Waits p)
    (h : Process.Step p t e p') : Waits p' := by
  cases h with
  | start h1 h2 h3 hd =>
    obtain ⟨g1, g2⟩ := pc_step hd
    refine ⟨fun u => ?_, fun u => ?_⟩
    · by_cases hu : u = t
      · subst hu; simpa using g2
      · simpa [hu, g1 u hu] using hw.query u
    · by_cases hu : u = t
      · subst hu; exact fun _ => ⟨_, h1⟩
      · simpa [hu] using hw.alive u
  | finish h1 h2 hd =>
    obtain ⟨g1, g2⟩ := pc_step hd
    refine ⟨fun u => ?_, fun u => ?_⟩
    · by_cases hu : u = t
      · subst hu; simpa using g2.1
      · simpa [hu, g1 u hu] using hw.query u
    · by_cases hu : u = t
      · subst hu; simp
      · simpa [hu] using hw.alive u
  | plain h1 h2 h3 h4 =>
    refine ⟨hw.query, fun u => ?_⟩
    by_cases hu : u = t
    · subst hu; exact fun h => absurd h2 h
    · simpa [hu] using hw.alive u
  | force h1 h2 he hd =>
    obtain ⟨g1, g2⟩ := pc_step hd
    refine ⟨fun u => ?_, hw.alive⟩
    by_cases hu : u = t
    · subst hu
      have := hw.query u
      rcases he with rfl | rfl
      · simpa [this] using g2
      · simpa [this] using g2
    · simpa [g1 u hu] using hw.query u
  | @internal e d hi h1 h2 hd =>
    obtain ⟨g1, g2⟩ := pc_step hd
    refine ⟨fun u => ?_, hw.alive⟩
    by_cases hu : u = t
    · subst hu
      have := hw.query u
      cases e <;> first
        | exact hi.elim
        | simpa [this] using g2
    · simpa [g1 u hu] using hw.query u

private theorem Waits.exec {p : Process.St σ} {es : List (Nat × Process.Ev)} (h : Process.Exec .init es p) :
    Waits p := by
  induction h with
  | init => exact ⟨fun _ => rfl, fun _ h => absurd rfl h⟩
  | step _ hs ih => exact ih.step hs

private theorem lift_step {p : Process.St σ} (hw : Waits p) {t : Nat} {e : Detect.Ev} {d : Detect.St}
    (hd : Detect.Step p.detect t e d) (hq : p.detect.pc t ≠ .idle) : ∃ e p', Process.Step p t e p' := by
  have key : e ≠ .callQuery ∧ e ≠ .callForce ∧ e ≠ .callUnforce := by
    refine ⟨?_, ?_, ?_⟩ <;> rintro rfl <;> cases hd <;> exact hq (by assumption)
  by_cases hr : ∃ b, e = .ret b
  · obtain ⟨b, rfl⟩ := hr
    have h1 := (pc_step hd).2.2
    rw [hw.query t, Option.isSome_iff_exists] at h1
    obtain ⟨op, hop⟩ := h1
    obtain ⟨s, hs⟩ := hw.alive t (by rw [hop]; simp)
    exact ⟨_, _, .finish hs hop hd⟩
  · refine ⟨_, _, .internal ?_ key.2.1 key.2.2 hd⟩
    cases e <;> first
      | trivial
      | exact absurd rfl key.1
      | exact absurd ⟨_, rfl⟩ hr

/-- **C97**: no deadlock. A thread whose call waits for `inside_proc_macro()` can take a step, or another thread is
in the closure of `call_once` and can take one. By C55_steps there are at most six steps to the answer. -/
theorem C97_progress {p : Process.St σ} {es : List (Nat × Process.Ev)} (h : Process.Exec .init es p) {t : Nat}
    (ht : p.call t ≠ none) :
    (∃ e p', Process.Step p t e p') ∨
    (∃ u e p', p.detect.once = .running u ∧ Process.Step p u e p') := by
  have hw := Waits.exec h
  have hq : inQuery (p.detect.pc t) = true := by
    rw [hw.query t]
    exact Option.isSome_iff_ne_none.mpr ht
  have hidle : p.detect.pc t ≠ .idle := by
    intro hx; rw [hx] at hq; simp [inQuery] at hq
  rcases C55_progress (detect_exec h) hidle with ⟨e, d, hd⟩ | ⟨_, u, e, d, -, hu, hd⟩
  · exact .inl (lift_step hw hd hidle)
  · refine .inr ?_
    have hg := G.init.exec (detect_exec h)
    have hin := (hg.run u).mpr hu
    have : p.detect.pc u ≠ .idle := by
      intro hx; rw [hx] at hin; simp [inClosure] at hin
    obtain ⟨e, p', hs⟩ := lift_step hw hd this
    exact ⟨u, e, p', hu, hs⟩

end

/-! ### Examples -/

section
attribute [local instance] sampleCompiler sampleTables

/-- Two threads race to find the compiler's API; thread 1 looks for it while thread 0 waits. -/
private theorem race_example : ∃ p : Process.St Deferred, Process.Exec .init
    [(0, .start .callSite), (1, .start .new), (0, .detect .other), (1, .detect .other), (1, .detect .other),
      (1, .detect (.detect true true)), (1, .detect .other), (1, .detect .other), (0, .detect .other),
      (0, .finish true .callSite), (1, .finish true .new), (0, .plain (.clone 0))] p := by
  have e0 : Process.Exec (σ := Deferred) .init [] .init := .init
  have e1 := e0.step (.start (t := 0) (op := .callSite) rfl rfl rfl (.callQuery rfl))
  have e2 := e1.step (.start (t := 1) (op := .new) rfl rfl rfl (.callQuery rfl))
  have e3 := e2.step (.internal (e := .other) (t := 0) trivial (by simp) (by simp) (.loadOther (i := 0) (v := 0) (d := 0) rfl (by decide)
    rfl (by decide) (by decide)))
  have e4 := e3.step (.internal (e := .other) (t := 1) trivial (by simp) (by simp) (.loadOther (i := 0) (v := 0) (d := 0) rfl (by decide)
    rfl (by decide) (by decide)))
  have e5 := e4.step (.internal (e := .other) (t := 1) trivial (by simp) (by simp) (.onceRun (d := 0) rfl rfl))
  have e6 := e5.step (.internal (e := (.detect true true)) (t := 1) trivial (by simp) (by simp) (.detect (o := some 0) true rfl))
  have e7 := e6.step (.internal (e := .other) (t := 1) trivial (by simp) (by simp) (.storeOnce (d := 0) (b := true) (p := 1) rfl
    (by decide) (by decide)))
  have e8 := e7.step (.internal (e := .other) (t := 1) trivial (by simp) (by simp) (.leave (d := 0) rfl))
  have e9 := e8.step (.internal (e := .other) (t := 0) trivial (by simp) (by simp) (.onceDone (d := 0) (w := 1) rfl rfl))
  have e10 := e9.step (.finish (t := 0) (s := .init) (op := .callSite) rfl rfl
    (.loadTrue (d := 1) (i := 1) rfl (by decide) rfl))
  have e11 := e10.step (.finish (t := 1) (s := .init) (op := .new) rfl rfl
    (.loadTrue (d := 1) (i := 1) rfl (by decide) rfl))
  have e12 := e11.step (.plain (t := 0) (op := .clone 0) rfl rfl rfl rfl)
  exact ⟨_, e12⟩

/-- Thread 0 forces the fallback and starts thread 1, and both make a value. -/
private theorem forced_example : ∃ p p' : Process.St Deferred,
    Process.Exec .init [(0, .detect .callForce), (0, .detect .forced)] p ∧
    Process.Exec p [(0, .detect (.sync 1)), (1, .start .new), (0, .start .callSite), (1, .finish false .new),
      (0, .finish false .callSite)] p' := by
  have e0 : Process.Exec (σ := Deferred) .init [] .init := .init
  have e1 := e0.step (.force (t := 0) rfl rfl (.inl rfl) (.callForce rfl))
  have e2 := e1.step (.internal (e := .forced) (t := 0) trivial (by simp) (by simp) (.force (p := 1) rfl (by decide) (by decide)))
  let q : Process.St Deferred := ⟨{ Detect.St.write { Detect.St.init with pc := upd Detect.St.init.pc 0 .force } 0 1 1 with
    pc := upd (upd Detect.St.init.pc 0 .force) 0 .idle }, fun _ => .ok .init, fun _ => none⟩
  have f0 : Process.Exec (σ := Deferred) q [] q := .init
  have f1 := f0.step (.internal (e := (.sync 1)) (t := 0) trivial (by simp) (by simp) (.sync (u := 1) rfl rfl))
  have f2 := f1.step (.start (t := 1) (op := .new) rfl rfl rfl (.callQuery rfl))
  have f3 := f2.step (.start (t := 0) (op := .callSite) rfl rfl rfl (.callQuery rfl))
  have f4 := f3.step (.finish (t := 1) (s := .init) (op := .new) rfl rfl
    (.loadFalse (d := 0) (i := 1) rfl (by decide) rfl))
  have f5 := f4.step (.finish (t := 0) (s := .init) (op := .callSite) rfl rfl
    (.loadFalse (d := 0) (i := 1) rfl (by decide) rfl))
  exact ⟨q, _, e2, f5⟩

example : ∃ p : Process.St Deferred, ∃ es, Process.Exec .init es p ∧ NoForce (Process.detectEvents es) ∧
    detections (Process.detectEvents es) = [true] ∧ Process.calls 0 es = [.callSite, .clone 0] ∧
    p.thread 0 = runIn true .init [.callSite, .clone 0] ∧ p.thread 1 = runIn true .init [.new] := by
  obtain ⟨p, h⟩ := race_example
  have hn : NoForce (Process.detectEvents
    [(0, .start .callSite), (1, .start .new), (0, .detect .other), (1, .detect .other), (1, .detect .other),
      (1, .detect (.detect true true)), (1, .detect .other), (1, .detect .other), (0, .detect .other),
      (0, .finish true .callSite), (1, .finish true .new), (0, .plain (.clone 0))]) := by
    intro t
    simp [Process.detectEvents, Process.detectEvent]
  have hu := (C97_uniform h hn).2 true (by decide)
  exact ⟨p, _, h, hn, rfl, rfl, hu 0, hu 1⟩

example : ∃ p' : Process.St Deferred, p'.thread 1 = runIn false .init [.new] ∧
    p'.thread 0 = runIn false .init [.callSite] := by
  obtain ⟨p, p', h, h'⟩ := forced_example
  have hn : NoForce (Process.detectEvents [(0, .detect (.sync 1)), (1, .start .new), (0, .start .callSite),
      (1, .finish false .new), (0, .finish false .callSite)]) := by
    intro t
    simp [Process.detectEvents, Process.detectEvent]
  have him : ∀ t, ∀ op ∈ Process.calls t [(0, .detect (.sync 1)), (1, .start .new), (0, .start .callSite),
      (1, .finish false .new), (0, .finish false .callSite)], ¬ Imports op := by
    intro t op hop
    simp only [Process.calls, List.filterMap_cons, List.filterMap_nil] at hop
    have : op = .new ∨ op = .callSite := by
      split at hop <;> (try split at hop) <;> simp_all
    rcases this with rfl | rfl <;> exact id
  have hi : Informed [0] (Process.detectEvents [(0, .detect (.sync 1)), (1, .start .new), (0, .start .callSite),
      (1, .finish false .new), (0, .finish false .callSite)]) := by
    simp [Process.detectEvents, Process.detectEvent, Informed]
  exact ⟨p', (C97_forced h h' hi hn him 1).1, (C97_forced h h' hi hn him 0).1⟩

end

end PM2.Props
