import Verif.Props.Detection
import Verif.Spec.PanicHook
/-! # C75-C77: detection before rustc 1.57, with the panic hook -/

namespace PM2.Props
open Spec Hook
open Detect (upd)

/-! ## It is detection -/

/-- Where the thread is in `Model/Detection.lean`. A thread that has panicked is there for ever. -/
inductive PcRel : Hook.PC → Detect.PC → Prop
  | idle : PcRel .idle .idle
  | load {d} : PcRel (.load d) (.load d)
  | once {d} : PcRel (.once d) (.once d)
  | take1 {o} : PcRel (.take1 o) (.init o)
  | set1 {o a h} : PcRel (.set1 o a h) (.init o)
  | probe {o a h} : PcRel (.probe o a h) (.init o)
  | store {o a h w} : PcRel (.store o a h w) (.store o w)
  | take2 {d a h} : PcRel (.take2 (some d) a h) (.leave d)
  | set2 {d a h g} : PcRel (.set2 (some d) a h g) (.leave d)
  | check {d a g} : PcRel (.check (some d) a g) (.leave d)
  | take2' {a h} : PcRel (.take2 none a h) .idle
  | set2' {a h g} : PcRel (.set2 none a h g) .idle
  | check' {a g} : PcRel (.check none a g) .idle
  | leave {d} : PcRel (.leave d) (.leave d)
  | force : PcRel .force .force
  | panicked {p} : PcRel .panicked p

inductive OnceRel : Hook.OnceState → Detect.OnceState → Prop
  | new : OnceRel .new .new
  | running {t} : OnceRel (.running t) (.running t)
  | done {w} : OnceRel (.done w) (.done w)
  | poisoned {t} : OnceRel .poisoned (.running t)

/-- Is the thread in the closure of `call_once`? -/
def hookClosure : Hook.PC → Bool
  | .take1 (some _) | .set1 (some _) _ _ | .probe (some _) _ _ | .store (some _) _ _ _
  | .take2 (some _) _ _ | .set2 (some _) _ _ _ | .check (some _) _ _ | .leave _ => true
  | _ => false

structure Abs (s : Hook.St) (a : Detect.St) : Prop where
  mo : a.mo = s.mo
  view : a.view = s.view
  once : OnceRel s.once a.once
  pc : ∀ t, PcRel (s.pc t) (a.pc t)

theorem Abs.init : Abs Hook.St.init Detect.St.init := ⟨rfl, rfl, .new, fun _ => .idle⟩

theorem Abs.pcs {f : Nat → Hook.PC} {g : Nat → Detect.PC} (h : ∀ t, PcRel (f t) (g t)) (t : Nat)
    {p : Hook.PC} {q : Detect.PC} (hp : PcRel p q) (u : Nat) : PcRel (upd f t p u) (upd g t q u) := by
  by_cases e : u = t
  · subst e; simpa using hp
  · simpa [e] using h u

theorem Abs.pcs' {f : Nat → Hook.PC} {g : Nat → Detect.PC} (h : ∀ t, PcRel (f t) (g t)) (t : Nat)
    {p : Hook.PC} (hp : PcRel p (g t)) (u : Nat) : PcRel (upd f t p u) (g u) := by
  by_cases e : u = t
  · subst e; simpa using hp
  · simpa [e] using h u

theorem Abs.write {s : Hook.St} {a : Detect.St} (h : Abs s a) (t p x : Nat) {q : Hook.PC} {q' : Detect.PC}
    (hq : PcRel q q') : Abs { s.write t p x with pc := upd s.pc t q } { a.write t p x with pc := upd a.pc t q' } where
  mo := by simp [Hook.St.write, Detect.St.write, h.mo]
  view := by simp [Hook.St.write, Detect.St.write, h.view]
  once := by
    have ho := h.once
    simp only [Hook.St.write, Detect.St.write]
    generalize s.once = x at ho ⊢
    generalize a.once = y at ho ⊢
    cases ho <;> constructor
  pc := Abs.pcs h.pc t hq

/-- Exactly the thread that runs the closure of `call_once` is in it. -/
def RunOk (s : Hook.St) : Prop := ∀ t, hookClosure (s.pc t) = true ↔ s.once = .running t

theorem RunOk.init : RunOk Hook.St.init := by intro t; simp [Hook.St.init, hookClosure]

theorem RunOk.pcs {s : Hook.St} (h : RunOk s) {t : Nat} {p : Hook.PC}
    (hp : hookClosure p = hookClosure (s.pc t)) (u : Nat) :
    hookClosure (upd s.pc t p u) = true ↔ s.once = .running u := by
  by_cases e : u = t
  · subst e; simpa [hp] using h u
  · simpa [e] using h u

theorem RunOk.end_ {s : Hook.St} (h : RunOk s) {t : Nat} (ht : hookClosure (s.pc t) = true) {p : Hook.PC}
    (hp : hookClosure p = false) {o : Hook.OnceState} (ho : ∀ u, o ≠ .running u) (u : Nat) :
    hookClosure (upd s.pc t p u) = true ↔ o = .running u := by
  have := (h t).mp ht
  by_cases e : u = t
  · subst e; simp [hp, ho]
  · simp [e, ho]
    cases hc : hookClosure (s.pc u) with
    | false => rfl
    | true => rw [(h u).mp hc] at this; simp at this; exact absurd this e

theorem RunOk.step {s s' : Hook.St} {t : Nat} {e : Hook.Ev} (h : RunOk s) (hs : Hook.Step s t e s') :
    RunOk s' := by
  have hw : ∀ p x, ∀ u, (s.write t p x).once = .running u ↔ s.once = .running u := by
    intro p x u; simp only [Hook.St.write]; cases s.once <;> simp
  cases hs with
  | callQuery k | callForce k | callUnforce k | loadFalse k _ _ | loadTrue k _ _ | loadOther k _ _ _ _
  | onceDone k _ | oncePoisoned k _ | raceUnforce k _ | checkUnforce k | checkOnce k =>
    exact h.pcs (by simp [k, hookClosure])
  | @take1 o _ k | @set1 o _ _ k | @probe o _ _ _ k | @take2 o _ _ k | @set2 o _ _ _ k =>
    exact h.pcs (by rw [k]; cases o <;> rfl)
  | @store o _ _ _ _ k _ _ =>
    intro u
    simp only [hw]
    exact h.pcs (by rw [k]; cases o <;> rfl) u
  | force k _ _ =>
    intro u
    simp only [hw]
    exact h.pcs (by simp [k, hookClosure]) u
  | onceRun k k1 =>
    intro u
    by_cases e : u = t
    · subst e; simp [hookClosure]
    · have := h u
      rw [k1] at this
      simp [e, Ne.symm e] at this ⊢
      exact this
  | raceOnce k _ => exact h.end_ (by simp [k, hookClosure]) rfl (by simp)
  | leave k => exact h.end_ (by simp [k, hookClosure]) rfl (by simp)
  | sync _ _ | set _ _ | took _ | ran _ => exact h

theorem Abs.step {s s' : Hook.St} {a : Detect.St} {t : Nat} {e : Hook.Ev} (h : Abs s a) (hr : RunOk s)
    (hs : Hook.Step s t e s') :
    ∃ a', (match asDetect e with
      | some e' => Detect.Step a t e' a'
      | none => a' = a) ∧ Abs s' a' := by
  have hp := h.pc t
  cases hs with
  | callQuery k =>
    rw [k] at hp
    generalize hq : a.pc t = q at hp
    cases hp
    exact ⟨_, Detect.Step.callQuery hq, ⟨h.mo, h.view, h.once, Abs.pcs h.pc t .load⟩⟩
  | callForce k =>
    rw [k] at hp
    generalize hq : a.pc t = q at hp
    cases hp
    exact ⟨_, Detect.Step.callForce hq, ⟨h.mo, h.view, h.once, Abs.pcs h.pc t .force⟩⟩
  | callUnforce k =>
    rw [k] at hp
    generalize hq : a.pc t = q at hp
    cases hp
    exact ⟨_, Detect.Step.callUnforce hq, ⟨h.mo, h.view, h.once, Abs.pcs h.pc t .take1⟩⟩
  | loadFalse k k1 k2 =>
    rw [k] at hp
    generalize hq : a.pc t = q at hp
    cases hp
    exact ⟨_, Detect.Step.loadFalse hq (by rw [h.view]; exact k1) (by rw [h.mo]; exact k2), ⟨h.mo, by simp only [h.view], h.once, Abs.pcs h.pc t .idle⟩⟩
  | loadTrue k k1 k2 =>
    rw [k] at hp
    generalize hq : a.pc t = q at hp
    cases hp
    exact ⟨_, Detect.Step.loadTrue hq (by rw [h.view]; exact k1) (by rw [h.mo]; exact k2), ⟨h.mo, by simp only [h.view], h.once, Abs.pcs h.pc t .idle⟩⟩
  | loadOther k k1 k2 k3 k4 =>
    rw [k] at hp
    generalize hq : a.pc t = q at hp
    cases hp
    exact ⟨_, Detect.Step.loadOther hq (by rw [h.view]; exact k1) (by rw [h.mo]; exact k2) k3 k4, ⟨h.mo, by simp only [h.view], h.once, Abs.pcs h.pc t .once⟩⟩
  | onceRun k k1 =>
    rw [k] at hp
    have ho := h.once
    rw [k1] at ho
    generalize hq : a.pc t = q at hp
    generalize hr : a.once = r at ho
    cases hp; cases ho
    exact ⟨_, Detect.Step.onceRun hq hr, ⟨h.mo, h.view, .running, Abs.pcs h.pc t .take1⟩⟩
  | onceDone k k1 =>
    rw [k] at hp
    have ho := h.once
    rw [k1] at ho
    generalize hq : a.pc t = q at hp
    generalize hr : a.once = r at ho
    cases hp; cases ho
    exact ⟨_, Detect.Step.onceDone hq hr, ⟨h.mo, by simp only [h.view], by simp only [k1]; rw [hr]; exact .done, Abs.pcs h.pc t .load⟩⟩
  | oncePoisoned k k1 => exact ⟨a, rfl, ⟨h.mo, h.view, h.once, Abs.pcs' h.pc t .panicked⟩⟩
  | take1 _ k =>
    rw [k] at hp
    refine ⟨a, rfl, ⟨h.mo, h.view, h.once, Abs.pcs' h.pc t ?_⟩⟩
    generalize a.pc t = q at hp ⊢
    cases hp; exact .set1
  | set1 k =>
    rw [k] at hp
    refine ⟨a, rfl, ⟨h.mo, h.view, h.once, Abs.pcs' h.pc t ?_⟩⟩
    generalize a.pc t = q at hp ⊢
    cases hp; exact .probe
  | probe w k =>
    rw [k] at hp
    generalize hq : a.pc t = q at hp
    cases hp
    exact ⟨_, Detect.Step.detect w hq, ⟨h.mo, h.view, h.once, Abs.pcs h.pc t .store⟩⟩
  | @store o _ _ w p k k1 k2 =>
    rw [k] at hp
    generalize hq : a.pc t = q at hp
    cases hp
    cases o with
    | none =>
      exact ⟨_, Detect.Step.storeUnforce hq (by rw [h.view]; exact k1) (by rw [h.mo]; exact k2), h.write t p (w.toNat + 1) .take2'⟩
    | some d =>
      exact ⟨_, Detect.Step.storeOnce hq (by rw [h.view]; exact k1) (by rw [h.mo]; exact k2), h.write t p (w.toNat + 1) .take2⟩
  | take2 k =>
    rw [k] at hp
    refine ⟨a, rfl, ⟨h.mo, h.view, h.once, Abs.pcs' h.pc t ?_⟩⟩
    generalize a.pc t = q at hp ⊢
    cases hp
    · exact .set2
    · exact .set2'
  | set2 k =>
    rw [k] at hp
    refine ⟨a, rfl, ⟨h.mo, h.view, h.once, Abs.pcs' h.pc t ?_⟩⟩
    generalize a.pc t = q at hp ⊢
    cases hp
    · exact .check
    · exact .check'
  | checkOnce k =>
    rw [k] at hp
    refine ⟨a, rfl, ⟨h.mo, h.view, h.once, Abs.pcs' h.pc t ?_⟩⟩
    generalize a.pc t = q at hp ⊢
    cases hp; exact .leave
  | checkUnforce k =>
    rw [k] at hp
    refine ⟨a, rfl, ⟨h.mo, h.view, h.once, Abs.pcs' h.pc t ?_⟩⟩
    generalize a.pc t = q at hp ⊢
    cases hp; exact .idle
  | raceOnce k k1 =>
    have ho := h.once
    rw [(hr t).mp (by simp [k, hookClosure])] at ho
    refine ⟨a, rfl, ⟨h.mo, h.view, ?_, Abs.pcs' h.pc t .panicked⟩⟩
    generalize a.once = r at ho
    cases ho; exact .poisoned
  | raceUnforce k k1 => exact ⟨a, rfl, ⟨h.mo, h.view, h.once, Abs.pcs' h.pc t .panicked⟩⟩
  | leave k =>
    rw [k] at hp
    generalize hq : a.pc t = q at hp
    cases hp
    exact ⟨_, Detect.Step.leave hq, ⟨h.mo, h.view, by simp only [h.view]; exact .done, Abs.pcs h.pc t .load⟩⟩
  | @force p k k1 k2 =>
    rw [k] at hp
    generalize hq : a.pc t = q at hp
    cases hp
    exact ⟨_, Detect.Step.force hq (by rw [h.view]; exact k1) (by rw [h.mo]; exact k2), h.write t p 1 .idle⟩
  | @sync u k k1 =>
    have hp' := h.pc u
    rw [k] at hp
    rw [k1] at hp'
    generalize hq : a.pc t = q at hp
    generalize hq' : a.pc u = q' at hp'
    cases hp; cases hp'
    exact ⟨_, Detect.Step.sync hq hq', ⟨h.mo, by simp only [h.view], h.once, h.pc⟩⟩
  | set _ _ => exact ⟨a, rfl, ⟨h.mo, h.view, h.once, h.pc⟩⟩
  | took _ => exact ⟨a, rfl, ⟨h.mo, h.view, h.once, h.pc⟩⟩
  | ran _ => exact ⟨a, rfl, ⟨h.mo, h.view, h.once, h.pc⟩⟩

theorem detectEvents_snoc (es : List (Nat × Hook.Ev)) (t : Nat) (e : Hook.Ev) :
    detectEvents (es ++ [(t, e)]) = detectEvents es ++ ((asDetect e).map (t, ·)).toList := by
  simp only [detectEvents, List.filterMap_append]
  cases h : asDetect e <;> simp [h]

theorem Abs.exec {s₀ s : Hook.St} {a₀ : Detect.St} {es : List (Nat × Hook.Ev)} (h₀ : Abs s₀ a₀)
    (r₀ : RunOk s₀) (h : Hook.Exec s₀ es s) :
    ∃ a, Detect.Exec a₀ (detectEvents es) a ∧ Abs s a ∧ RunOk s := by
  induction h with
  | init => exact ⟨a₀, .init, h₀, r₀⟩
  | @step es s t e s' _ hs ih =>
    obtain ⟨a, i1, i2, i3⟩ := ih
    obtain ⟨a', k1, k2⟩ := i2.step i3 hs
    refine ⟨a', ?_, k2, i3.step hs⟩
    rw [detectEvents_snoc]
    cases hd : asDetect e with
    | none => rw [hd] at k1; simp only at k1; subst k1; simpa using i1
    | some e' => rw [hd] at k1; simpa using i1.step k1

/-- **C75**: without `is_available`, too, in every history whose steps are ordered by happens-before, a
query answers what the last `force`, `unforce` or detection before it has decided, and it detects only
if nothing has been decided. Setting and taking of hooks, panics of the program and the panics of this
module may be anywhere in between. -/
theorem C75_ordered {c : Nat} {es : List (Nat × Hook.Ev)} {s : Hook.St} (h : Hook.Exec .init es s)
    (ho : Ordered c (detectEvents es)) : HistoryOk none (detectEvents es) := by
  obtain ⟨a, k, -⟩ := Abs.init.exec .init h
  exact C54_ordered k ho

/-- **C75**: any number of threads query, in any interleaving, and other threads set, take and run panic
hooks. Detection runs at most once, and every query that returns answers what it found. -/
theorem C75_agree {es : List (Nat × Hook.Ev)} {s : Hook.St} (h : Hook.Exec .init es s)
    (hn : NoForce (detectEvents es)) :
    (detections (detectEvents es)).length ≤ 1 ∧
    ∀ b ∈ answers (detectEvents es), detections (detectEvents es) = [b] := by
  obtain ⟨a, k, -⟩ := Abs.init.exec .init h
  exact C55_agree k hn

/-- **C75**: once something is decided in an ordered history, all threads that learn of it answer this,
in any interleaving, and there is no detection, while no thread forces or unforces. -/
theorem C75_settled {c : Nat} {es es' : List (Nat × Hook.Ev)} {s s' : Hook.St} {b : Bool}
    (h : Hook.Exec .init es s) (ho : Ordered c (detectEvents es))
    (hidle : s.pc (actor c (detectEvents es)) = .idle) (hd : decided none (detectEvents es) = some b)
    (h' : Hook.Exec s es' s') (hi : Informed [actor c (detectEvents es)] (detectEvents es'))
    (hn : NoForce (detectEvents es')) :
    (∀ a ∈ answers (detectEvents es'), a = b) ∧ detections (detectEvents es') = [] := by
  obtain ⟨a, k, ka, kr⟩ := Abs.init.exec .init h
  obtain ⟨a', k', -⟩ := ka.exec kr h'
  refine C54_settled k ho ?_ hd k' hi hn
  have := ka.pc (actor c (detectEvents es))
  rw [hidle] at this
  generalize a.pc _ = q at this ⊢
  cases this; rfl

/-! ## The hook -/

/-- Has the thread taken the hook? -/
def window : Hook.PC → Bool
  | .set1 .. | .probe .. | .store .. | .take2 .. | .set2 .. => true
  | _ => false

/-- What a thread knows, when `h` is the program's hook and `cur` is registered. -/
def PcOk (h cur : Handler) : Hook.PC → Prop
  | .set1 _ _ orig => orig = h ∧ cur = .default
  | .probe _ a orig | .store _ a orig _ | .take2 _ a orig => orig = h ∧ cur = .null a
  | .set2 _ a orig got => orig = h ∧ got = .null a ∧ cur = .default
  | .check _ a got => got = .null a
  | .panicked => False
  | _ => True

theorem PcOk.outside {h cur h' cur' : Handler} {p : Hook.PC} (hw : window p = false) (hp : PcOk h cur p) :
    PcOk h' cur' p := by
  cases p <;> simp_all [window, PcOk]

structure Calm (s : Hook.St) (h : Handler) (hs : List Nat) : Prop where
  one : hs = [] ∨ ∃ t, hs = [t]
  win : ∀ t, window (s.pc t) = true ↔ t ∈ hs
  cur : hs = [] → s.hook = h
  pcs : ∀ t, PcOk h s.hook (s.pc t)
  once : s.once ≠ .poisoned

theorem Calm.upd {s : Hook.St} {h : Handler} {hs : List Nat} (c : Calm s h hs) {t : Nat} {p : Hook.PC}
    (hw : window p = window (s.pc t)) (hp : PcOk h s.hook p) {s' : Hook.St} (e1 : s'.pc = Detect.upd s.pc t p)
    (e2 : s'.hook = s.hook) (e3 : s'.once ≠ .poisoned) : Calm s' h hs where
  one := c.one
  win := by
    intro u
    rw [e1]
    by_cases e : u = t
    · subst e; simpa [hw] using c.win u
    · simpa [e] using c.win u
  cur := by rw [e2]; exact c.cur
  pcs := by
    intro u
    rw [e1, e2]
    by_cases e : u = t
    · subst e; simpa using hp
    · simpa [e] using c.pcs u
  once := e3

/-- A step of the thread that has taken the hook. -/
theorem Calm.hold {s : Hook.St} {h : Handler} {hs : List Nat} (c : Calm s h hs) {t : Nat} {p : Hook.PC}
    (ht : window (s.pc t) = true) (hw : window p = true) {s' : Hook.St} (hp : PcOk h s'.hook p)
    (e1 : s'.pc = Detect.upd s.pc t p) (e3 : s'.once = s.once) : Calm s' h hs := by
  have hm := (c.win t).mp ht
  have hs1 : hs = [t] := by
    rcases c.one with e | ⟨u, e⟩
    · rw [e] at hm; cases hm
    · rw [e] at hm; simp at hm; rw [e, hm]
  refine ⟨c.one, ?_, by simp [hs1], ?_, by rw [e3]; exact c.once⟩
  · intro u
    rw [e1]
    by_cases e : u = t
    · subst e; simp [hw, hm]
    · simpa [e] using c.win u
  · intro u
    rw [e1]
    by_cases e : u = t
    · subst e; simpa using hp
    · simp only [upd_ne _ _ e]
      refine (c.pcs u).outside ?_
      cases hu : window (s.pc u) with
      | false => rfl
      | true => have := (c.win u).mp hu; rw [hs1] at this; simp at this; exact absurd this e

theorem Calm.step {s s' : Hook.St} {h : Handler} {hs : List Nat} {t : Nat} {e : Hook.Ev} (c : Calm s h hs)
    (hst : Hook.Step s t e s') (hq : QuietStep hs e) (hd : DisjointStep hs e) :
    HookStepOk h hs e ∧ Calm s' (programHook1 h e) (holders1 hs t e) := by
  have hp := c.pcs t
  have hwr : ∀ p x, (s.write t p x).once ≠ .poisoned := by
    intro p x; have := c.once; simp only [Hook.St.write]; cases ho : s.once <;> simp_all
  have hreg : hs ≠ [] → s.hook = .default ∨ ∃ a, s.hook = .null a := by
    intro hne
    rcases c.one with e | ⟨u, e⟩
    · exact absurd e hne
    · have hw := (c.win u).mpr (by simp [e])
      have := c.pcs u
      cases hu : s.pc u <;> simp_all [window, PcOk]
  have none_in : hs = [] → ∀ u, window (s.pc u) = false := by
    intro h0 u
    cases hu : window (s.pc u) with
    | false => rfl
    | true => have := (c.win u).mp hu; rw [h0] at this; cases this
  cases hst with
  | callQuery k | callForce k | callUnforce k | loadFalse k _ _ | loadTrue k _ _ | loadOther k _ _ _ _
  | onceDone k _ =>
    exact ⟨trivial, c.upd (by simp [k, window]) (by simp [PcOk]) rfl rfl c.once⟩
  | onceRun k _ => exact ⟨trivial, c.upd (by simp [k, window]) (by simp [PcOk]) rfl rfl (by simp)⟩
  | leave k => exact ⟨trivial, c.upd (by simp [k, window]) (by simp [PcOk]) rfl rfl (by simp)⟩
  | oncePoisoned k k1 => exact absurd k1 c.once
  | @take1 o addr k =>
    have h0 : hs = [] := hd
    refine ⟨trivial, ⟨.inr ⟨t, by simp [holders1, h0]⟩, ?_, by simp [holders1], ?_, c.once⟩⟩
    · intro u
      by_cases e : u = t
      · subst e; simp [holders1, window]
      · simp [e, holders1, h0, none_in h0 u]
    · intro u
      by_cases e : u = t
      · subst e; simp [PcOk, c.cur h0, programHook1]
      · simp only [upd_ne _ _ e]
        exact (c.pcs u).outside (none_in h0 u)
  | set1 k =>
    rw [k] at hp
    exact ⟨trivial, c.hold (by simp [k, window]) rfl (by simpa [PcOk] using hp.1) rfl rfl⟩
  | @probe o addr orig w k =>
    rw [k] at hp
    exact ⟨⟨_, hp.2⟩, c.hold (t := t) (p := .store o addr orig w) (by simp [k, window]) rfl hp rfl rfl⟩
  | @store o addr orig w _ k _ _ =>
    rw [k] at hp
    exact ⟨trivial, c.upd (t := t) (p := .take2 o addr orig) (by simp [k, window]) hp rfl rfl (hwr _ (w.toNat + 1))⟩
  | take2 k =>
    rw [k] at hp
    exact ⟨trivial, c.hold (by simp [k, window]) rfl (by simpa [PcOk] using hp) rfl rfl⟩
  | set2 k =>
    rw [k] at hp
    have hm := (c.win t).mp (by simp [k, window])
    have hs1 : hs = [t] := by
      rcases c.one with e | ⟨u, e⟩
      · rw [e] at hm; cases hm
      · rw [e] at hm; simp at hm; rw [e, hm]
    have out : ∀ u, u ≠ t → window (s.pc u) = false := by
      intro u e
      cases hu : window (s.pc u) with
      | false => rfl
      | true => have := (c.win u).mp hu; rw [hs1] at this; simp at this; exact absurd this e
    refine ⟨trivial, ⟨.inl (by simp [holders1, hs1]), ?_, ?_, ?_, c.once⟩⟩
    · intro u
      by_cases e : u = t
      · subst e; simp [holders1, hs1, window]
      · simp [e, holders1, hs1, out u e]
    · intro _; exact hp.1
    · intro u
      by_cases e : u = t
      · subst e; simpa [PcOk] using hp.2.1
      · simp only [upd_ne _ _ e]
        exact (c.pcs u).outside (out u e)
  | checkOnce k => exact ⟨trivial, c.upd (by simp [k, window]) (by simp [PcOk]) rfl rfl c.once⟩
  | checkUnforce k => exact ⟨trivial, c.upd (by simp [k, window]) (by simp [PcOk]) rfl rfl c.once⟩
  | raceOnce k k1 => rw [k] at hp; exact absurd hp k1
  | raceUnforce k k1 => rw [k] at hp; exact absurd hp k1
  | force k _ _ => exact ⟨trivial, c.upd (by simp [k, window]) (by simp [PcOk]) rfl rfl (hwr _ 1)⟩
  | sync _ _ => exact ⟨trivial, ⟨c.one, c.win, c.cur, c.pcs, c.once⟩⟩
  | set h' k =>
    have h0 : hs = [] := hq
    exact ⟨trivial, ⟨c.one, c.win, fun _ => rfl, fun u => (c.pcs u).outside (none_in h0 u), c.once⟩⟩
  | took k =>
    have h0 : hs = [] := hq
    exact ⟨c.cur h0, ⟨c.one, c.win, fun _ => rfl, fun u => (c.pcs u).outside (none_in h0 u), c.once⟩⟩
  | ran k =>
    refine ⟨?_, c⟩
    by_cases h0 : hs = []
    · simp [HookStepOk, h0, c.cur h0]
    · simpa [HookStepOk, h0] using hreg h0

theorem quiet_snoc {hs : List Nat} {es : List (Nat × Hook.Ev)} {x : Nat × Hook.Ev} :
    Quiet hs (es ++ [x]) ↔ Quiet hs es ∧ QuietStep (holders hs es) x.2 := by
  induction es generalizing hs with
  | nil => simp [Quiet, holders]
  | cons y es ih => simp only [List.cons_append, Quiet, ih, holders, List.foldl_cons, and_assoc]

theorem disjoint_snoc {hs : List Nat} {es : List (Nat × Hook.Ev)} {x : Nat × Hook.Ev} :
    Disjoint hs (es ++ [x]) ↔ Disjoint hs es ∧ DisjointStep (holders hs es) x.2 := by
  induction es generalizing hs with
  | nil => simp [Disjoint, holders]
  | cons y es ih => simp only [List.cons_append, Disjoint, ih, holders, List.foldl_cons, and_assoc]

theorem hookOk_snoc {h : Handler} {hs : List Nat} {es : List (Nat × Hook.Ev)} {x : Nat × Hook.Ev} :
    HookOk h hs (es ++ [x]) ↔ HookOk h hs es ∧ HookStepOk (programHook h es) (holders hs es) x.2 := by
  induction es generalizing h hs with
  | nil => simp [HookOk, holders, programHook]
  | cons y es ih => simp only [List.cons_append, HookOk, ih, holders, programHook, List.foldl_cons, and_assoc]

theorem holders_snoc {hs : List Nat} {es : List (Nat × Hook.Ev)} {x : Nat × Hook.Ev} :
    holders hs (es ++ [x]) = holders1 (holders hs es) x.1 x.2 := by simp [holders]

theorem programHook_snoc {h : Handler} {es : List (Nat × Hook.Ev)} {x : Nat × Hook.Ev} :
    programHook h (es ++ [x]) = programHook1 (programHook h es) x.2 := by simp [programHook]

theorem Calm.init : Calm .init .default [] :=
  ⟨.inl rfl, by simp [Hook.St.init, window], fun _ => rfl, by simp [Hook.St.init, PcOk], by simp [Hook.St.init]⟩

theorem Calm.exec {es : List (Nat × Hook.Ev)} {s : Hook.St} (h : Hook.Exec .init es s)
    (hq : Quiet [] es) (hd : Disjoint [] es) :
    HookOk .default [] es ∧ Calm s (programHook .default es) (holders [] es) := by
  induction h with
  | init => exact ⟨trivial, Calm.init⟩
  | step _ hs ih =>
    obtain ⟨q1, q2⟩ := quiet_snoc.mp hq
    obtain ⟨d1, d2⟩ := disjoint_snoc.mp hd
    obtain ⟨i1, i2⟩ := ih q1 d1
    obtain ⟨k1, k2⟩ := i2.step hs q2 d2
    refine ⟨hookOk_snoc.mpr ⟨i1, k1⟩, ?_⟩
    rw [holders_snoc, programHook_snoc]
    exact k2

/-- **C76**: if no detection takes the hook while another one has it, and the program does not change the
hook meanwhile, then the program's hook is registered whenever no detection has it; detection prints
nothing; a panic of the program outside of detections runs the program's hook; and the panics of this
module do not happen. -/
theorem C76_calm {es : List (Nat × Hook.Ev)} {s : Hook.St} (h : Hook.Exec .init es s)
    (hq : Quiet [] es) (hd : Disjoint [] es) :
    HookOk .default [] es ∧ (holders [] es = [] → s.hook = programHook .default es) ∧
    ∀ t, s.pc t ≠ .panicked := by
  obtain ⟨k1, k2⟩ := Calm.exec h hq hd
  refine ⟨k1, k2.cur, fun t ht => ?_⟩
  have := k2.pcs t
  rw [ht] at this
  exact this

/-- Is the thread in `unforce`? -/
def unforcing : Hook.PC → Bool
  | .take1 none | .set1 none _ _ | .probe none _ _ | .store none _ _ _
  | .take2 none _ _ | .set2 none _ _ _ | .check none _ _ => true
  | _ => false

theorem window_closure {p : Hook.PC} (h : window p = true) : hookClosure p = true ∨ unforcing p = true := by
  match p with
  | .set1 o _ _ | .probe o _ _ | .store o _ _ _ | .take2 o _ _ | .set2 o _ _ _ =>
    cases o <;> simp [hookClosure, unforcing]

structure Alone (s : Hook.St) (hs : List Nat) : Prop where
  run : RunOk s
  un : ∀ t, unforcing (s.pc t) = false
  win : ∀ t, window (s.pc t) = true ↔ t ∈ hs
  nodup : hs.Nodup

theorem Alone.none_in {s : Hook.St} {hs : List Nat} (a : Alone s hs) {t : Nat}
    (h1 : hookClosure (s.pc t) = true) (h2 : window (s.pc t) = false) : hs = [] := by
  rw [List.eq_nil_iff_forall_not_mem]
  intro u hu
  have hw := (a.win u).mpr hu
  rcases window_closure hw with h | h
  · have := (a.run u).mp h
    rw [(a.run t).mp h1] at this
    simp at this
    subst this
    simp [h2] at hw
  · simp [a.un u] at h

theorem Alone.keep {s s' : Hook.St} {hs : List Nat} (a : Alone s hs) {t : Nat} {p : Hook.PC} (hr : RunOk s')
    (e : s'.pc = Detect.upd s.pc t p) (hu : unforcing p = false) (hw : window p = window (s.pc t)) :
    Alone s' hs where
  run := hr
  un := by
    intro u; rw [e]
    by_cases k : u = t
    · subst k; simpa using hu
    · simpa [k] using a.un u
  win := by
    intro u; rw [e]
    by_cases k : u = t
    · subst k; simpa [hw] using a.win u
    · simpa [k] using a.win u
  nodup := a.nodup

theorem Alone.step {s s' : Hook.St} {hs : List Nat} {t : Nat} {e : Hook.Ev} (a : Alone s hs)
    (hst : Hook.Step s t e s') (hn : e ≠ .api .callUnforce) :
    DisjointStep hs e ∧ Alone s' (holders1 hs t e) := by
  have hr := a.run.step hst
  have hu := a.un t
  cases hst with
  | callUnforce k => exact absurd rfl hn
  | callQuery k | callForce k | loadFalse k _ _ | loadTrue k _ _ | loadOther k _ _ _ _
  | onceDone k _ | onceRun k _ | leave k | oncePoisoned k _ | force k _ _ | checkOnce k | raceOnce k _ =>
    exact ⟨trivial, a.keep (t := t) hr rfl rfl (by simp [k, window])⟩
  | checkUnforce k | raceUnforce k _ => rw [k] at hu; simp [unforcing] at hu
  | @set1 o _ _ k | @probe o _ _ _ k | @store o _ _ _ _ k _ _ | @take2 o _ _ k =>
    rw [k] at hu
    cases o with
    | none => simp [unforcing] at hu
    | some d => exact ⟨trivial, a.keep (t := t) hr rfl rfl (by simp [k, window])⟩
  | @take1 o addr k =>
    rw [k] at hu
    cases o with
    | none => simp [unforcing] at hu
    | some d =>
      have h0 := a.none_in (t := t) (by simp [k, hookClosure]) (by simp [k, window])
      subst h0
      refine ⟨rfl, hr, ?_, ?_, by simp [holders1]⟩
      · intro u
        by_cases e : u = t
        · subst e; simp [unforcing]
        · simpa [e] using a.un u
      · intro u
        by_cases e : u = t
        · subst e; simp [window, holders1]
        · simpa [e, holders1] using a.win u
  | @set2 o _ _ _ k =>
    rw [k] at hu
    cases o with
    | none => simp [unforcing] at hu
    | some d =>
      refine ⟨trivial, hr, ?_, ?_, a.nodup.erase _⟩
      · intro u
        by_cases e : u = t
        · subst e; simp [unforcing]
        · simpa [e] using a.un u
      · intro u
        by_cases e : u = t
        · subst e; simp [window, holders1, a.nodup.not_mem_erase]
        · simp only [upd_ne _ _ e, holders1]
          rw [a.win u, List.mem_erase_of_ne e]
  | sync _ _ | set _ _ | took _ | ran _ => exact ⟨trivial, ⟨hr, a.un, a.win, a.nodup⟩⟩

/-- **C76**, what the `Once` is for: while `unforce` is not called, detections never overlap. -/
theorem C76_once {es : List (Nat × Hook.Ev)} {s : Hook.St} (h : Hook.Exec .init es s) (hn : NoUnforce es) :
    Disjoint [] es := by
  suffices Disjoint [] es ∧ Alone s (holders [] es) from this.1
  induction h with
  | init =>
    exact ⟨trivial, .init, by simp [Hook.St.init, unforcing], by simp [Hook.St.init, window, holders], by simp [holders]⟩
  | @step es s t e s' _ hs ih =>
    obtain ⟨i1, i2⟩ := ih (fun t k => hn t (by simp [k]))
    obtain ⟨k1, k2⟩ := i2.step hs (fun k => hn t (by simp [k]))
    exact ⟨disjoint_snoc.mpr ⟨i1, k1⟩, by rw [holders_snoc]; exact k2⟩

/-! ## Overlapping detections -/

def isNull : Handler → Int
  | .null _ => 1
  | _ => 0

@[simp] theorem isNull_null (a : Nat) : isNull (.null a) = 1 := rfl
@[simp] theorem isNull_default : isNull .default = 0 := rfl
@[simp] theorem isNull_user (n : Nat) : isNull (.user n) = 0 := rfl

theorem isNull_nonneg (h : Handler) : 0 ≤ isNull h := by cases h <;> simp [isNull]

/-- One for a hook that does nothing and will be put back, minus one for a hook that does nothing and
that the thread will take away, or one that it has missed. -/
def weight : Hook.PC → Int
  | .set1 _ _ orig => isNull orig
  | .probe _ _ orig | .store _ _ orig _ | .take2 _ _ orig => isNull orig - 1
  | .set2 _ _ orig got => isNull orig - (1 - isNull got)
  | .check _ _ got => - (1 - isNull got)
  | .panicked => -1
  | _ => 0

def total (f : Nat → Hook.PC) : Nat → Int
  | 0 => 0
  | n + 1 => total f n + weight (f n)

theorem total_upd_ge (f : Nat → Hook.PC) (t : Nat) (p : Hook.PC) (n : Nat) (h : n ≤ t) :
    total (upd f t p) n = total f n := by
  induction n with
  | zero => rfl
  | succ n ih => simp [total, ih (by omega), show n ≠ t by omega]

theorem total_upd (f : Nat → Hook.PC) (t : Nat) (p : Hook.PC) (n : Nat) (h : t < n) :
    total (upd f t p) n = total f n - weight (f t) + weight p := by
  induction n with
  | zero => omega
  | succ n ih =>
    by_cases e : t = n
    · subst e; simp [total, total_upd_ge]
    · simp [total, ih (by omega), show n ≠ t by omega]; omega

theorem total_step {s s' : Hook.St} {t : Nat} {e : Hook.Ev} (hst : Hook.Step s t e s') {n : Nat} (hn : t < n)
    (he : ∀ a, e ≠ .set (.null a)) :
    isNull s'.hook + total s'.pc n ≤ isNull s.hook + total s.pc n := by
  have h0 := isNull_nonneg s.hook
  cases hst with
  | callQuery k | callForce k | callUnforce k | loadFalse k _ _ | loadTrue k _ _ | loadOther k _ _ _ _
  | onceRun k _ | onceDone k _ | oncePoisoned k _ | take1 _ k | set1 k | probe _ k | take2 k
  | checkOnce k | checkUnforce k | leave k | store k _ _ | force k _ _ =>
    simp only [Hook.St.write, total_upd _ _ _ _ hn, k, weight, isNull_null, isNull_default]
    omega
  | raceOnce k _ | raceUnforce k _ =>
    rename_i got _
    have := isNull_nonneg got
    simp only [total_upd _ _ _ _ hn, k, weight]
    omega
  | set2 k =>
    simp only [total_upd _ _ _ _ hn, k, weight]
    omega
  | sync _ _ | ran _ => exact Int.le_refl _
  | set h k =>
    cases h with
    | null a => exact absurd rfl (he a)
    | default => simp; omega
    | user m => simp; omega
  | took k => simp; omega

/-- What can be registered: the program's hook, the standard library's, or one that does nothing. -/
def Known (h : Handler) (x : Handler) : Prop := x = h ∨ x = .default ∨ ∃ a, x = .null a

def PcKnown (h : Handler) : Hook.PC → Prop
  | .set1 _ _ orig | .probe _ _ orig | .store _ _ orig _ | .take2 _ _ orig | .set2 _ _ orig _ => Known h orig
  | _ => True

theorem PcKnown.outside {h h' : Handler} {p : Hook.PC} (hw : window p = false) : PcKnown h p := by
  cases p <;> simp_all [window, PcKnown]

structure Held (s : Hook.St) (h : Handler) (hs : List Nat) : Prop where
  win : ∀ t, window (s.pc t) = true ↔ t ∈ hs
  nodup : hs.Nodup
  cur : Known h s.hook
  pcs : ∀ t, PcKnown h (s.pc t)

theorem Held.upd {s s' : Hook.St} {h : Handler} {hs : List Nat} (a : Held s h hs) {t : Nat} {p : Hook.PC}
    (e : s'.pc = Detect.upd s.pc t p) (hw : window p = window (s.pc t)) (hp : PcKnown h p)
    (hc : Known h s'.hook) : Held s' h hs where
  win := by
    intro u; rw [e]
    by_cases k : u = t
    · subst k; simpa [hw] using a.win u
    · simpa [k] using a.win u
  nodup := a.nodup
  cur := hc
  pcs := by
    intro u; rw [e]
    by_cases k : u = t
    · subst k; simpa using hp
    · simpa [k] using a.pcs u

theorem Held.step {s s' : Hook.St} {h : Handler} {hs : List Nat} {t : Nat} {e : Hook.Ev} (a : Held s h hs)
    (hst : Hook.Step s t e s') (hq : QuietStep hs e) : Held s' (programHook1 h e) (holders1 hs t e) := by
  have hp := a.pcs t
  have none_in : hs = [] → ∀ u, window (s.pc u) = false := by
    intro h0 u
    cases hu : window (s.pc u) with
    | false => rfl
    | true => have := (a.win u).mp hu; rw [h0] at this; cases this
  cases hst with
  | callQuery k | callForce k | callUnforce k | loadFalse k _ _ | loadTrue k _ _ | loadOther k _ _ _ _
  | onceRun k _ | onceDone k _ | oncePoisoned k _
  | checkOnce k | checkUnforce k | raceUnforce k _ | raceOnce k _ | leave k | force k _ _ =>
    exact a.upd (t := t) rfl (by simp [k, window]) trivial a.cur
  | set1 k =>
    rw [k] at hp
    exact a.upd (t := t) rfl (by simp [k, window]) hp (.inr (.inr ⟨_, rfl⟩))
  | @probe o addr orig w k =>
    rw [k] at hp
    exact a.upd (t := t) (p := .store o addr orig w) rfl (by simp [k, window]) hp a.cur
  | @store o addr orig w _ k _ _ =>
    rw [k] at hp
    exact a.upd (t := t) (p := .take2 o addr orig) rfl (by simp [k, window]) hp a.cur
  | @take2 o addr orig k =>
    rw [k] at hp
    exact a.upd (t := t) (p := .set2 o addr orig s.hook) rfl (by simp [k, window]) hp (.inr (.inl rfl))
  | take1 addr k =>
    have hm : t ∉ hs := by rw [← a.win t, k]; simp [window]
    refine ⟨?_, by simp [holders1, hm, a.nodup], .inr (.inl rfl), ?_⟩
    · intro u
      by_cases e : u = t
      · subst e; simp [window, holders1]
      · simpa [e, holders1] using a.win u
    · intro u
      by_cases e : u = t
      · subst e; simpa [PcKnown, programHook1] using a.cur
      · simpa [e, programHook1] using a.pcs u
  | set2 k =>
    rw [k] at hp
    refine ⟨?_, a.nodup.erase _, hp, ?_⟩
    · intro u
      by_cases e : u = t
      · subst e; simp [window, holders1, a.nodup.not_mem_erase]
      · simp only [upd_ne _ _ e, holders1]
        rw [a.win u, List.mem_erase_of_ne e]
    · intro u
      by_cases e : u = t
      · subst e; simp [PcKnown]
      · simpa [e, programHook1] using a.pcs u
  | sync _ _ | ran _ => exact ⟨a.win, a.nodup, a.cur, a.pcs⟩
  | set h' k =>
    exact ⟨a.win, a.nodup, .inl rfl, fun u => PcKnown.outside (h' := h) (none_in hq u)⟩
  | took k =>
    exact ⟨a.win, a.nodup, .inl rfl, fun u => PcKnown.outside (h' := h) (none_in hq u)⟩

theorem Held.exec {es : List (Nat × Hook.Ev)} {s : Hook.St} (h : Hook.Exec .init es s) (hq : Quiet [] es) :
    Held s (programHook .default es) (holders [] es) := by
  induction h with
  | init => exact ⟨by simp [Hook.St.init, window, holders], by simp [holders], .inl rfl, by simp [Hook.St.init, PcKnown]⟩
  | step _ hs ih =>
    obtain ⟨q1, q2⟩ := quiet_snoc.mp hq
    rw [holders_snoc, programHook_snoc]
    exact (ih q1).step hs q2

theorem total_exec {es : List (Nat × Hook.Ev)} {s : Hook.St} (h : Hook.Exec .init es s)
    (hs : ∀ t a, (t, Hook.Ev.set (.null a)) ∉ es) {n : Nat} (hn : ∀ x ∈ es, x.1 < n) :
    isNull s.hook + total s.pc n ≤ 0 := by
  induction h with
  | init =>
    have : ∀ n, total Hook.St.init.pc n = 0 := by
      intro n
      induction n with
      | zero => rfl
      | succ n ih => simp only [total, ih]; rfl
    rw [this]
    exact Int.le_refl _
  | @step es s t e s' _ hst ih =>
    have i := ih (fun t a k => hs t a (by simp [k])) (fun x k => hn x (by simp [k]))
    have := total_step hst (hn (t, e) (by simp)) (fun a k => hs t a (by simp [k]))
    omega

theorem bounded (es : List (Nat × Hook.Ev)) : ∃ n, ∀ x ∈ es, x.1 < n := by
  induction es with
  | nil => exact ⟨0, by simp⟩
  | cons y es ih =>
    obtain ⟨n, hn⟩ := ih
    refine ⟨max n (y.1 + 1), fun x hx => ?_⟩
    rcases List.mem_cons.mp hx with rfl | hx
    · omega
    · have := hn x hx; omega

/-- **C76**, detections that overlap: whatever calls run at the same time, and whatever the addresses of
their hooks, when all are over and none has observed a race, the hook that does nothing is not
registered: panics are reported. -/
theorem C76_not_silent {es : List (Nat × Hook.Ev)} {s : Hook.St} (h : Hook.Exec .init es s)
    (hs : ∀ t a, (t, Hook.Ev.set (.null a)) ∉ es) (hidle : ∀ t, s.pc t = .idle) (a : Nat) :
    s.hook ≠ .null a := by
  intro e
  obtain ⟨n, hn⟩ := bounded es
  have := total_exec h hs hn
  have h0 : ∀ n, total s.pc n = 0 := by
    intro n
    induction n with
    | zero => rfl
    | succ n ih => simp [total, ih, hidle, weight]
  rw [h0, e] at this
  simp [isNull] at this

/-- **C76**, detections that overlap: if the program does not change the hook meanwhile, then when all
are over and none has observed a race, the program's hook or the standard library's is registered. -/
theorem C76_overlap {es : List (Nat × Hook.Ev)} {s : Hook.St} (h : Hook.Exec .init es s) (hq : Quiet [] es)
    (hs : ∀ t a, (t, Hook.Ev.set (.null a)) ∉ es) (hidle : ∀ t, s.pc t = .idle) :
    s.hook = programHook .default es ∨ s.hook = .default := by
  rcases (Held.exec h hq).cur with k | k | ⟨a, k⟩
  · exact .inl k
  · exact .inr k
  · exact absurd k (C76_not_silent h hs hidle a)

/-- Why **C76** needs detections that do not overlap: two calls of `unforce` lose the program's hook, and
none observes a race. -/
theorem C76_lost : ∃ es s, Hook.Exec .init es s ∧ Quiet [] es ∧ (∀ t a, (t, Hook.Ev.set (.null a)) ∉ es) ∧
    (∀ t, s.pc t = .idle) ∧ programHook .default es = .user 0 ∧ s.hook = .default := by
  have e0 : Hook.Exec .init [] .init := .init
  have e1 := e0.step (.set (t := 0) (.user 0) rfl)
  have e2 := e1.step (.callUnforce (t := 1) rfl)
  have e3 := e2.step (.callUnforce (t := 2) rfl)
  have e4 := e3.step (.take1 (t := 1) 1 rfl)
  have e5 := e4.step (.take1 (t := 2) 2 rfl)
  have e6 := e5.step (.set1 (t := 1) rfl)
  have e7 := e6.step (.probe (t := 1) false rfl)
  have e8 := e7.step (.store (t := 1) (p := 1) rfl (by decide) (by decide))
  have e9 := e8.step (.take2 (t := 1) rfl)
  have e10 := e9.step (.set2 (t := 1) rfl)
  have e11 := e10.step (.checkUnforce (t := 1) rfl)
  have e12 := e11.step (.set1 (t := 2) rfl)
  have e13 := e12.step (.probe (t := 2) false rfl)
  have e14 := e13.step (.store (t := 2) (p := 2) rfl (by decide) (by decide))
  have e15 := e14.step (.take2 (t := 2) rfl)
  have e16 := e15.step (.set2 (t := 2) rfl)
  have e17 := e16.step (.checkUnforce (t := 2) rfl)
  refine ⟨_, _, e17, by simp [Quiet, QuietStep], by simp, ?_, rfl, rfl⟩
  intro t
  by_cases h2 : t = 2
  · subst h2; rfl
  · by_cases h1 : t = 1
    · subst h1; rfl
    · simp [h1, h2, Hook.St.init]

/-- What the thread has taken. -/
def heldOrig : Hook.PC → Option Handler
  | .set1 _ _ h | .probe _ _ h | .store _ _ h _ | .take2 _ _ h | .set2 _ _ h _ => some h
  | _ => none

theorem restoreOk_snoc {m : Nat → Option Handler} {es : List (Nat × Hook.Ev)} {x : Nat × Hook.Ev} :
    RestoreOk m (es ++ [x]) ↔
      RestoreOk m es ∧ RestoreStepOk (es.foldl (fun m x => taken1 m x.1 x.2) m) x.1 x.2 := by
  induction es generalizing m with
  | nil => simp [RestoreOk]
  | cons y es ih => simp only [List.cons_append, RestoreOk, ih, List.foldl_cons, and_assoc]

theorem held_step {s s' : Hook.St} {t : Nat} {e : Hook.Ev} (hst : Hook.Step s t e s') :
    RestoreStepOk (fun t => heldOrig (s.pc t)) t e ∧
    taken1 (fun t => heldOrig (s.pc t)) t e = fun t => heldOrig (s'.pc t) := by
  have keep : ∀ p, heldOrig p = heldOrig (s.pc t) →
      (fun u => heldOrig (s.pc u)) = fun u => heldOrig (upd s.pc t p u) := by
    intro p hp; funext u
    by_cases e : u = t
    · subst e; simp [hp]
    · simp [e]
  have new : ∀ p h, heldOrig p = h →
      upd (fun u => heldOrig (s.pc u)) t h = fun u => heldOrig (upd s.pc t p u) := by
    intro p h hp; funext u
    by_cases e : u = t
    · subst e; simp [hp]
    · simp [e]
  cases hst with
  | callQuery k | callForce k | callUnforce k | loadFalse k _ _ | loadTrue k _ _ | loadOther k _ _ _ _
  | onceRun k _ | onceDone k _ | oncePoisoned k _ | set1 k | probe _ k | take2 k
  | checkOnce k | checkUnforce k | raceUnforce k _ | raceOnce k _ | leave k | store k _ _ | force k _ _ =>
    exact ⟨by simp [RestoreStepOk, k, heldOrig], keep _ (by simp [k, heldOrig])⟩
  | take1 _ k | set2 k => exact ⟨by simp [RestoreStepOk, k, heldOrig], new _ _ rfl⟩
  | sync k _ | set _ k | took k | ran k => exact ⟨by simp [RestoreStepOk, k, heldOrig], rfl⟩

/-- **C76**, in every execution: a detection takes the hook once and puts back what it took, before it
ends, and before it panics if it observes a race. -/
theorem C76_restores {es : List (Nat × Hook.Ev)} {s : Hook.St} (h : Hook.Exec .init es s) :
    RestoreOk (fun _ => none) es := by
  suffices RestoreOk (fun _ => none) es ∧
    es.foldl (fun m x => taken1 m x.1 x.2) (fun _ => none) = fun t => heldOrig (s.pc t) from this.1
  induction h with
  | init => exact ⟨trivial, rfl⟩
  | step _ hs ih =>
    obtain ⟨k1, k2⟩ := held_step hs
    refine ⟨restoreOk_snoc.mpr ⟨ih.1, by rw [ih.2]; exact k1⟩, ?_⟩
    rw [List.foldl_append, ih.2]
    exact k2

/-! ## Termination -/

/-- **C77**: in every execution, with any number of threads that query, force, unforce and change the hook,
every step of a thread in this module brings it nearer to the end of its call, by at least one of at most
twelve steps, and leaves the other threads where they are. -/
theorem C77_steps {es : List (Nat × Hook.Ev)} {s s' : Hook.St} (h : Hook.Exec .init es s) {t : Nat}
    {e : Hook.Ev} (hs : Hook.Step s t e s') :
    (∀ u, u ≠ t → s'.pc u = s.pc u) ∧ hookRank (s'.pc t) ≤ 12 ∧
    (IsHookCall e ∧ s.pc t = .idle ∨ hookRank (s'.pc t) < hookRank (s.pc t)) := by
  obtain ⟨a, ha, habs, -⟩ := Abs.init.exec .init h
  have hg := G.init.exec ha
  have hdep := hg.depth t
  have hp := habs.pc t
  have hv : a.view t = s.view t := by rw [habs.view]
  have hdep' : match s.pc t with
      | .load d => d = 0 ∨ d = 1 ∧ 1 ≤ s.view t
      | .once d => d = 0
      | .take1 (some d) | .set1 (some d) _ _ | .probe (some d) _ _ | .store (some d) _ _ _
      | .take2 (some d) _ _ | .set2 (some d) _ _ _ | .check (some d) _ _ | .leave d => d = 0
      | _ => True := by
    rw [hv] at hdep
    generalize s.pc t = p at hp ⊢
    generalize a.pc t = q at hp hdep
    cases hp <;> first | exact hdep | exact hdep.1 | trivial | (rename_i o _ _; cases o <;> first | trivial | exact hdep) | (rename_i o; cases o <;> first | trivial | exact hdep) | (rename_i o _ _ _; cases o <;> first | trivial | exact hdep)
  clear hdep hp
  cases hs with
  | callQuery k | callForce k | callUnforce k => exact ⟨fun u hu => by simp [hu], by simp [hookRank], .inl ⟨trivial, k⟩⟩
  | loadFalse k _ _ | loadTrue k _ _ =>
    rw [k] at hdep' ⊢
    refine ⟨fun u hu => by simp [hu], by simp [hookRank], .inr ?_⟩
    rcases hdep' with rfl | ⟨rfl, -⟩ <;> simp [hookRank]
  | @loadOther d i v k k1 k2 k3 k4 =>
    rw [k] at hdep' ⊢
    rcases hdep' with rfl | ⟨-, hd⟩
    · exact ⟨fun u hu => by simp [hu], by simp [hookRank], .inr (by simp [hookRank])⟩
    · have := hg.rest i v (by rw [habs.mo]; exact k2) (by omega)
      omega
  | onceRun k _ | onceDone k _ | oncePoisoned k _ | leave k | checkOnce k | raceOnce k _ =>
    rw [k] at hdep' ⊢
    simp only at hdep'
    subst hdep'
    exact ⟨fun u hu => by simp [hu], by simp [hookRank], .inr (by simp [hookRank])⟩
  | checkUnforce k | raceUnforce k _ | force k _ _ =>
    rw [k]
    exact ⟨fun u hu => by simp [hu], by simp [hookRank], .inr (by simp [hookRank])⟩
  | @take1 o _ k | @set1 o _ _ k | @probe o _ _ _ k | @take2 o _ _ k | @set2 o _ _ _ k | @store o _ _ _ _ k _ _ =>
    rw [k] at hdep' ⊢
    cases o with
    | none => exact ⟨fun u hu => by simp [hu], by simp [hookRank], .inr (by simp [hookRank])⟩
    | some d =>
      simp only at hdep'
      subst hdep'
      exact ⟨fun u hu => by simp [hu], by simp [hookRank], .inr (by simp [hookRank])⟩
  | sync k _ | set _ k | took k | ran k => exact ⟨fun u hu => rfl, by simp [k, hookRank], .inl ⟨trivial, k⟩⟩

/-- **C77**, no deadlock: a thread in a call can take a step, or it waits in `call_once` for a thread that
can take a step. -/
theorem C77_progress {es : List (Nat × Hook.Ev)} {s : Hook.St} (h : Hook.Exec .init es s) {t : Nat}
    (ht : s.pc t ≠ .idle) (ht' : s.pc t ≠ .panicked) :
    (∃ e s', Hook.Step s t e s') ∨
    (∃ d u e s', s.pc t = .once d ∧ s.once = .running u ∧ Hook.Step s u e s') := by
  obtain ⟨a, ha, habs, hr⟩ := Abs.init.exec .init h
  have hg := G.init.exec ha
  have live : ∀ t, s.pc t ≠ .idle → s.pc t ≠ .panicked → (∀ d, s.pc t ≠ .once d) → ∃ e s', Hook.Step s t e s' := by
    intro t ht ht' hn
    have hv := hg.view t
    rw [habs.view, habs.mo] at hv
    cases hp : s.pc t with
    | idle => exact absurd hp ht
    | panicked => exact absurd hp ht'
    | load d =>
      obtain ⟨v, hm⟩ : ∃ v, s.mo[s.view t]? = some v := ⟨_, List.getElem?_eq_getElem hv⟩
      by_cases h1 : v = 1
      · subst h1; exact ⟨_, _, .loadFalse hp (Nat.le_refl _) hm⟩
      · by_cases h2 : v = 2
        · subst h2; exact ⟨_, _, .loadTrue hp (Nat.le_refl _) hm⟩
        · exact ⟨_, _, .loadOther hp (Nat.le_refl _) hm h1 h2⟩
    | once d => exact absurd hp (hn d)
    | take1 o => exact ⟨_, _, .take1 0 hp⟩
    | set1 o _ _ => exact ⟨_, _, .set1 hp⟩
    | probe o _ _ => exact ⟨_, _, .probe true hp⟩
    | store o _ _ _ => exact ⟨_, _, .store hp hv (Nat.le_refl _)⟩
    | take2 o _ _ => exact ⟨_, _, .take2 hp⟩
    | set2 o _ _ _ => exact ⟨_, _, .set2 hp⟩
    | check o x g =>
      by_cases e : g = .null x
      · subst e
        cases o with
        | none => exact ⟨_, _, .checkUnforce hp⟩
        | some d => exact ⟨_, _, .checkOnce hp⟩
      · cases o with
        | none => exact ⟨_, _, .raceUnforce hp e⟩
        | some d => exact ⟨_, _, .raceOnce hp e⟩
    | leave d => exact ⟨_, _, .leave hp⟩
    | force => exact ⟨_, _, .force hp hv (Nat.le_refl _)⟩
  by_cases hn : ∀ d, s.pc t ≠ .once d
  · exact .inl (live t ht ht' hn)
  · simp only [ne_eq, Classical.not_forall, Classical.not_not] at hn
    obtain ⟨d, hp⟩ := hn
    cases ho : s.once with
    | new => exact .inl ⟨_, _, .onceRun hp ho⟩
    | done w => exact .inl ⟨_, _, .onceDone hp ho⟩
    | poisoned => exact .inl ⟨_, _, .oncePoisoned hp ho⟩
    | running u =>
      have hu := (hr u).mpr ho
      obtain ⟨e, s', hs⟩ := live u (by intro e; rw [e] at hu; simp [hookClosure] at hu)
        (by intro e; rw [e] at hu; simp [hookClosure] at hu)
        (by intro d e; rw [e] at hu; simp [hookClosure] at hu)
      exact .inr ⟨d, u, e, s', hp, rfl, hs⟩

/-! ## Examples -/

/-- The program registers a hook; a query detects that there is no compiler; a panic runs the hook. -/
example : ∃ es s, Hook.Exec .init es s ∧ Quiet [] es ∧ Disjoint [] es ∧ NoUnforce es ∧
    Ordered 0 (detectEvents es) ∧ NoForce (detectEvents es) ∧ answers (detectEvents es) = [false] ∧
    (1, Hook.Ev.ran .default) ∈ es ∧ (0, Hook.Ev.ran (.user 7)) ∈ es ∧
    (0, Hook.Ev.probe true false (.null 5)) ∈ es := by
  have e0 : Hook.Exec .init [] .init := .init
  have e1 := e0.step (.set (t := 0) (.user 7) rfl)
  have e2 := e1.step (.callQuery (t := 0) rfl)
  have e3 := e2.step (.loadOther (t := 0) (d := 0) (i := 0) (v := 0) rfl (by decide) rfl (by decide) (by decide))
  have e4 := e3.step (.onceRun (t := 0) (d := 0) rfl rfl)
  have e5 := e4.step (.take1 (t := 0) 5 rfl)
  have e6 := e5.step (.ran (t := 1) rfl)
  have e7 := e6.step (.set1 (t := 0) rfl)
  have e8 := e7.step (.probe (t := 0) false rfl)
  have e9 := e8.step (.store (t := 0) (p := 1) rfl (by decide) (by decide))
  have e10 := e9.step (.take2 (t := 0) rfl)
  have e11 := e10.step (.set2 (t := 0) rfl)
  have e12 := e11.step (.checkOnce (t := 0) rfl)
  have e13 := e12.step (.leave (t := 0) rfl)
  have e14 := e13.step (.loadFalse (t := 0) (i := 1) rfl (by decide) rfl)
  have e15 := e14.step (.ran (t := 0) rfl)
  exact ⟨_, _, e15, by simp [Quiet, QuietStep, Hook.St.init], by simp [Disjoint, DisjointStep, holders1],
    by simp [NoUnforce], by simp [detectEvents, asDetect, Ordered], by simp [detectEvents, asDetect, NoForce],
    rfl, by simp, by simp [Hook.St.init], by simp [Hook.St.init]⟩

end PM2.Props
