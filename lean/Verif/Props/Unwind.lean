import Verif.Proof.Unwind
import Verif.Props.HeapParse
import Verif.Spec.Decide
/-! # C112: iterators of the user and caught panics -/

set_option linter.unusedSectionVars false

namespace PM2.Props
open Heap Spec

section
variable [UnicodeTables]

private theorem hide_eq : ∀ {b : List Val}, (∀ (k : Nat) ts, b[k]? ≠ some (.borrowed ts)) → b.map hide = b
  | [], _ => rfl
  | w :: b, h => by
    have h1 := h 0
    have h2 := hide_eq (b := b) (fun k => h (k + 1))
    rw [List.map_cons, h2]
    cases w with
    | borrowed ts => exact absurd rfl (h1 ts)
    | _ => rfl

/-- Between the calls of a program nothing is being extended. -/
private theorem code_same {sm : SourceMap} {s : State} {v : List Val} (hR : Rel s v)
    (hv : ∀ (k : Nat) ts, v[k]? ≠ some (.borrowed ts)) (c : Code) :
    Same (fun x y => y.1 = x.1 ∧ y.2.2 = x.2.2 ∧ Rel y.2.1 x.2.1 ∧ ∀ (k : Nat) ts, x.2.1[k]? ≠ some (.borrowed ts))
      (fun _ _ => True) (vexec c sm v) (execCode c sm s) := by
  have := execCode_same c hR sm
  rw [hide_eq hv] at this
  generalize vexec c sm v = x at this ⊢
  generalize execCode c sm s = y at this ⊢
  cases x <;> cases y <;> first | exact this.elim | skip
  · rename_i x y
    obtain ⟨sm1, v1, p1⟩ := x
    obtain ⟨h1, h2, b, hb, hm, hk⟩ := this
    have hb' : ∀ (k : Nat) ts, b[k]? ≠ some (.borrowed ts) := fun k ts h => hv k ts ((hk.same k ts).mp h)
    rw [hide_eq hb'] at hm
    simp only at hm
    subst hm
    exact ⟨h1, h2, hb, hb'⟩
  · trivial
  · trivial
  · trivial

private theorem code_init (c : Code) :
    Same (fun x y => y.1 = x.1 ∧ y.2.2 = x.2.2 ∧ Rel y.2.1 x.2.1 ∧ ∀ (k : Nat) ts, x.2.1[k]? ≠ some (.borrowed ts))
      (fun _ _ => True) (vexec c SourceMap.init []) (execCode c SourceMap.init State.init) :=
  code_same Rel.init (by simp) c

/-- **C112.** Programs whose iterators are code of their own, and panic, and catch panics. A program that makes sense on values
runs on the heap without touching freed memory. It panics if the run on values does, and afterwards every variable holds what
it holds there. -/
theorem C112_values {c : Code} {sm : SourceMap} {v : List Val} {p : Bool} (h : vexec c SourceMap.init [] = .ok (sm, v, p)) :
    ∃ s, execCode c SourceMap.init State.init = .ok (sm, s, p) ∧ s.vars.length = v.length ∧
      ∀ i w, v[i]? = some w → VarHolds s i w := by
  have := code_init c
  rw [h] at this
  cases e : execCode c SourceMap.init State.init <;> rw [e] at this <;> first | exact this.elim | skip
  rename_i y
  obtain ⟨sm', s, p'⟩ := y
  obtain ⟨h1, h2, h3, -⟩ := this
  simp only at h1 h2 h3
  subst h1 h2
  exact ⟨s, rfl, h3.len, fun i w hw => h3.val hw⟩

/-- **C112.** The other programs end in the same way. -/
theorem C112_others (c : Code) :
    (vexec c SourceMap.init [] = .err () → execCode c SourceMap.init State.init = .err ()) ∧
    (execCode c SourceMap.init State.init = .panic → vexec c SourceMap.init [] = .panic) ∧
    (execCode c SourceMap.init State.init = .diverge → vexec c SourceMap.init [] = .diverge) := by
  have := code_init c
  refine ⟨fun h => ?_, fun h => ?_, fun h => ?_⟩ <;> rw [h] at this
  · cases e : execCode c SourceMap.init State.init <;> rw [e] at this <;> first | exact this.elim | rfl
  · cases e : vexec c SourceMap.init [] <;> rw [e] at this <;> first | exact this.elim | rfl
  · cases e : vexec c SourceMap.init [] <;> rw [e] at this <;> first | exact this.elim | rfl

private theorem code_rel {c : Code} {sm : SourceMap} {s : State} {p : Bool}
    (h : execCode c SourceMap.init State.init = .ok (sm, s, p)) :
    ∃ v, vexec c SourceMap.init [] = .ok (sm, v, p) ∧ Rel s v ∧ ∀ (k : Nat) ts, v[k]? ≠ some (.borrowed ts) := by
  have := code_init c
  rw [h] at this
  cases e : vexec c SourceMap.init [] <;> rw [e] at this <;> first | exact this.elim | skip
  rename_i x
  obtain ⟨sm', v, p'⟩ := x
  obtain ⟨h1, h2, h3, h4⟩ := this
  simp only at h1 h2 h3 h4
  subst h1 h2
  exact ⟨v, rfl, h3, h4⟩

/-- **C112.** After a program, whether it panicked or not, the cells that are allocated are those that a variable owns. -/
theorem C112_live {c : Code} {sm : SourceMap} {s : State} {p : Bool} (h : execCode c SourceMap.init State.init = .ok (sm, s, p))
    (a : Addr) : (∃ x, s.heap.get a = some x) ↔ Owned s a := by
  obtain ⟨v, -, hR, -⟩ := code_rel h
  exact rel_live hR a

/-- **C112.** A panic leaks nothing: if a program panics and the panic is caught outside of it, nothing is left on the heap. -/
theorem C112_no_leak {c : Code} {sm : SourceMap} {s : State} (h : execCode c SourceMap.init State.init = .ok (sm, s, true)) :
    ∃ s', execCode (.catch_ c) SourceMap.init State.init = .ok (sm, s', false) ∧ ∀ a, s'.heap.get a = none := by
  obtain ⟨v, e, -, -⟩ := code_rel h
  have e' : vexec (.catch_ c) SourceMap.init [] = .ok (sm, List.replicate v.length .dead, false) := by
    simp [vexec, e, bind, Res.bind]
  obtain ⟨s', e2, hl, hv⟩ := C112_values e'
  refine ⟨s', e2, fun a => ?_⟩
  cases eg : s'.heap.get a with
  | none => rfl
  | some x =>
    exfalso
    have := (C112_live e2 a).mp ⟨x, eg⟩
    clear eg
    induction this with
    | root hr hp =>
      obtain ⟨i, hi, hg⟩ := List.getElem_of_mem hr
      rw [List.length_replicate] at hl
      obtain ⟨r, h1, h2⟩ := hv i .dead (by rw [List.getElem?_replicate, if_pos (by omega)])
      rw [List.getElem?_eq_getElem hi, Option.some.injEq] at h1
      rw [← h1, hg] at h2
      cases h2
      exact hp
    | child _ _ _ ih => exact ih

/-! ### The panic-free part -/

private theorem vexec_total_aux :
    (∀ {α : Type} {x : Res Unit α} {P : α → Prop}, x ≠ .panic ∧ x ≠ .diverge ∧ (∀ r, x = .ok r → P r) →
      ∀ {β : Type} {f : α → Res Unit β} {Q : β → Prop},
        (∀ r, P r → f r ≠ .panic ∧ f r ≠ .diverge ∧ (∀ q, f r = .ok q → Q q)) →
          x.bind f ≠ .panic ∧ x.bind f ≠ .diverge ∧ (∀ q, x.bind f = .ok q → Q q)) := by
  intro α x P h β f Q hf
  cases x with
  | ok r => exact hf r (h.2.2 r rfl)
  | err e => simp [Res.bind]
  | panic => exact absurd rfl h.1
  | diverge => exact absurd rfl h.2.1

private def Past (sm : SourceMap) : Prop := ∃ texts, History sm texts

private def Safe {α : Type} (x : Res Unit α) (P : α → Prop) : Prop := x ≠ .panic ∧ x ≠ .diverge ∧ ∀ r, x = .ok r → P r

private theorem Safe.bind {α β : Type} {x : Res Unit α} {P : α → Prop} (h : Safe x P) {f : α → Res Unit β} {Q : β → Prop}
    (hf : ∀ r, P r → Safe (f r) Q) : Safe (x.bind f) Q := vexec_total_aux h hf

private theorem Safe.ok {α : Type} {r : α} {P : α → Prop} (h : P r) : Safe (.ok r) P := by
  refine ⟨by simp, by simp, fun q e => ?_⟩
  cases e
  exact h

private theorem Safe.err {α : Type} {P : α → Prop} : Safe (.err () : Res Unit α) P := by
  refine ⟨by simp, by simp, fun q e => ?_⟩
  cases e

private theorem Safe.mono {α : Type} {x : Res Unit α} {P Q : α → Prop} (h : Safe x P) (hq : ∀ r, P r → Q r) : Safe x Q :=
  ⟨h.1, h.2.1, fun r e => hq r (h.2.2 r e)⟩

private theorem vact_safe {sm : SourceMap} (hf : Past sm) (v : List Val) (a : Act) (hn : ∀ t ∈ actTexts [a], t.length < 2 ^ 32)
    (hr : a.noRoom sm = false) : Safe (vact sm v a) (fun r => Past r.1) := by
  cases a with
  | op o =>
    simp only [vact]
    cases vstep v o with
    | none => exact Safe.err
    | some v' => exact Safe.ok hf
  | parse src =>
    obtain ⟨texts, h⟩ := hf
    have hl : src.length < 2 ^ 32 := hn src (by simp [actTexts])
    have hroom : Room texts src := by
      refine Decidable.byContradiction fun hc => ?_
      have e := addFile_panic (ε := Unit) h.wf hl (by rw [h.holds.2.nextPos]; exact hc)
      simp only [Act.noRoom, getCursor, e, bind, Res.bind] at hr
      cases hr
    have h' := History.parse src h hl
    rw [if_pos hroom] at h'
    have ht := C01_parse_total h hroom
    have hfit : Past (TokenStream.fromStr sm src).1 := ⟨_, h'⟩
    simp only [vact]
    generalize TokenStream.fromStr sm src = x at hfit ht
    obtain ⟨sm', x⟩ := x
    rcases ht with ⟨ts, e⟩ | ⟨e', e⟩ <;> simp only at e <;> subst e <;> exact Safe.ok hfit

mutual
private theorem vexec_safe : ∀ (c : Code) {sm : SourceMap} (_ : Past sm) (v : List Val)
    (_ : ∀ t ∈ codeTexts c, t.length < 2 ^ 32), Safe (vexec c sm v) (fun r => Past r.1)
  | .skip, sm, hf, v, hn => by simp only [vexec]; exact Safe.ok hf
  | .panic, sm, hf, v, hn => by simp only [vexec]; exact Safe.ok hf
  | .act a, sm, hf, v, hn => by
    simp only [vexec, codeTexts] at hn ⊢
    split
    · exact Safe.err
    · split
      · exact Safe.ok hf
      · rename_i hr
        exact (vact_safe hf v a hn (by simpa using hr)).bind fun r hr => Safe.ok hr
  | .invalidate, sm, hf, v, hn => by
    simp only [vexec]
    obtain ⟨texts, h⟩ := hf
    exact Safe.ok ⟨_, .invalidate h⟩
  | .seq c d, sm, hf, v, hn => by
    simp only [vexec, codeTexts, List.mem_append] at hn ⊢
    refine (vexec_safe c hf v (fun t ht => hn t (by simp [ht]))).bind fun r hr => ?_
    split
    · exact Safe.ok hr
    · exact (vexec_safe d hr _ (fun t ht => hn t (by simp [ht])))
  | .catch_ c, sm, hf, v, hn => by
    simp only [vexec, codeTexts] at hn ⊢
    exact (vexec_safe c hf v hn).bind fun r hr => Safe.ok hr
  | .extendTrees i it, sm, hf, v, hn => by
    simp only [vexec, codeTexts] at hn ⊢
    split
    · exact (vtrees_safe it hf _ hn).bind fun r hr => Safe.ok hr
    · exact Safe.err
  | .extendStreams i it, sm, hf, v, hn => by
    simp only [vexec, codeTexts] at hn ⊢
    split
    · exact (vstreams_safe it hf _ hn).bind fun r hr => Safe.ok hr
    · exact Safe.err
  | .collectTrees it, sm, hf, v, hn => by
    simp only [vexec, codeTexts] at hn ⊢
    exact (vtrees_safe it hf _ hn).bind fun r hr => Safe.ok hr
  | .collectStreams (.stop c), sm, hf, v, hn => by
    simp only [vexec, codeTexts, iterTexts] at hn ⊢
    exact (vexec_safe c hf _ hn).bind fun r hr => Safe.ok hr
  | .collectStreams (.yield c i it), sm, hf, v, hn => by
    simp only [vexec, codeTexts, iterTexts, List.mem_append] at hn ⊢
    refine (vexec_safe c hf v (fun t ht => hn t (by simp [ht]))).bind fun r hr => ?_
    split
    · exact Safe.ok hr
    · split
      · exact (vstreams_safe it hr _ (fun t ht => hn t (by simp [ht]))).bind fun q hq => Safe.ok hq
      · exact Safe.err
  | .collectStreams (.hint ..), sm, hf, v, hn => by simp only [vexec]; exact Safe.err
  | .gatherStreams it, sm, hf, v, hn => by
    simp only [vexec, codeTexts] at hn ⊢
    split
    · exact Safe.err
    · exact (vstreams_safe it hf _ hn).bind fun r hr => Safe.ok hr
private theorem vtrees_safe : ∀ (it : Iter) {sm : SourceMap} (_ : Past sm) (v : List Val)
    (_ : ∀ t ∈ iterTexts it, t.length < 2 ^ 32), Safe (vtrees it sm v) (fun r => Past r.1)
  | .stop c, sm, hf, v, hn => by
    simp only [vtrees, iterTexts] at hn ⊢
    exact (vexec_safe c hf _ hn).bind fun r hr => Safe.ok hr
  | .yield c i it, sm, hf, v, hn => by
    simp only [vtrees, iterTexts, List.mem_append] at hn ⊢
    refine (vexec_safe c hf v (fun t ht => hn t (by simp [ht]))).bind fun r hr => ?_
    split
    · exact Safe.ok hr
    · split
      · exact (vtrees_safe it hr _ (fun t ht => hn t (by simp [ht]))).bind fun q hq => Safe.ok hq
      · exact Safe.err
  | .hint .., sm, hf, v, hn => by simp only [vtrees]; exact Safe.err
private theorem vstreams_safe : ∀ (it : Iter) {sm : SourceMap} (_ : Past sm) (v : List Val)
    (_ : ∀ t ∈ iterTexts it, t.length < 2 ^ 32), Safe (vstreams it sm v) (fun r => Past r.1)
  | .stop c, sm, hf, v, hn => by
    simp only [vstreams, iterTexts] at hn ⊢
    exact (vexec_safe c hf _ hn).bind fun r hr => Safe.ok hr
  | .yield c i it, sm, hf, v, hn => by
    simp only [vstreams, iterTexts, List.mem_append] at hn ⊢
    refine (vexec_safe c hf v (fun t ht => hn t (by simp [ht]))).bind fun r hr => ?_
    split
    · exact Safe.ok hr
    · split
      · exact (vstreams_safe it hr _ (fun t ht => hn t (by simp [ht]))).bind fun q hq => Safe.ok hq
      · exact Safe.err
  | .hint c j k, sm, hf, v, hn => by
    simp only [vstreams, iterTexts] at hn ⊢
    refine (vexec_safe c hf v (fun t ht => hn t (by simp [ht]))).bind fun r hr => ?_
    split
    · exact Safe.ok hr
    · split
      · split
        · exact Safe.ok hr
        · exact Safe.err
      · exact Safe.err
end

/-- **C112.** Every program ends, normally or with a panic after which all of the above holds, or is one that rustc rejects: in
the middle of a change the crate does not panic, touch freed memory or recurse too deeply, also after panics, and also when
there are no positions left. -/
theorem C112_total (c : Code) (h : ∀ t ∈ codeTexts c, t.length < 2 ^ 32) :
    execCode c SourceMap.init State.init ≠ .panic ∧ execCode c SourceMap.init State.init ≠ .diverge := by
  obtain ⟨h1, h2, -⟩ := vexec_safe c (sm := SourceMap.init) ⟨[], .init⟩ [] h
  obtain ⟨-, h3, h4⟩ := C112_others c
  exact ⟨fun e => h1 (h3 e), fun e => h2 (h4 e)⟩

/-- **C112.** A call of a program does what it does alone. Only a text for which there are no positions panics, and then nothing has
changed. -/
theorem C112_calls {a : Act} (ha : ¬ Internal a) {sm : SourceMap} {texts : List (List Char)} (h : History sm texts)
    (hl : ∀ t ∈ actTexts [a], t.length < 2 ^ 32) (s : State) :
    (ActRoom texts a → ∀ sm' s', execCode (.act a) sm s = .ok (sm', s', false) ↔ act sm s a = .ok (sm', s')) ∧
    (¬ ActRoom texts a → execCode (.act a) sm s = .ok (sm, s, true)) := by
  have hc : a.isCall = true := by
    cases a with
    | parse => rfl
    | op o => cases o <;> first | rfl | exact absurd (by constructor) ha
  have hn : a.noRoom sm = true ↔ ¬ ActRoom texts a := by
    cases a with
    | op o => simp [Act.noRoom, ActRoom]
    | parse src =>
      have hlt : src.length < 2 ^ 32 := hl src (by simp [actTexts])
      by_cases hr : Room texts src
      · obtain ⟨f, -, -, -, -, e, -⟩ := addFile_eq (ε := Unit) h.wf (src := src) (by rw [h.holds.2.nextPos]; exact hr)
        simp [Act.noRoom, getCursor, e, bind, Res.bind, ActRoom, hr]
      · have e := addFile_panic (ε := Unit) h.wf hlt (by rw [h.holds.2.nextPos]; exact hr)
        simp [Act.noRoom, getCursor, e, bind, Res.bind, ActRoom, hr]
  refine ⟨fun hr sm' s' => ?_, fun hr => ?_⟩
  · have : a.noRoom sm = false := by
      cases e : a.noRoom sm with
      | false => rfl
      | true => exact absurd hr (hn.mp e)
    simp only [execCode, hc, this]
    cases act sm s a <;> simp [bind, Res.bind]
    exact ⟨fun h => Prod.ext h.1 h.2, fun h => by rw [h]; exact ⟨rfl, rfl⟩⟩
  · simp only [execCode, hc, hn.mpr hr]
    simp

/-! ### Iterators over variables -/

private def deadAll : List Val → List Nat → List Val
  | v, [] => v
  | v, j :: js => deadAll (v.set j .dead) js

private theorem deadAll_length : ∀ (v : List Val) (js : List Nat), (deadAll v js).length = v.length
  | _, [] => rfl
  | v, j :: js => by simp [deadAll, deadAll_length _ js]

private theorem deadAll_other : ∀ (v : List Val) (js : List Nat) {k : Nat}, k ∉ js → (deadAll v js)[k]? = v[k]?
  | _, [], _, _ => rfl
  | v, j :: js, k, h => by
    simp only [List.mem_cons, not_or] at h
    rw [deadAll, deadAll_other _ js h.2, List.getElem?_set_ne (Ne.symm h.1)]

private theorem deadAll_dead : ∀ (v : List Val) (js : List Nat) {k : Nat}, (v[k]? = some .dead ∨ k ∈ js) → k < v.length →
    (deadAll v js)[k]? = some .dead
  | _, [], _, h, _ => by rcases h with h | h; exact h; cases h
  | v, j :: js, k, h, hk => by
    rw [deadAll]
    refine deadAll_dead _ js ?_ (by simpa using hk)
    by_cases e : j = k
    · subst e; exact .inl (List.getElem?_set_self hk)
    · rcases h with h | h
      · exact .inl (by rw [List.getElem?_set_ne e]; exact h)
      · rcases List.mem_cons.mp h with h | h
        · exact absurd h.symm e
        · exact .inr h

private theorem map_set_ne {v : List Val} {j : Nat} {js : List Nat} (h : j ∉ js) (x : Val) :
    js.map (fun k => (v.set j x)[k]?) = js.map (fun k => v[k]?) :=
  List.map_congr_left fun k hk => List.getElem?_set_ne (by rintro rfl; exact h hk)

private theorem vexec_ending (p : Bool) (sm : SourceMap) (v : List Val) : vexec (ending p) sm v = .ok (sm, v, p) := by
  cases p <;> simp [ending, vexec]

private theorem vtrees_yields (p : Bool) (sm : SourceMap) : ∀ {js : List Nat} {us : List TokenTree} {v : List Val}, js.Nodup →
    js.map (fun j => v[j]?) = us.map (fun t => some (Val.tree t)) →
    vtrees (yields (ending p) js) sm v = .ok (sm, deadAll v js, us.flatMap splitNeg, p)
  | [], [], v, _, _ => by simp [yields, vtrees, vexec_ending, bind, Res.bind, deadAll]
  | [], _ :: _, _, _, h => by simp at h
  | _ :: _, [], _, _, h => by simp at h
  | j :: js, u :: us, v, hn, h => by
    rw [List.nodup_cons] at hn
    simp only [List.map_cons, List.cons.injEq] at h
    have ih := vtrees_yields p sm (js := js) (us := us) (v := v.set j .dead) hn.2 (by rw [map_set_ne hn.1]; exact h.2)
    simp [yields, vtrees, vexec, bind, Res.bind, h.1, ih, deadAll]

private theorem vstreams_yields (p : Bool) (sm : SourceMap) : ∀ {js : List Nat} {us : List (List TokenTree)} {v : List Val},
    js.Nodup → js.map (fun j => v[j]?) = us.map (fun t => some (Val.stream t)) →
    vstreams (yields (ending p) js) sm v = .ok (sm, deadAll v js ++ List.replicate js.length .dead, us.flatten, p)
  | [], [], v, _, _ => by simp [yields, vstreams, vexec_ending, bind, Res.bind, deadAll]
  | [], _ :: _, _, _, h => by simp at h
  | _ :: _, [], _, _, h => by simp at h
  | j :: js, u :: us, v, hn, h => by
    rw [List.nodup_cons] at hn
    simp only [List.map_cons, List.cons.injEq] at h
    have hlt : ∀ k ∈ js, k < v.length := by
      intro k hk
      have : v[k]? ∈ js.map (fun j => v[j]?) := List.mem_map.mpr ⟨_, hk, rfl⟩
      rw [h.2, List.mem_map] at this
      obtain ⟨_, _, e⟩ := this
      exact (List.getElem?_eq_some_iff.mp e.symm).1
    have h2 : js.map (fun k => (v.set j .dead ++ [Val.dead])[k]?) = us.map (fun t => some (Val.stream t)) := by
      rw [← h.2, ← map_set_ne (v := v) hn.1 .dead]
      exact List.map_congr_left fun k hk => List.getElem?_append_left (by simpa using hlt k hk)
    have ih := vstreams_yields p sm (js := js) (us := us) (v := v.set j .dead ++ [.dead]) hn.2 h2
    have happ : ∀ (js : List Nat) (w z : List Val), (∀ k ∈ js, k < w.length) → deadAll (w ++ z) js = deadAll w js ++ z := by
      intro js
      induction js with
      | nil => intro w z _; rfl
      | cons i js ih =>
        intro w z hw
        simp only [deadAll]
        rw [List.set_append_left _ _ (hw i (by simp))]
        exact ih _ _ (fun k hk => by simpa using hw k (by simp [hk]))
    rw [happ _ _ _ (by simpa using hlt)] at ih
    simp [yields, vstreams, vexec, bind, Res.bind, h.1, ih, deadAll, List.replicate_succ]

/-- **C112.** Extending a stream from an iterator that returns trees, and may panic afterwards. The stream has all of them, split
as they would be otherwise; they are moved; the other variables hold what they held. -/
theorem C112_extend_trees {c : Code} {sm : SourceMap} {s : State} (hs : execCode c SourceMap.init State.init = .ok (sm, s, false))
    {i : Nat} {ts : List TokenTree} (hi : VarHolds s i (.stream ts)) {js : List Nat} (hn : js.Nodup) {us : List TokenTree}
    (hj : VarsHold s .tree js us) (p : Bool) :
    ∃ s', execCode (.extendTrees i (yields (ending p) js)) sm s = .ok (sm, s', p) ∧
      VarHolds s' i (.stream (ts ++ us.flatMap splitNeg)) ∧ (∀ j ∈ js, VarHolds s' j .dead) ∧
      ∀ k w, k ≠ i → k ∉ js → VarHolds s k w → VarHolds s' k w := by
  obtain ⟨v, -, hR, hv⟩ := code_rel hs
  have h1 := hR.of_holds hi
  have h2 := vals_of_holds hR .tree hj
  have hij : i ∉ js := by
    intro h
    have : v[i]? ∈ js.map (fun j => v[j]?) := List.mem_map.mpr ⟨_, h, rfl⟩
    rw [h2, h1, List.mem_map] at this
    obtain ⟨_, _, e⟩ := this
    cases e
  have hlt := (List.getElem?_eq_some_iff.mp h1).1
  have e := vtrees_yields p sm (v := v.set i .dead) hn (by rw [map_set_ne hij]; exact h2)
  have e2 : vexec (.extendTrees i (yields (ending p) js)) sm v =
      .ok (sm, (deadAll (v.set i .dead) js).set i (.stream (ts ++ us.flatMap splitNeg)), p) := by
    simp [vexec, h1, e, bind, Res.bind]
  have key := code_same (sm := sm) hR hv (.extendTrees i (yields (ending p) js))
  rw [e2] at key
  cases e3 : execCode (.extendTrees i (yields (ending p) js)) sm s <;> rw [e3] at key <;> first | exact key.elim | skip
  rename_i y
  obtain ⟨sm', s', p'⟩ := y
  obtain ⟨g1, g2, g3, -⟩ := key
  simp only at g1 g2 g3
  subst g1 g2
  refine ⟨s', rfl, g3.val ?_, fun j hj' => g3.val ?_, fun k w hk hk' hw => g3.val ?_⟩
  · exact List.getElem?_set_self (by simpa [deadAll_length] using hlt)
  · rw [List.getElem?_set_ne (by rintro rfl; exact hij hj')]
    refine deadAll_dead _ _ (.inr hj') ?_
    have : v[j]? ∈ js.map (fun j => v[j]?) := List.mem_map.mpr ⟨_, hj', rfl⟩
    rw [h2, List.mem_map] at this
    obtain ⟨_, _, e⟩ := this
    simpa using (List.getElem?_eq_some_iff.mp e.symm).1
  · rw [List.getElem?_set_ne (Ne.symm hk), deadAll_other _ _ hk', List.getElem?_set_ne (Ne.symm hk)]
    exact hR.of_holds hw

/-- **C112.** The same for an iterator of streams. -/
theorem C112_extend_streams {c : Code} {sm : SourceMap} {s : State}
    (hs : execCode c SourceMap.init State.init = .ok (sm, s, false)) {i : Nat} {ts : List TokenTree}
    (hi : VarHolds s i (.stream ts)) {js : List Nat} (hn : js.Nodup) (hij : i ∉ js) {us : List (List TokenTree)}
    (hj : VarsHold s .stream js us) (p : Bool) :
    ∃ s', execCode (.extendStreams i (yields (ending p) js)) sm s = .ok (sm, s', p) ∧
      VarHolds s' i (.stream (ts ++ us.flatten)) ∧ (∀ j ∈ js, VarHolds s' j .dead) ∧
      ∀ k w, k ≠ i → k ∉ js → VarHolds s k w → VarHolds s' k w := by
  obtain ⟨v, -, hR, hv⟩ := code_rel hs
  have h1 := hR.of_holds hi
  have h2 := vals_of_holds hR .stream hj
  have hlt := (List.getElem?_eq_some_iff.mp h1).1
  have e := vstreams_yields p sm (v := v.set i .dead) hn (by rw [map_set_ne hij]; exact h2)
  have e2 : vexec (.extendStreams i (yields (ending p) js)) sm v =
      .ok (sm, (deadAll (v.set i .dead) js ++ List.replicate js.length Val.dead).set i (.stream (ts ++ us.flatten)), p) := by
    simp [vexec, h1, e, bind, Res.bind]
  have key := code_same (sm := sm) hR hv (.extendStreams i (yields (ending p) js))
  rw [e2] at key
  cases e3 : execCode (.extendStreams i (yields (ending p) js)) sm s <;> rw [e3] at key <;> first | exact key.elim | skip
  rename_i y
  obtain ⟨sm', s', p'⟩ := y
  obtain ⟨g1, g2, g3, -⟩ := key
  simp only at g1 g2 g3
  subst g1 g2
  rw [List.set_append_left _ _ (by simpa [deadAll_length] using hlt)] at g3
  refine ⟨s', rfl, g3.val ?_, fun j hj' => g3.val ?_, fun k w hk hk' hw => g3.val ?_⟩
  · rw [List.getElem?_append_left (by simpa [deadAll_length] using hlt)]
    exact List.getElem?_set_self (by simpa [deadAll_length] using hlt)
  · have : v[j]? ∈ js.map (fun j => v[j]?) := List.mem_map.mpr ⟨_, hj', rfl⟩
    rw [h2, List.mem_map] at this
    obtain ⟨_, _, e⟩ := this
    have hl := (List.getElem?_eq_some_iff.mp e.symm).1
    rw [List.getElem?_append_left (by simpa [deadAll_length] using hl),
      List.getElem?_set_ne (by rintro rfl; exact hij hj')]
    exact deadAll_dead _ _ (.inr hj') (by simpa using hl)
  · have hw' := hR.of_holds hw
    have hl := (List.getElem?_eq_some_iff.mp hw').1
    rw [List.getElem?_append_left (by simpa [deadAll_length] using hl),
      List.getElem?_set_ne (Ne.symm hk), deadAll_other _ _ hk', List.getElem?_set_ne (Ne.symm hk)]
    exact hw'

end

/-! ### Concrete cases -/

section
attribute [local instance] sampleTables sampleTables_lawful

/-- `a(b)` is parsed and cloned, and `-1` made. The stream is extended from an iterator that returns `-1`, parses `c`, and takes
its token; it clones the other stream, extends the clone from an iterator that panics at once, and catches that; then it
panics. -/
private def unwindEx : Code :=
  .seq (.act (.parse ['a', '(', 'b', ')'])) <| .seq (.act (.op (.cloneStream 0))) <|
  .seq (.act (.op (.leaf (.literal ['-', '1'] ⟨0, 0⟩)))) <| .catch_ <|
  .extendTrees 0 <| .yield .skip 2 <|
    .yield (.seq (.act (.parse ['c'])) (.seq (.act (.op (.intoOwned 3))) (.act (.op (.next 4))))) 5 <|
    .stop (.seq (.act (.op (.cloneStream 1))) (.seq (.catch_ (.extendStreams 6 (.stop .panic))) .panic))

private def unwindValues : List Val :=
  [.stream [.ident ['a'] false ⟨1, 2⟩, .group .parenthesis [.ident ['b'] false ⟨3, 4⟩] ⟨2, 5⟩,
      .punct '-' .alone ⟨0, 0⟩, .literal ['1'] ⟨0, 0⟩, .ident ['c'] false ⟨6, 7⟩],
    .stream [.ident ['a'] false ⟨1, 2⟩, .group .parenthesis [.ident ['b'] false ⟨3, 4⟩] ⟨2, 5⟩],
    .dead, .dead, .dead, .dead, .dead]

private def unwindResult : Option (List Val × Bool) :=
  match vexec unwindEx SourceMap.init [] with
  | .ok (_, v, p) => some (v, p)
  | _ => none

private def unwindHeap : Option (State × Bool) :=
  match execCode unwindEx SourceMap.init State.init with
  | .ok (_, s, p) => some (s, p)
  | _ => none

/-- C112_values: the run on values ends normally. -/
example : unwindResult = some (unwindValues, false) := by decide +kernel

/-- The run on the heap: the group is shared, what the iterator made is freed. -/
example : unwindHeap = some (⟨[some ⟨2, [.ident ['b'] false ⟨3, 4⟩]⟩,
    some ⟨1, [.ident ['a'] false ⟨1, 2⟩, .group .parenthesis 0 ⟨2, 5⟩]⟩,
    some ⟨1, [.ident ['a'] false ⟨1, 2⟩, .group .parenthesis 0 ⟨2, 5⟩, .punct '-' .alone ⟨0, 0⟩, .literal ['1'] ⟨0, 0⟩,
      .ident ['c'] false ⟨6, 7⟩]⟩, none, none],
    [.stream 2, .stream 1, .dead, .dead, .dead, .dead, .dead]⟩, false) := by decide +kernel

/-- C112_total: the texts of the program. -/
example : ∀ t ∈ codeTexts unwindEx, t.length < 2 ^ 32 := by decide +kernel

/-- C112_calls: calls, one of which has a text with positions. -/
example : ¬ Internal (.op (.cloneStream 0)) ∧ ¬ Internal (.parse ['a']) ∧ ActRoom [] (.parse ['a']) ∧ History SourceMap.init [] :=
  ⟨nofun, nofun, by simp only [ActRoom]; decide, .init⟩

/-- C112_no_leak: `a(b)` is parsed, and collecting panics after the iterator has returned a clone of it. -/
private def unwindPanics : Option (State × Bool) :=
  match execCode (.seq (.act (.parse ['a', '(', 'b', ')']))
      (.collectStreams (.yield (.act (.op (.cloneStream 0))) 1 (.stop .panic)))) SourceMap.init State.init with
  | .ok (_, s, p) => some (s, p)
  | _ => none

example : unwindPanics = some (⟨[some ⟨1, [.ident ['b'] false ⟨3, 4⟩]⟩,
    some ⟨1, [.ident ['a'] false ⟨1, 2⟩, .group .parenthesis 0 ⟨2, 5⟩]⟩, none], [.stream 1, .dead]⟩, true) := by decide +kernel

/-- Without the wrapper, `a` and `b` are collected, and the iterator clones the first; then the same, and the iterator panics. -/
private def gatherEx (d : Code) : Option (State × Bool) :=
  match execCode (.seq (.act (.parse ['a'])) (.seq (.act (.parse ['b']))
      (.gatherStreams (.yield (.act (.op (.cloneStream 0))) 0 (.yield .skip 1 (.stop d)))))) SourceMap.init State.init with
  | .ok (_, s, p) => some (s, p)
  | _ => none

example : gatherEx .skip = some (⟨[some ⟨1, [.ident ['a'] false ⟨1, 2⟩]⟩, none,
    some ⟨1, [.ident ['a'] false ⟨1, 2⟩, .ident ['b'] false ⟨3, 4⟩]⟩],
      [.dead, .dead, .dead, .stream 2, .stream 0, .dead, .dead]⟩, false) := by decide +kernel

example : gatherEx .panic = some (⟨[some ⟨1, [.ident ['a'] false ⟨1, 2⟩]⟩, none, none],
    [.dead, .dead, .dead, .dead, .stream 0, .dead, .dead]⟩, true) := by decide +kernel

/-- C112_extend_trees, C112_extend_streams: a state with a stream, another stream, and a tree. -/
private def unwindStart : Code :=
  .seq (.act (.parse ['a'])) <| .seq (.act (.parse ['b'])) (.act (.op (.leaf (.literal ['-', '1'] ⟨0, 0⟩))))

private def unwindState : State :=
  ⟨[some ⟨1, [.ident ['a'] false ⟨1, 2⟩]⟩, some ⟨1, [.ident ['b'] false ⟨3, 4⟩]⟩],
    [.stream 0, .stream 1, .tree (.literal ['-', '1'] ⟨0, 0⟩)]⟩

private def unwindMap : SourceMap :=
  ⟨[⟨[], ⟨0, 0⟩, [0], []⟩, ⟨['a'], ⟨1, 2⟩, [0], []⟩, ⟨['b'], ⟨3, 4⟩, [0], []⟩]⟩

example : execCode unwindStart SourceMap.init State.init = .ok (unwindMap, unwindState, false) := by decide +kernel

example : VarHolds unwindState 0 (.stream [.ident ['a'] false ⟨1, 2⟩]) ∧
    VarsHold unwindState .stream [1] [[.ident ['b'] false ⟨3, 4⟩]] ∧
    VarsHold unwindState .tree [2] [.literal ['-', '1'] ⟨0, 0⟩] :=
  ⟨⟨_, rfl, .stream rfl (.ident .nil)⟩, .cons ⟨_, rfl, .stream rfl (.ident .nil)⟩ .nil,
    .cons ⟨_, rfl, .tree (.literal .nil)⟩ .nil⟩

end

end PM2.Props
