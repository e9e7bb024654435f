import Verif.Spec.Script
import Verif.Props.Panics
import Verif.Spec.Decide
/-!
# C113: iterators of the user and caught panics, in both modes
-/

set_option linter.unusedSectionVars false

namespace PM2.Props
open Wrap Spec

section
variable [Compiler]

theorem tried_ok {α β : Type} (a : α) (f : α → Out β) (g : End → Out β) : (Out.ok a).tried f g = f a := rfl

theorem out_assoc {α β γ : Type} (x : Out α) (f : α → Out β) (g : β → Out γ) :
    (x >>= f) >>= g = x >>= fun a => f a >>= g := by
  cases x <;> rfl

/-! ## Appending one by one, and all at once -/

/-- Appending trees one by one is appending them all. -/
class LawfulRep (σ : Type) [Rep σ] : Prop where
  nil (d : σ) : Rep.extendTrees d [] = d
  cons (d : σ) (c : CTree) (cs : List CTree) : Rep.extendTrees (Rep.extendTrees d [c]) cs = Rep.extendTrees d (c :: cs)

instance : LawfulRep Deferred where
  nil d := by cases d; simp [Rep.extendTrees, Deferred.extendTrees]
  cons d c cs := by simp [Rep.extendTrees, Deferred.extendTrees]

instance : LawfulRep Eager where
  nil d := by simp [Rep.extendTrees]
  cons d c cs := by simp [Rep.extendTrees]

section
variable {σ : Type} [Rep σ]

theorem extendTrees_nil [LawfulRep σ] (x : WStream σ) : x.extendTrees [] = .ok x := by
  cases x with
  | compiler d => simp [WStream.extendTrees, intoCompilerTokens, out_bind_ok, LawfulRep.nil]
  | fallback ts => simp [WStream.extendTrees]

theorem push_cases (x : WStream σ) (t : Tree) :
    (x.push t = .mismatch ∧ streamMode x = true ∧ treeMode t = false) ∨
    (∃ y, x.push t = .ok y ∧ streamMode y = streamMode x) ∧ (!streamMode x || treeMode t) = true := by
  cases x with
  | fallback ts => exact .inr ⟨⟨_, rfl, rfl⟩, rfl⟩
  | compiler d =>
    rcases intoCompilerToken_cases t with ⟨c, e⟩ | e
    · right
      refine ⟨⟨.compiler (Rep.extendTrees d [c]), by simp [WStream.push, e, out_bind_ok], rfl⟩, ?_⟩
      cases ht : treeMode t
      · rw [intoCompilerToken_mismatch.mpr ht] at e; cases e
      · simp
    · left
      refine ⟨by simp only [WStream.push, e]; rfl, rfl, intoCompilerToken_mismatch.mp e⟩

theorem push_extend [LawfulRep σ] {x y : WStream σ} {t : Tree} (h : x.push t = .ok y) (ts : List Tree) :
    y.extendTrees ts = x.extendTrees (t :: ts) := by
  cases x with
  | fallback us =>
    cases h
    simp [WStream.extendTrees]
  | compiler d =>
    rcases intoCompilerToken_cases t with ⟨c, e⟩ | e
    · simp only [WStream.push, e, out_bind_ok, Out.ok.injEq] at h
      subst h
      simp only [WStream.extendTrees, intoCompilerTokens, e, out_bind_ok, out_assoc, LawfulRep.cons]
    · simp only [WStream.push, e] at h; cases h

variable [Torn σ] [UnicodeTables]

/-- The rest of an `extend` with trees. -/
def thenTrees (x : WStream σ) (r : State σ × List Tree × End) : Out (State σ × WStream σ × End) := do
  .ok (r.1, ← x.extendTrees r.2.1, r.2.2)

def thenCompiler (cs : List CTree) (r : State σ × List Tree × End) : Out (State σ × List CTree × End) := do
  .ok (r.1, cs ++ (← intoCompilerTokens r.2.1), r.2.2)

def thenNightly (ds : List σ) (r : State σ × List (WStream σ) × End) : Out (State σ × List σ × End) := do
  .ok (r.1, ds ++ (← unwrapNightlies r.2.1), r.2.2)

def thenStable (ts : List Tree) (r : State σ × List (WStream σ) × End) : Out (State σ × List Tree × End) := do
  .ok (r.1, ts ++ (← unwrapStables r.2.1).flatten, r.2.2)

theorem nightly_cons (ds : List σ) (x : WStream σ) (d : σ) (h : x.unwrapNightly = .ok d) (s : State σ) (xs : List (WStream σ)) (e : End) :
    thenNightly ds (s, x :: xs, e) = thenNightly (ds ++ [d]) (s, xs, e) := by
  simp only [thenNightly, unwrapNightlies, h, out_bind_ok, out_assoc, List.append_assoc, List.singleton_append]

theorem stable_cons (ts : List Tree) (x : WStream σ) (us : List Tree) (h : x.unwrapStable = .ok us) (s : State σ)
    (xs : List (WStream σ)) (e : End) :
    thenStable ts (s, x :: xs, e) = thenStable (ts ++ us) (s, xs, e) := by
  simp only [thenStable, unwrapStables, h, out_bind_ok, out_assoc, List.append_assoc, List.flatten_cons]

theorem compiler_cons (cs : List CTree) (t : Tree) (c : CTree) (h : intoCompilerToken t = .ok c) (s : State σ) (ts : List Tree)
    (e : End) : thenCompiler cs (s, t :: ts, e) = thenCompiler (cs ++ [c]) (s, ts, e) := by
  simp only [thenCompiler, intoCompilerTokens, h, out_bind_ok, out_assoc, List.append_assoc, List.singleton_append]

theorem tree_cases (s : State σ) (j : Nat) : (∃ t, s.tree j = .ok t) ∨ s.tree j = .ill := by
  unfold State.tree
  split
  · exact .inl ⟨_, rfl⟩
  · exact .inr rfl

theorem stream_cases (s : State σ) (j : Nat) : (∃ x, s.stream j = .ok x) ∨ s.stream j = .ill := by
  unfold State.stream
  split
  · exact .inl ⟨_, rfl⟩
  · exact .inr rfl

theorem bind_congr_ok {α β : Type} {x : Out α} {f g : α → Out β} (h : ∀ a, x = .ok a → f a = g a) : (x >>= f) = (x >>= g) := by
  cases x with
  | ok a => exact h a rfl
  | _ => rfl

theorem taken_mode : ∀ (it : Feed) (s : State σ) {s' : State σ} {ts : List Tree} {e : End},
    takenTrees true it s = .ok (s', ts, e) → ∀ t ∈ ts, treeMode t = true
  | .stop c, s, s', ts, e, h => by
    simp only [takenTrees, bind_ok, Out.ok.injEq, Prod.mk.injEq] at h
    obtain ⟨_, _, _, rfl, _⟩ := h
    simp
  | .yield c j it, s, s', ts, e, h => by
    simp only [takenTrees, bind_ok] at h
    obtain ⟨⟨s1, e1⟩, _, h⟩ := h
    dsimp only at h
    split at h
    · simp only [bind_ok] at h
      obtain ⟨t, _, h⟩ := h
      split at h
      · rename_i hm
        simp only [bind_ok, Out.ok.injEq, Prod.mk.injEq] at h
        obtain ⟨⟨s2, us, e2⟩, h1, _, rfl, _⟩ := h
        intro u hu
        rcases List.mem_cons.mp hu with rfl | hu
        · simpa using hm
        · exact taken_mode it s1 h1 u hu
      · cases h; simp
    · cases h; simp
  | .hint c j k, s, s', ts, e, h => by cases h

theorem streams_mode : ∀ (it : Feed) (s : State σ) {m : Bool} {s' : State σ} {xs : List (WStream σ)} {e : End},
    takenStreams (some m) it s = .ok (s', xs, e) → ∀ x ∈ xs, streamMode x = m
  | .stop c, s, m, s', ts, e, h => by
    simp only [takenStreams, bind_ok, Out.ok.injEq, Prod.mk.injEq] at h
    obtain ⟨_, _, _, rfl, _⟩ := h
    simp
  | .yield c j it, s, m, s', ts, e, h => by
    simp only [takenStreams, bind_ok] at h
    obtain ⟨⟨s1, e1⟩, _, h⟩ := h
    dsimp only at h
    split at h
    · simp only [bind_ok] at h
      obtain ⟨t, _, h⟩ := h
      split at h
      · rename_i hm
        have hm : m = streamMode t := by simpa using hm
        subst hm
        simp only [bind_ok, Out.ok.injEq, Prod.mk.injEq] at h
        obtain ⟨⟨s2, us, e2⟩, h1, _, rfl, _⟩ := h
        intro u hu
        rcases List.mem_cons.mp hu with rfl | hu
        · rfl
        · exact streams_mode it s1 h1 u hu
      · cases h; simp
    · cases h; simp
  | .hint c j k, s, m, s', ts, e, h => by
    simp only [takenStreams] at h
    split at h
    · rename_i hm
      cases hm
      simp only [bind_ok] at h
      obtain ⟨⟨s1, e1⟩, _, h⟩ := h
      dsimp only at h
      split at h
      · simp only [bind_ok] at h
        obtain ⟨x, _, ⟨xs, e2⟩, h2, h3⟩ := h
        cases h3
        cases x with
        | compiler _ => cases h2; simp
        | fallback us =>
          simp only [firstPart] at h2
          split at h2
          · cases h2; simp [streamMode]
          · cases h2
      · cases h; simp
    · cases h

theorem tokens_ok {ts : List Tree} (h : ∀ t ∈ ts, treeMode t = true) : ∃ cs, intoCompilerTokens ts = .ok cs := by
  induction ts with
  | nil => exact ⟨[], rfl⟩
  | cons t ts ih =>
    obtain ⟨cs, hc⟩ := ih fun u hu => h u (.tail _ hu)
    rcases intoCompilerToken_cases t with ⟨c, e⟩ | e
    · exact ⟨c :: cs, by simp only [intoCompilerTokens, e, hc, out_bind_ok]⟩
    · rw [intoCompilerToken_mismatch, h t (.head _)] at e; cases e

theorem nightlies_ok {xs : List (WStream σ)} (h : ∀ x ∈ xs, streamMode x = true) : ∃ ds, unwrapNightlies xs = .ok ds := by
  induction xs with
  | nil => exact ⟨[], rfl⟩
  | cons x xs ih =>
    obtain ⟨ds, hd⟩ := ih fun u hu => h u (.tail _ hu)
    have := h x (.head _)
    cases x with
    | compiler d => exact ⟨d :: ds, by simp only [unwrapNightlies, WStream.unwrapNightly, hd, out_bind_ok]⟩
    | fallback _ => cases this

theorem nightlies_map {xs : List (WStream σ)} {ds : List σ} (h : unwrapNightlies xs = .ok ds) : xs = ds.map .compiler := by
  induction xs generalizing ds with
  | nil => cases h; rfl
  | cons x xs ih =>
    simp only [unwrapNightlies, bind_ok, Out.ok.injEq] at h
    obtain ⟨d, hd, ds, hds, rfl⟩ := h
    cases x with
    | compiler d' => cases hd; rw [ih hds]; rfl
    | fallback _ => cases hd

theorem stables_ok {xs : List (WStream σ)} (h : ∀ x ∈ xs, streamMode x = false) : ∃ ds, unwrapStables xs = .ok ds := by
  induction xs with
  | nil => exact ⟨[], rfl⟩
  | cons x xs ih =>
    obtain ⟨ds, hd⟩ := ih fun u hu => h u (.tail _ hu)
    have := h x (.head _)
    cases x with
    | fallback d => exact ⟨d :: ds, by simp only [unwrapStables, WStream.unwrapStable, hd, out_bind_ok]⟩
    | compiler _ => cases this

theorem first_mode (it : Feed) (s : State σ) {s' : State σ} {xs : List (WStream σ)} {e : End}
    (h : takenStreams none it s = .ok (s', xs, e)) (inside : Bool) : ∃ y, WStream.collectStreams inside xs = .ok y := by
  cases it with
  | stop c =>
    simp only [takenStreams, bind_ok, Out.ok.injEq, Prod.mk.injEq] at h
    obtain ⟨_, _, _, rfl, _⟩ := h
    exact ⟨_, rfl⟩
  | yield c j it =>
    simp only [takenStreams, bind_ok] at h
    obtain ⟨⟨s1, e1⟩, _, h⟩ := h
    dsimp only at h
    split at h
    · simp only [bind_ok, Option.all_none, if_true, Out.ok.injEq, Prod.mk.injEq] at h
      obtain ⟨x, _, ⟨s2, us, e2⟩, h1, _, rfl, _⟩ := h
      have hm := streams_mode it s1 h1
      cases x with
      | compiler d =>
        obtain ⟨ds, hd⟩ := nightlies_ok hm
        exact ⟨_, by simp only [WStream.collectStreams, WStream.extendStreams, hd, out_bind_ok]; rfl⟩
      | fallback d =>
        obtain ⟨ds, hd⟩ := stables_ok hm
        exact ⟨_, by simp only [WStream.collectStreams, WStream.extendStreams, hd, out_bind_ok]; rfl⟩
    · cases h; exact ⟨_, rfl⟩
  | hint c j k => cases h

theorem bind_congr' {α β : Type} (x : Out α) {f g : α → Out β} (h : ∀ a, f a = g a) : (x >>= f) = (x >>= g) := by
  rw [funext h]

mutual
theorem exec_runAll [LawfulRep σ] : ∀ (c : Script) (s : State σ), exec c s = runAll c s
  | .skip, _ => rfl
  | .op _ _, _ => rfl
  | .panic, _ => rfl
  | .seq c d, s => by
    simp only [exec, runAll, exec_runAll c]
    refine bind_congr' _ fun ⟨s, e⟩ => ?_
    simp only [exec_runAll d]
  | .catch_ c, s => by simp only [exec, runAll, exec_runAll c]
  | .extendTrees i it, s => by
    simp only [exec, runAll]
    refine bind_congr' _ fun x => ?_
    simp only [trees_taken it, out_assoc]
    refine bind_congr' _ fun ⟨s, ts, e⟩ => ?_
    simp only [thenTrees, out_assoc, out_bind_ok]
  | .extendStreams i it, s => by
    simp only [exec, runAll]
    refine bind_congr' _ fun x => ?_
    cases x with
    | compiler d =>
      simp only [nightly_taken it, out_assoc, streamMode]
      refine bind_congr' _ fun ⟨s, xs, e⟩ => ?_
      simp only [thenNightly, out_assoc, out_bind_ok, appended, extended, WStream.extendStreams, List.nil_append]
      split <;> simp only [out_assoc, out_bind_ok]
    | fallback ts =>
      simp only [stable_taken it, out_assoc, streamMode]
      refine bind_congr' _ fun ⟨s, xs, e⟩ => ?_
      simp only [thenStable, out_assoc, out_bind_ok, appended, WStream.extendStreams]
  | .collectTrees true it, s => by
    simp only [exec, runAll, compiler_taken it, out_assoc]
    refine bind_congr_ok fun ⟨s, ts, e⟩ h => ?_
    obtain ⟨cs, hc⟩ := tokens_ok (taken_mode it _ h)
    simp only [thenCompiler, hc, out_bind_ok, WStream.collectTrees, if_true, extendC, List.nil_append]
    split <;> rfl
  | .collectTrees false it, s => by
    simp only [exec, runAll, trees_taken it, out_assoc, streamMode]
    refine bind_congr' _ fun ⟨s, ts, e⟩ => ?_
    simp only [thenTrees, out_assoc, out_bind_ok, WStream.collectTrees, WStream.extendTrees, List.nil_append,
      Bool.false_eq_true, if_false]
    split <;> rfl
  | .collectStreams inside (.stop c), s => by
    simp only [exec, runAll, takenStreams, exec_runAll c, out_assoc]
    refine bind_congr' _ fun ⟨s, e⟩ => ?_
    simp only [out_bind_ok, WStream.collectStreams]
    split <;> rfl
  | .collectStreams inside (.yield c j it), s => by
    simp only [exec, runAll, takenStreams, exec_runAll c, out_assoc]
    refine bind_congr' _ fun ⟨s, e⟩ => ?_
    dsimp only
    split
    · simp only [out_assoc]
      refine bind_congr' _ fun x => ?_
      cases x with
      | compiler d =>
        simp only [nightly_taken it, out_assoc, streamMode, Option.all_none, if_true]
        refine bind_congr_ok fun ⟨s, xs, e⟩ h => ?_
        obtain ⟨ds, hd⟩ := nightlies_ok (streams_mode it _ h)
        simp only [thenNightly, hd, out_bind_ok, WStream.collectStreams, extended, WStream.extendStreams, List.nil_append]
        split <;> rfl
      | fallback ts =>
        simp only [stable_taken it, out_assoc, streamMode, Option.all_none, if_true]
        refine bind_congr_ok fun ⟨s, xs, e⟩ h => ?_
        obtain ⟨ds, hd⟩ := stables_ok (streams_mode it _ h)
        simp only [thenStable, hd, out_bind_ok, WStream.collectStreams, WStream.extendStreams]
        split <;> rfl
    · rename_i he
      simp only [out_bind_ok, he, if_false]
  | .collectStreams inside (.hint c j k), s => rfl

theorem trees_taken [LawfulRep σ] : ∀ (it : Feed) (s : State σ) (x : WStream σ),
    loopTrees it s x = takenTrees (streamMode x) it s >>= thenTrees x
  | .stop c, s, x => by
    simp only [loopTrees, takenTrees, exec_runAll c, out_assoc, out_bind_ok, thenTrees, extendTrees_nil]
  | .yield c j it, s, x => by
    simp only [loopTrees, takenTrees, exec_runAll c, out_assoc]
    refine bind_congr' _ fun ⟨s, e⟩ => ?_
    dsimp only
    split
    · simp only [addTree, out_assoc]
      rcases tree_cases s j with ⟨t, ht⟩ | ht
      · rw [ht]
        simp only [out_bind_ok]
        rcases push_cases x t with ⟨h1, h2, h3⟩ | ⟨⟨y, h1, h2⟩, h3⟩
        · simp [h1, h2, h3, Out.tried, out_bind_ok, thenTrees, extendTrees_nil]
        · simp only [h1, h3, tried_ok, if_true, trees_taken it s y, h2, out_assoc, out_bind_ok]
          refine bind_congr' _ fun ⟨s, ts, e⟩ => ?_
          simp only [thenTrees, push_extend h1]
      · rw [ht]; rfl
    · simp only [out_bind_ok, thenTrees, extendTrees_nil]
  | .hint c j k, s, x => rfl

theorem compiler_taken [LawfulRep σ] : ∀ (it : Feed) (s : State σ) (cs : List CTree),
    loopCompiler it s cs = takenTrees true it s >>= thenCompiler cs
  | .stop c, s, x => by
    simp only [loopCompiler, takenTrees, exec_runAll c, out_assoc, out_bind_ok, thenCompiler, intoCompilerTokens, List.append_nil]
  | .yield c j it, s, x => by
    simp only [loopCompiler, takenTrees, exec_runAll c, out_assoc]
    refine bind_congr' _ fun ⟨s, e⟩ => ?_
    dsimp only
    split
    · simp only [addCompiler, out_assoc]
      rcases tree_cases s j with ⟨t, ht⟩ | ht
      · rw [ht]
        simp only [out_bind_ok]
        rcases intoCompilerToken_cases t with ⟨c, h1⟩ | h1
        · have h3 : treeMode t = true := by
            cases h : treeMode t
            · rw [intoCompilerToken_mismatch.mpr h] at h1; cases h1
            · rfl
          simp only [h1, h3, tried_ok, compiler_taken it s, out_assoc, out_bind_ok, Bool.or_true, if_true]
          refine bind_congr' _ fun ⟨s, ts, e⟩ => ?_
          simp only [compiler_cons _ _ _ h1]
        · have h3 := intoCompilerToken_mismatch.mp h1
          simp only [h1, h3]
          simp [Out.tried, thenCompiler, out_bind_ok, intoCompilerTokens, bind, Out.bind]
      · rw [ht]; rfl
    · simp only [out_bind_ok, thenCompiler, intoCompilerTokens, List.append_nil]
  | .hint c j k, s, x => rfl

theorem nightly_taken [LawfulRep σ] : ∀ (it : Feed) (s : State σ) (ds : List σ),
    loopNightly it s ds = takenStreams (some true) it s >>= thenNightly ds
  | .stop c, s, x => by
    simp only [loopNightly, takenStreams, exec_runAll c, out_assoc, out_bind_ok, thenNightly, unwrapNightlies, List.append_nil]
  | .yield c j it, s, x => by
    simp only [loopNightly, takenStreams, exec_runAll c, out_assoc]
    refine bind_congr' _ fun ⟨s, e⟩ => ?_
    dsimp only
    split
    · simp only [addNightly, out_assoc]
      rcases stream_cases s j with ⟨t, ht⟩ | ht
      · rw [ht]
        simp only [out_bind_ok]
        cases t with
        | compiler d =>
          simp only [streamMode, WStream.unwrapNightly, out_bind_ok, tried_ok, nightly_taken it s, Option.all_some, BEq.rfl,
            if_true, out_assoc]
          refine bind_congr' _ fun ⟨s, ts, e⟩ => ?_
          simp only [nightly_cons _ (.compiler d) d rfl]
        | fallback d =>
          simp [streamMode, WStream.unwrapNightly, Out.tried, thenNightly, out_bind_ok, unwrapNightlies, bind, Out.bind]
      · rw [ht]; rfl
    · simp only [out_bind_ok, thenNightly, unwrapNightlies, List.append_nil]
  | .hint c j k, s, x => rfl

theorem stable_taken [LawfulRep σ] : ∀ (it : Feed) (s : State σ) (ts : List Tree),
    loopStable it s ts = takenStreams (some false) it s >>= thenStable ts
  | .stop c, s, x => by
    simp only [loopStable, takenStreams, exec_runAll c, out_assoc, out_bind_ok, thenStable, unwrapStables, List.append_nil, List.flatten_nil]
  | .yield c j it, s, x => by
    simp only [loopStable, takenStreams, exec_runAll c, out_assoc]
    refine bind_congr' _ fun ⟨s, e⟩ => ?_
    dsimp only
    split
    · simp only [addStable, out_assoc]
      rcases stream_cases s j with ⟨t, ht⟩ | ht
      · rw [ht]
        simp only [out_bind_ok]
        cases t with
        | fallback d =>
          simp only [streamMode, WStream.unwrapStable, out_bind_ok, tried_ok, stable_taken it s, Option.all_some, BEq.rfl,
            if_true, out_assoc]
          refine bind_congr' _ fun ⟨s, ts, e⟩ => ?_
          simp only [stable_cons _ (.fallback d) d rfl]
        | compiler d =>
          simp [streamMode, WStream.unwrapStable, Out.tried, thenStable, out_bind_ok, unwrapStables, bind, Out.bind]
      · rw [ht]; rfl
    · simp only [out_bind_ok, thenStable, unwrapStables, List.append_nil, List.flatten_nil]
  | .hint c j k, s, x => by
    simp only [loopStable, takenStreams, exec_runAll c, if_true, out_assoc]
    refine bind_congr' _ fun ⟨s, e⟩ => ?_
    dsimp only
    split
    · simp only [addSome, out_assoc]
      rcases stream_cases s j with ⟨t, ht⟩ | ht
      · rw [ht]
        cases t with
        | fallback d =>
          simp only [WStream.unwrapStable, firstPart, out_bind_ok]
          split
          · simp [Out.tried, thenStable, out_bind_ok, unwrapStables, WStream.unwrapStable]
          · rfl
        | compiler d =>
          simp [WStream.unwrapStable, firstPart, Out.tried, thenStable, out_bind_ok, unwrapStables, bind, Out.bind]
      · rw [ht]; rfl
    · simp only [out_bind_ok, thenStable, unwrapStables, List.append_nil, List.flatten_nil]
end

/-! ## Other variables -/

theorem step_others {inside : Bool} {s s' : State σ} {o : Op} (h : Wrap.step inside s o = .ok s') :
    s.vars.length ≤ s'.vars.length ∧ ∀ j, j < s.vars.length → opTarget o ≠ some j → s'.vars[j]? = s.vars[j]? := by
  have push : ∀ (sm : SourceMap) (v : Value σ), s.vars.length ≤ (State.push { s with sm := sm } v).vars.length ∧
      ∀ j, j < s.vars.length → (State.push { s with sm := sm } v).vars[j]? = s.vars[j]? := by
    intro sm v
    refine ⟨by simp [State.push], fun j hj => ?_⟩
    simp only [State.push]
    rw [List.getElem?_append_left hj]
  have push1 : ∀ {v : Value σ}, s' = State.push s v → s.vars.length ≤ s'.vars.length ∧
      ∀ j, j < s.vars.length → opTarget o ≠ some j → s'.vars[j]? = s.vars[j]? := by
    rintro v rfl
    exact ⟨(push s.sm v).1, fun j hj _ => (push s.sm v).2 j hj⟩
  have push2 : ∀ {sm : SourceMap} {v : Value σ}, s' = State.push { s with sm := sm } v → s.vars.length ≤ s'.vars.length ∧
      ∀ j, j < s.vars.length → opTarget o ≠ some j → s'.vars[j]? = s.vars[j]? := by
    rintro sm v rfl
    exact ⟨(push sm v).1, fun j hj _ => (push sm v).2 j hj⟩
  have set : ∀ {i : Nat} {v : Value σ}, opTarget o = some i → s' = s.set i v → s.vars.length ≤ s'.vars.length ∧
      ∀ j, j < s.vars.length → opTarget o ≠ some j → s'.vars[j]? = s.vars[j]? := by
    rintro i v ho rfl
    refine ⟨by simp [State.set], fun j hj hn => ?_⟩
    rw [ho] at hn
    simp only [State.set]
    rw [List.getElem?_set_ne (fun e => hn (by rw [e]))]
  cases o with
  | fromStr src =>
    simp only [Wrap.step, bind_ok] at h
    obtain ⟨x, _, h⟩ := h
    cases x <;> (cases h; exact push2 rfl)
  | literalFromStr src =>
    simp only [Wrap.step, bind_ok] at h
    obtain ⟨x, _, h⟩ := h
    cases x <;> (cases h; exact push2 rfl)
  | next i =>
    have both : ∀ {v w : Value σ}, s' = (s.set i v).push w → s.vars.length ≤ s'.vars.length ∧
        ∀ j, j < s.vars.length → opTarget (.next i) ≠ some j → s'.vars[j]? = s.vars[j]? := by
      rintro v w rfl
      refine ⟨by simp [State.set, State.push], fun j hj hn => ?_⟩
      simp only [State.set, State.push]
      rw [List.getElem?_append_left (by simpa using hj), List.getElem?_set_ne (fun e => hn (by rw [e]; rfl))]
    simp only [Wrap.step] at h
    split at h
    · cases h; exact push1 rfl
    · simp only [bind_ok, Out.ok.injEq] at h
      obtain ⟨_, _, rfl⟩ := h
      exact both rfl
    · cases h; exact push1 rfl
    · cases h; exact both rfl
    · cases h
  | extendTrees i js =>
    simp only [Wrap.step, bind_ok, Out.ok.injEq] at h
    obtain ⟨_, _, _, _, _, _, h⟩ := h
    exact set rfl h.symm
  | extendStreams i js =>
    simp only [Wrap.step, bind_ok, Out.ok.injEq] at h
    obtain ⟨_, _, _, _, _, _, h⟩ := h
    exact set rfl h.symm
  | setSpan i j =>
    simp only [Wrap.step, bind_ok, Out.ok.injEq] at h
    obtain ⟨_, _, _, _, _, _, h⟩ := h
    exact set rfl h.symm
  | errorSpan i =>
    simp only [Wrap.step] at h
    split at h
    · cases h; exact push1 rfl
    · cases h
  | errorText i =>
    simp only [Wrap.step] at h
    split at h
    · cases h; exact push1 rfl
    · cases h
  | sizeHint i =>
    simp only [Wrap.step] at h
    split at h
    · cases h; exact push1 rfl
    · cases h; exact push1 rfl
    · cases h
  | invalidate =>
    simp only [Wrap.step] at h
    split at h
    · cases h
    · cases h; exact push2 rfl
  | _ =>
    simp only [Wrap.step, bind_ok, Out.ok.injEq] at h
    first
      | exact push1 h.symm
      | (obtain ⟨_, _, h⟩ := h; first | exact push1 h.symm | exact push2 h.symm)
      | (obtain ⟨_, _, _, _, h⟩ := h; first | exact push1 h.symm | exact push2 h.symm)
      | (obtain ⟨_, _, _, _, _, _, h⟩ := h; first | exact push1 h.symm | exact push2 h.symm)

theorem leave_others (inside : Bool) (s : State σ) (o : Op) :
    (leave inside s o).vars.length = s.vars.length ∧
      ∀ j, opTarget o ≠ some j → (leave inside s o).vars[j]? = s.vars[j]? := by
  cases o with
  | next i =>
    simp only [leave]
    split
    · refine ⟨by simp [State.set], fun j hn => ?_⟩
      simp only [State.set]
      rw [List.getElem?_set_ne (fun e => hn (by rw [e]; rfl))]
    · exact ⟨rfl, fun _ _ => rfl⟩
  | _ => exact ⟨rfl, fun _ _ => rfl⟩

/-- Every outcome of the kind `ok` is so. -/
def OnOk {α : Type} (Q : α → Prop) (x : Out α) : Prop := ∀ a, x = .ok a → Q a

theorem OnOk.bind {α β : Type} {Q : α → Prop} {R : β → Prop} {x : Out α} {g : α → Out β} (h : OnOk Q x)
    (hg : ∀ a, Q a → OnOk R (g a)) : OnOk R (x >>= g) := by
  intro b hb
  obtain ⟨a, h1, h2⟩ := bind_ok.mp hb
  exact hg a (h a h1) b h2

theorem OnOk.ok {α : Type} {Q : α → Prop} {a : α} (h : Q a) : OnOk Q (.ok a) := by rintro _ ⟨⟩; exact h

theorem OnOk.all {α : Type} (x : Out α) : OnOk (fun _ => True) x := fun _ _ => trivial

/-- All variables of `s` but those in `js` are as they were. -/
def Kept (js : List Nat) (s s' : State σ) : Prop :=
  s.vars.length ≤ s'.vars.length ∧ ∀ j, j < s.vars.length → j ∉ js → s'.vars[j]? = s.vars[j]?

theorem Kept.refl (js : List Nat) (s : State σ) : Kept js s s := ⟨Nat.le_refl _, fun _ _ _ => rfl⟩

theorem Kept.trans {js ks : List Nat} {s t u : State σ} (h : Kept js s t) (h' : Kept ks t u) : Kept (js ++ ks) s u :=
  ⟨Nat.le_trans h.1 h'.1, fun j hj hn => by
    simp only [List.mem_append, not_or] at hn
    rw [h'.2 j (Nat.lt_of_lt_of_le hj h.1) hn.2, h.2 j hj hn.1]⟩

theorem Kept.push {js : List Nat} {s t : State σ} (h : Kept js s t) (v : Value σ) : Kept js s (t.push v) :=
  ⟨by have := h.1; simp [State.push]; omega, fun j hj hn => by
    simp only [State.push]
    rw [List.getElem?_append_left (Nat.lt_of_lt_of_le hj h.1), h.2 j hj hn]⟩

theorem Kept.hide {js : List Nat} {s t : State σ} {i : Nat} {v w : Value σ} (h : Kept js (s.set i v) t) :
    Kept (i :: js) s (t.set i w) := by
  refine ⟨by have := h.1; simpa [State.set] using this, fun j hj hn => ?_⟩
  simp only [List.mem_cons, not_or] at hn
  have := h.2 j (by simpa [State.set] using hj) hn.2
  simp only [State.set] at this ⊢
  rw [List.getElem?_set_ne (Ne.symm hn.1), this, List.getElem?_set_ne (Ne.symm hn.1)]

mutual
theorem kept_script : ∀ (c : Script) (s : State σ), OnOk (fun r => Kept (targets c) s r.1) (runAll c s)
  | .skip, s => .ok (Kept.refl _ s)
  | .panic, s => .ok (Kept.refl _ s)
  | .op inside o, s => by
    rintro ⟨s', e⟩ h
    simp only [runAll] at h
    split at h
    · cases h
    · have hl := leave_others inside s o
      have hleave : Kept (targets (.op inside o)) s (leave inside s o) :=
        ⟨by rw [hl.1]; exact Nat.le_refl _, fun j _ hn => hl.2 j (by simpa [targets] using hn)⟩
      cases hs : Wrap.step inside s o with
      | ok s1 =>
        rw [hs] at h; cases h
        have := step_others hs
        exact ⟨this.1, fun j hj hn => this.2 j hj (by simpa [targets] using hn)⟩
      | mismatch => rw [hs] at h; cases h; exact hleave
      | panic => rw [hs] at h; cases h; exact hleave
      | diverge => rw [hs] at h; cases h
      | ill => rw [hs] at h; cases h
  | .seq c d, s => by
    refine (kept_script c s).bind fun ⟨s1, e⟩ h => ?_
    dsimp only
    split
    · exact fun r hr => h.trans (kept_script d s1 r hr)
    · exact .ok (h.trans (Kept.refl (targets d) s1))
  | .catch_ c, s => by
    refine (kept_script c s).bind fun ⟨s1, e⟩ h => .ok ?_
    dsimp only at h ⊢
    split
    · exact h
    · refine ⟨by have := h.1; simp; omega, fun j hj hn => ?_⟩
      rw [← h.2 j hj hn]
      simp only [List.getElem?_take, if_pos hj]
  | .extendTrees i it, s => by
    refine (OnOk.all _).bind fun x _ => (kept_trees (streamMode x) it (s.set i .none)).bind fun ⟨s1, ts, e⟩ h => ?_
    exact (OnOk.all _).bind fun y _ => .ok h.hide
  | .extendStreams i it, s => by
    refine (OnOk.all _).bind fun x _ => (kept_streams (some (streamMode x)) it (s.set i .none)).bind fun ⟨s1, ts, e⟩ h => ?_
    exact (OnOk.all _).bind fun y _ => .ok h.hide
  | .collectTrees inside it, s => by
    refine (kept_trees inside it s).bind fun ⟨s1, ts, e⟩ h => ?_
    dsimp only
    split
    · exact (OnOk.all _).bind fun y _ => .ok (h.push _)
    · exact .ok h
  | .collectStreams inside it, s => by
    refine (kept_streams none it s).bind fun ⟨s1, ts, e⟩ h => ?_
    dsimp only
    split
    · exact (OnOk.all _).bind fun y _ => .ok (h.push _)
    · exact .ok h

theorem kept_trees (strict : Bool) : ∀ (it : Feed) (s : State σ),
    OnOk (fun r => Kept (feedTargets it) s r.1) (takenTrees strict it s)
  | .stop c, s => (kept_script c s).bind fun ⟨s1, e⟩ h => .ok h
  | .yield c j it, s => by
    refine (kept_script c s).bind fun ⟨s1, e⟩ h => ?_
    dsimp only
    split
    · refine (OnOk.all _).bind fun t _ => ?_
      split
      · exact (kept_trees strict it s1).bind fun ⟨s2, ts, e⟩ h' => .ok (h.trans h')
      · exact .ok (h.trans (Kept.refl (feedTargets it) s1))
    · exact .ok (h.trans (Kept.refl (feedTargets it) s1))
  | .hint c j k, s => fun _ h => nomatch h

theorem kept_streams (mode : Option Bool) : ∀ (it : Feed) (s : State σ),
    OnOk (fun r => Kept (feedTargets it) s r.1) (takenStreams mode it s)
  | .stop c, s => (kept_script c s).bind fun ⟨s1, e⟩ h => .ok h
  | .yield c j it, s => by
    refine (kept_script c s).bind fun ⟨s1, e⟩ h => ?_
    dsimp only
    split
    · refine (OnOk.all _).bind fun t _ => ?_
      split
      · exact (kept_streams _ it s1).bind fun ⟨s2, ts, e⟩ h' => .ok (h.trans h')
      · exact .ok (h.trans (Kept.refl (feedTargets it) s1))
    · exact .ok (h.trans (Kept.refl (feedTargets it) s1))
  | .hint c j k, s => by
    simp only [takenStreams]
    split
    · refine (kept_script c s).bind fun ⟨s1, e⟩ h => ?_
      dsimp only
      split
      · exact (OnOk.all _).bind fun x _ => (OnOk.all _).bind fun ⟨xs, e⟩ _ => .ok h
      · exact .ok h
    · exact fun _ h => nomatch h
end

/-! ## One mode -/

/-- What the script may call in mode `m`. -/
def InMode (m inside : Bool) (o : Op) : Prop := inside = m ∧ (m = false → ¬ Imports o)

theorem leave_mode {m : Bool} {s : State σ} (h : AllOf m s) (inside : Bool) (o : Op) : AllOf m (leave inside s o) := by
  cases o with
  | next i =>
    simp only [leave]
    split
    · rename_i ts hv
      exact h.set (v := .iterC ts) (h.get hv : m = true) i
    · exact h
  | _ => exact h

theorem streamOf_mode {m : Bool} {x : WStream σ} (h : StreamOf m x) : streamMode x = m := by
  cases x with
  | compiler _ => exact h.symm
  | fallback _ => exact h.1.symm

theorem mode_appended {m : Bool} {x : WStream σ} {xs : List (WStream σ)} (e : End) (h : StreamOf m x)
    (hs : ∀ s ∈ xs, StreamOf m s) : Good (StreamOf m) (appended x xs e) := by
  cases x with
  | fallback ts => exact good_extendStreams h hs
  | compiler d =>
    simp only [appended]
    split
    · exact good_extendStreams h hs
    · simp only [StreamOf, ValueOf] at h
      subst h
      exact (good_unwrapNightlies hs).bind fun _ _ => rfl

theorem allOf_take {m : Bool} {s : State σ} (h : AllOf m s) (n : Nat) : AllOf m { s with vars := s.vars.take n } :=
  fun v hv => h v (List.mem_of_mem_take hv)

mutual
theorem mode_script {m : Bool} : ∀ (c : Script) (s : State σ), EveryOp (InMode m) c → AllOf m s →
    Good (fun r => AllOf m r.1 ∧ r.2 ≠ .mismatched) (runAll c s)
  | .skip, s, _, h => ⟨h, fun e => by cases e⟩
  | .panic, s, _, h => ⟨h, fun e => by cases e⟩
  | .op inside o, s, ho, h => by
    obtain ⟨rfl, hi⟩ := ho
    simp only [runAll]
    split
    · trivial
    · have hg := good_step h o hi
      cases hs : Wrap.step inside s o with
      | ok s1 => rw [hs] at hg; exact ⟨hg, fun e => by cases e⟩
      | mismatch => rw [hs] at hg; exact hg.elim
      | panic => exact ⟨leave_mode h _ _, fun e => by cases e⟩
      | diverge => trivial
      | ill => trivial
  | .seq c d, s, ho, h => by
    refine (mode_script c s ho.1 h).bind fun ⟨s1, e⟩ h1 => ?_
    dsimp only
    split
    · exact mode_script d s1 ho.2 h1.1
    · exact h1
  | .catch_ c, s, ho, h => by
    refine (mode_script c s ho h).bind fun ⟨s1, e⟩ h1 => ?_
    refine ⟨?_, fun e => by cases e⟩
    dsimp only
    split
    · exact h1.1
    · exact allOf_take h1.1 _
  | .extendTrees i it, s, ho, h => by
    refine (h.stream i).bind fun x hx => ?_
    rw [streamOf_mode hx]
    refine (mode_trees it (s.set i .none) ho (h.set (v := .none) trivial i)).bind fun ⟨s1, ts, e⟩ h1 => ?_
    exact (good_extendTrees hx h1.2.1).bind fun y hy => ⟨h1.1.set (v := .stream y) hy i, h1.2.2⟩
  | .extendStreams i it, s, ho, h => by
    refine (h.stream i).bind fun x hx => ?_
    refine (mode_streams (some (streamMode x)) (by simpa using streamOf_mode hx) it (s.set i .none) ho
      (h.set (v := .none) trivial i)).bind fun ⟨s1, ts, e⟩ h1 => ?_
    exact (mode_appended e hx h1.2.1).bind fun y hy => ⟨h1.1.set (v := .stream y) hy i, h1.2.2⟩
  | .collectTrees inside it, s, ho, h => by
    obtain ⟨⟨rfl, _⟩, ho⟩ := ho
    refine (mode_trees it s ho h).bind fun ⟨s1, ts, e⟩ h1 => ?_
    dsimp only
    split
    · exact (good_collectTrees h1.2.1).bind fun y hy => ⟨h1.1.push (v := .stream y) hy, h1.2.2⟩
    · exact ⟨h1.1, h1.2.2⟩
  | .collectStreams inside it, s, ho, h => by
    obtain ⟨⟨rfl, _⟩, ho⟩ := ho
    refine (mode_streams none (by simp) it s ho h).bind fun ⟨s1, ts, e⟩ h1 => ?_
    dsimp only
    split
    · exact (good_collectStreams h1.2.1).bind fun y hy => ⟨h1.1.push (v := .stream y) hy, h1.2.2⟩
    · exact ⟨h1.1, h1.2.2⟩

theorem mode_trees {m : Bool} : ∀ (it : Feed) (s : State σ), EveryFeedOp (InMode m) it → AllOf m s →
    Good (fun r => AllOf m r.1 ∧ (∀ t ∈ r.2.1, TreeOf m t) ∧ r.2.2 ≠ .mismatched) (takenTrees m it s)
  | .stop c, s, ho, h => (mode_script c s ho h).bind fun ⟨s1, e⟩ h1 => ⟨h1.1, by simp, h1.2⟩
  | .yield c j it, s, ho, h => by
    refine (mode_script c s ho.1 h).bind fun ⟨s1, e⟩ h1 => ?_
    dsimp only
    split
    · refine (h1.1.tree j).bind fun t ht => ?_
      rw [if_pos (by rw [treeOf_mode ht]; cases m <;> rfl)]
      refine (mode_trees it s1 ho.2 h1.1).bind fun ⟨s2, ts, e⟩ h2 => ⟨h2.1, ?_, h2.2.2⟩
      intro u hu
      rcases List.mem_cons.mp hu with rfl | hu
      · exact ht
      · exact h2.2.1 u hu
    · exact ⟨h1.1, by simp, h1.2⟩
  | .hint c j k, s, _, _ => trivial

theorem mode_streams {m : Bool} (mode : Option Bool) (hm : ∀ b, mode = some b → b = m) : ∀ (it : Feed) (s : State σ),
    EveryFeedOp (InMode m) it → AllOf m s →
    Good (fun r => AllOf m r.1 ∧ (∀ x ∈ r.2.1, StreamOf m x) ∧ r.2.2 ≠ .mismatched) (takenStreams mode it s)
  | .stop c, s, ho, h => (mode_script c s ho h).bind fun ⟨s1, e⟩ h1 => ⟨h1.1, by simp, h1.2⟩
  | .yield c j it, s, ho, h => by
    refine (mode_script c s ho.1 h).bind fun ⟨s1, e⟩ h1 => ?_
    dsimp only
    split
    · refine (h1.1.stream j).bind fun t ht => ?_
      rw [if_pos (by
        rw [streamOf_mode ht]
        cases mode with
        | none => rfl
        | some b => rw [hm b rfl]; simp)]
      refine (mode_streams (some (streamMode t)) (by simpa using streamOf_mode ht) it s1 ho.2 h1.1).bind
        fun ⟨s2, ts, e⟩ h2 => ⟨h2.1, ?_, h2.2.2⟩
      intro u hu
      rcases List.mem_cons.mp hu with rfl | hu
      · exact ht
      · exact h2.2.1 u hu
    · exact ⟨h1.1, by simp, h1.2⟩
  | .hint c j k, s, ho, h => by
    simp only [takenStreams]
    split
    · rename_i hf
      have hmf := hm false hf
      refine (mode_script c s ho h).bind fun ⟨s1, e⟩ h1 => ?_
      dsimp only
      split
      · refine (h1.1.stream j).bind fun x hx => ?_
        cases x with
        | compiler _ => rw [← hmf] at hx; cases hx
        | fallback us =>
          simp only [firstPart]
          split
          · refine ⟨h1.1, ?_, fun e => by cases e⟩
            simp only [List.mem_singleton, forall_eq]
            exact ⟨hx.1, fun t ht => hx.2 t (List.mem_of_mem_take ht)⟩
          · trivial
      · exact ⟨h1.1, by simp, h1.2⟩
    · trivial
end

/-! ## Deferred streams -/

section sim
variable {τ : Type} [Rep τ] [Torn τ] {f : σ → τ}

theorem mapOut_tried {α β γ : Type} (x : Out α) (g : α → Out β) (h : End → Out β) (k : β → γ) :
    mapOut k (x.tried g h) = x.tried (fun a => mapOut k (g a)) (fun e => mapOut k (h e)) := by
  cases x <;> rfl

theorem tried_mapOut {α β γ : Type} (x : Out α) (k : α → β) (g : β → Out γ) (h : End → Out γ) :
    (mapOut k x).tried g h = x.tried (fun a => g (k a)) h := by
  cases x <;> rfl

theorem streamMode_map (x : WStream σ) : streamMode (mapStream f x) = streamMode x := by cases x <;> rfl

theorem Sim.leave (h : Sim f) (inside : Bool) (s : State σ) (o : Op) :
    Wrap.leave inside (mapState f s) o = mapState f (Wrap.leave inside s o) := by
  cases o with
  | fromStr src =>
    obtain ⟨h1, _⟩ := h.wfromStr inside s.sm src
    simp only [Wrap.leave, show (mapState f s).sm = s.sm from rfl, h1]
    rfl
  | next i =>
    simp only [Wrap.leave, mapState_get]
    cases hv : s.vars[i]? with
    | none => rfl
    | some v =>
      cases v with
      | iterC ts =>
        cases ts with
        | nil => rfl
        | cons t ts => simp [mapState_set]
      | _ => rfl
  | _ => rfl

theorem Sim.appended (h : Sim f) (ht : ∀ d ds, f (Torn.torn d ds) = Torn.torn (f d) (ds.map f)) (x : WStream σ)
    (xs : List (WStream σ)) (e : End) :
    Spec.appended (mapStream f x) (xs.map (mapStream f)) e = mapOut (mapStream f) (Spec.appended x xs e) := by
  cases x with
  | fallback ts => exact h.wextendStreams (.fallback ts) xs
  | compiler d =>
    simp only [Spec.appended, mapStream_compiler]
    split
    · exact h.wextendStreams (.compiler d) xs
    · simp only [unwrapNightlies_map, bind_mapOut, mapOut_bind, mapOut_ok, mapStream_compiler, ht]

/-- A result with other representations. -/
def mapEnd (f : σ → τ) (r : State σ × End) : State τ × End := (mapState f r.1, r.2)
def mapTrees (f : σ → τ) (r : State σ × List Tree × End) : State τ × List Tree × End := (mapState f r.1, r.2)
def mapStreams (f : σ → τ) (r : State σ × List (WStream σ) × End) : State τ × List (WStream τ) × End :=
  (mapState f r.1, r.2.1.map (mapStream f), r.2.2)

mutual
theorem sim_script (h : Sim f) (ht : ∀ d ds, f (Torn.torn d ds) = Torn.torn (f d) (ds.map f)) :
    ∀ (c : Script) (s : State σ), runAll c (mapState f s) = mapOut (mapEnd f) (runAll c s)
  | .skip, s => rfl
  | .panic, s => rfl
  | .op inside o, s => by
    simp only [runAll]
    split
    · rfl
    · rw [h.step, tried_mapOut, mapOut_tried, h.leave]
      rfl
  | .seq c d, s => by
    simp only [runAll, sim_script h ht c, bind_mapOut, mapOut_bind]
    refine bind_congr' _ fun ⟨s1, e⟩ => ?_
    cases e with
    | returned => exact sim_script h ht d s1
    | _ => rfl
  | .catch_ c, s => by
    simp only [runAll, sim_script h ht c, bind_mapOut, mapOut_bind]
    refine bind_congr' _ fun ⟨s1, e⟩ => ?_
    cases e with
    | returned => rfl
    | _ => simp [mapEnd, mapState, List.map_take]
  | .extendTrees i it, s => by
    simp only [runAll, mapState_stream, bind_mapOut, mapOut_bind, streamMode_map]
    refine bind_congr' _ fun x => ?_
    have := sim_trees h ht (streamMode x) it (s.set i .none)
    rw [mapState_set] at this
    simp only [mapValue_none] at this
    simp only [this, bind_mapOut, mapOut_bind]
    refine bind_congr' _ fun ⟨s1, ts, e⟩ => ?_
    simp only [mapTrees, h.wextendTrees, bind_mapOut, mapOut_ok, mapEnd, mapState_set, mapValue_stream, mapOut_bind]
  | .extendStreams i it, s => by
    simp only [runAll, mapState_stream, bind_mapOut, mapOut_bind, streamMode_map]
    refine bind_congr' _ fun x => ?_
    have := sim_streams h ht (some (streamMode x)) it (s.set i .none)
    rw [mapState_set] at this
    simp only [mapValue_none] at this
    simp only [this, bind_mapOut, mapOut_bind]
    refine bind_congr' _ fun ⟨s1, ts, e⟩ => ?_
    simp only [mapStreams, h.appended ht, bind_mapOut, mapOut_ok, mapEnd, mapState_set, mapValue_stream, mapOut_bind]
  | .collectTrees inside it, s => by
    simp only [runAll, sim_trees h ht inside it, bind_mapOut, mapOut_bind]
    refine bind_congr' _ fun ⟨s1, ts, e⟩ => ?_
    simp only [mapTrees, h.wcollectTrees (f := f) (τ := τ)]
    split
    · simp only [bind_mapOut, mapOut_bind, mapOut_ok, mapEnd, mapState_push, mapValue_stream]
    · rfl
  | .collectStreams inside it, s => by
    simp only [runAll, sim_streams h ht none it, bind_mapOut, mapOut_bind]
    refine bind_congr' _ fun ⟨s1, ts, e⟩ => ?_
    simp only [mapStreams, h.wcollectStreams]
    split
    · simp only [bind_mapOut, mapOut_bind, mapOut_ok, mapEnd, mapState_push, mapValue_stream]
    · rfl

theorem sim_trees (h : Sim f) (ht : ∀ d ds, f (Torn.torn d ds) = Torn.torn (f d) (ds.map f)) (strict : Bool) :
    ∀ (it : Feed) (s : State σ), takenTrees strict it (mapState f s) = mapOut (mapTrees f) (takenTrees strict it s)
  | .stop c, s => by
    simp only [takenTrees, sim_script h ht c, bind_mapOut, mapOut_bind]
    rfl
  | .yield c j it, s => by
    simp only [takenTrees, sim_script h ht c, bind_mapOut, mapOut_bind]
    refine bind_congr' _ fun ⟨s1, e⟩ => ?_
    simp only [mapEnd, mapState_tree]
    split
    · simp only [mapOut_bind]
      refine bind_congr' _ fun t => ?_
      split
      · simp only [sim_trees h ht strict it, bind_mapOut, mapOut_bind]
        rfl
      · rfl
    · rfl
  | .hint c j k, s => rfl

theorem sim_streams (h : Sim f) (ht : ∀ d ds, f (Torn.torn d ds) = Torn.torn (f d) (ds.map f)) (mode : Option Bool) :
    ∀ (it : Feed) (s : State σ), takenStreams mode it (mapState f s) = mapOut (mapStreams f) (takenStreams mode it s)
  | .stop c, s => by
    simp only [takenStreams, sim_script h ht c, bind_mapOut, mapOut_bind]
    rfl
  | .yield c j it, s => by
    simp only [takenStreams, sim_script h ht c, bind_mapOut, mapOut_bind]
    refine bind_congr' _ fun ⟨s1, e⟩ => ?_
    simp only [mapEnd, mapState_stream]
    split
    · simp only [mapOut_bind, bind_mapOut, streamMode_map]
      refine bind_congr' _ fun t => ?_
      split
      · simp only [sim_streams h ht _ it, bind_mapOut, mapOut_bind]
        rfl
      · rfl
    · rfl
  | .hint c j k, s => by
    simp only [takenStreams]
    split
    · simp only [sim_script h ht c, bind_mapOut, mapOut_bind]
      refine bind_congr' _ fun ⟨s1, e⟩ => ?_
      simp only [mapEnd, mapState_stream]
      split
      · simp only [mapOut_bind, bind_mapOut]
        refine bind_congr' _ fun x => ?_
        cases x with
        | compiler _ => rfl
        | fallback us =>
          simp only [mapStream, firstPart]
          split <;> rfl
      · rfl
    · rfl
end

end sim

/-! ## Known spans -/

/-- The outcome is not a panic, and the code ends. -/
def Finishes {α : Type} (Q : α → Prop) : Out α → Prop
  | .ok a => Q a
  | .ill => True
  | _ => False

theorem Finishes.bind {α β : Type} {Q : α → Prop} {R : β → Prop} {x : Out α} {g : α → Out β} (h : Finishes Q x)
    (hg : ∀ a, Q a → Finishes R (g a)) : Finishes R (x >>= g) := by
  cases x with
  | ok a => exact hg a h
  | ill => trivial
  | _ => exact h.elim

/-- The thread knows the spans of all variables, and these. -/
def KnownSp (H : Span → Prop) (s : State σ) : Prop :=
  ∃ K, (∃ texts, Session s.sm texts K) ∧ AllK K s ∧ ∀ sp, H sp → K sp

theorem KnownSp.mono {H H' : Span → Prop} {s : State σ} (h : KnownSp H s) (hs : ∀ sp, H' sp → H sp) : KnownSp H' s := by
  obtain ⟨K, h1, h2, h3⟩ := h
  exact ⟨K, h1, h2, fun sp hsp => h3 sp (hs sp hsp)⟩

theorem KnownSp.set {H : Span → Prop} {s : State σ} (h : KnownSp H s) {v : Value σ} (hv : ∀ sp ∈ valueSpans v, H sp) (i : Nat) :
    KnownSp H (s.set i v) := by
  obtain ⟨K, h1, h2, h3⟩ := h
  exact ⟨K, h1, h2.set (fun sp hsp => h3 sp (hv sp hsp)) i, h3⟩

theorem KnownSp.push {H : Span → Prop} {s : State σ} (h : KnownSp H s) {v : Value σ} (hv : ∀ sp ∈ valueSpans v, H sp) :
    KnownSp H (s.push v) := by
  obtain ⟨K, h1, h2, h3⟩ := h
  exact ⟨K, h1, h2.push (fun sp hsp => h3 sp (hv sp hsp)), h3⟩

/-- What a variable holds is known. -/
theorem KnownSp.read {H : Span → Prop} {s : State σ} (h : KnownSp H s) {i : Nat} {v : Value σ} (hv : s.vars[i]? = some v) :
    KnownSp (fun sp => H sp ∨ sp ∈ valueSpans v) s := by
  obtain ⟨K, h1, h2, h3⟩ := h
  exact ⟨K, h1, h2, fun sp hsp => hsp.elim (h3 sp) (h2 v (List.mem_of_getElem? hv) sp)⟩

theorem finishes_stream (s : State σ) (i : Nat) : Finishes (fun x => s.vars[i]? = some (.stream x)) (s.stream i) := by
  rcases stream_cases s i with ⟨x, e⟩ | e
  · rw [e]; exact stream_ok.mp e
  · rw [e]; trivial

theorem finishes_tree (s : State σ) (i : Nat) : Finishes (fun x => s.vars[i]? = some (.tree x)) (s.tree i) := by
  rcases tree_cases s i with ⟨x, e⟩ | e
  · rw [e]; exact tree_ok.mp e
  · rw [e]; trivial

theorem Finishes.bind' {α β : Type} {Q : α → Prop} {R : β → Prop} {x : Out α} {g : α → Out β} (h : Finishes Q x)
    (hg : ∀ a, x = .ok a → Q a → Finishes R (g a)) : Finishes R (x >>= g) := by
  cases x with
  | ok a => exact hg a rfl h
  | ill => trivial
  | _ => exact h.elim

section
variable [LawfulUnicode]

theorem leave_known {H : Span → Prop} {s : State σ} (h : KnownSp H s) {o : Op} (hp : Live s o) (inside : Bool) :
    KnownSp H (leave inside s o) := by
  obtain ⟨K, ⟨texts, hs⟩, hk, hH⟩ := h
  cases o with
  | fromStr src =>
    have := Session.parse src hs hp
    have e : (leave inside s (.fromStr src)).sm = (TokenStream.fromStr s.sm src).1 := by cases inside <;> rfl
    rw [← e] at this
    exact ⟨_, ⟨_, this⟩, hk.mono fun _ => Or.inl, fun sp hsp => .inl (hH sp hsp)⟩
  | literalFromStr src =>
    have := Session.literal src hs hp
    have e : (leave inside s (.literalFromStr src)).sm = (Literal.fromStr s.sm src).1 := by cases inside <;> rfl
    rw [← e] at this
    exact ⟨_, ⟨_, this⟩, hk.mono fun _ => Or.inl, fun sp hsp => .inl (hH sp hsp)⟩
  | next i =>
    refine ⟨K, ?_, ?_, hH⟩ <;> simp only [leave] <;> split
    · exact ⟨texts, hs⟩
    · exact ⟨texts, hs⟩
    · exact hk.set (v := .iterC _) Kn.nil i
    · exact hk
  | _ => exact ⟨K, ⟨texts, hs⟩, hk, hH⟩

theorem appended_knows {K : Span → Prop} {x : WStream σ} {xs : List (WStream σ)} {e : End} {m : Option Bool} {it : Feed}
    {s s' : State σ} (hm : takenStreams m it s = .ok (s', xs, e)) (hx : m = some (streamMode x))
    (hk : Kn K (streamSpans x)) (hks : ∀ x ∈ xs, Kn K (streamSpans x)) :
    Finishes (fun y => Kn K (streamSpans y)) (appended x xs e) := by
  subst hx
  have hm := streams_mode it s hm
  cases x with
  | compiler d =>
    obtain ⟨ds, hd⟩ := nightlies_ok hm
    simp only [appended, WStream.extendStreams, hd, out_bind_ok]
    split <;> exact Kn.nil
  | fallback ts =>
    obtain ⟨ds, hd⟩ := stables_ok hm
    have : (WStream.fallback ts : WStream σ).extendStreams xs = .ok (.fallback (ts ++ ds.flatten)) := by
      simp only [WStream.extendStreams, hd, out_bind_ok]
    simp only [appended, this]
    exact kn_extendStreams hk hks this

theorem spans_take {σ : Type} {us : List Tree} {k : Nat} {sp : Span} (h : sp ∈ streamSpans (.fallback (us.take k) : WStream σ)) :
    sp ∈ valueSpans (.stream (.fallback us) : Value σ) := by
  obtain ⟨t, ht, h⟩ := treesSpans_mem.mp h
  exact treesSpans_mem.mpr ⟨t, List.mem_of_mem_take ht, h⟩

mutual
theorem known_script : ∀ (c : Script) {H : Span → Prop} {s : State σ}, LiveScript H c s → KnownSp H s →
    Finishes (fun r => KnownSp H r.1) (runAll c s)
  | .skip, H, s, _, h => h
  | .panic, H, s, _, h => h
  | .op inside o, H, s, hp, h => by
    simp only [LiveScript] at hp
    simp only [runAll]
    split
    · trivial
    · obtain ⟨K, ⟨texts, hs⟩, hk', hH⟩ := id h
      have hk : ∀ sp, HasSpan s sp → K sp := fun sp ⟨v, hv, hsp⟩ => hk' v hv sp hsp
      cases hr : Wrap.step inside s o with
      | ok s1 =>
        obtain ⟨K', h1, h2, h3⟩ := session_step hs hk hp.1 hr
        refine ⟨K', ⟨_, h1⟩, h2, fun sp hsp => ?_⟩
        by_cases e : o = .invalidate
        · rw [hp.2.2 e sp hsp]
          exact Session.callSite h1
        · exact h3 e sp (hH sp hsp)
      | mismatch => exact leave_known h hp.1 inside
      | panic => exact leave_known h hp.1 inside
      | diverge => exact ((C95_panic hs hk hp.1 hp.2.1 inside).2 hr).elim
      | ill => trivial
  | .seq c d, H, s, hp, h => by
    simp only [LiveScript] at hp
    refine (known_script c hp.1 h).bind' fun ⟨s1, e⟩ e1 h1 => ?_
    dsimp only
    split
    · rename_i he
      subst he
      exact known_script d (hp.2 s1 e1) h1
    · exact h1
  | .catch_ c, H, s, hp, h => by
    simp only [LiveScript] at hp
    refine (known_script c hp h).bind fun ⟨s1, e⟩ h1 => ?_
    show KnownSp H _
    split
    · exact h1
    · obtain ⟨K, k1, k2, k3⟩ := h1
      exact ⟨K, k1, fun v hv => k2 v (List.mem_of_mem_take hv), k3⟩
  | .extendTrees i it, H, s, hp, h => by
    simp only [LiveScript] at hp
    refine (finishes_stream s i).bind fun x hx => ?_
    refine (known_trees (streamMode x) it (hp _ hx) ((h.read hx).set (v := .none) (by simp [valueSpans]) i)).bind
      fun ⟨s1, ts, e⟩ ⟨⟨K, k1, k2, k3⟩, g1⟩ => ?_
    have kx : Kn K (streamSpans x) := fun sp hsp => k3 sp (.inl (.inr hsp))
    have kt : ∀ t ∈ ts, Kn K (treeSpans t) := fun t ht sp hsp => k3 sp (.inr ⟨t, ht, hsp⟩)
    have kH : ∀ sp, H sp → K sp := fun sp hsp => k3 sp (.inl (.inl hsp))
    cases x with
    | compiler d =>
      obtain ⟨cs, hc⟩ := tokens_ok (g1 rfl)
      simp only [WStream.extendTrees, hc, out_bind_ok]
      exact ⟨K, k1, k2.set (v := .stream (.compiler _)) Kn.nil i, kH⟩
    | fallback us =>
      exact ⟨K, k1, k2.set (v := .stream _) (kn_extendTrees (x := .fallback us) kx kt rfl) i, kH⟩
  | .extendStreams i it, H, s, hp, h => by
    simp only [LiveScript] at hp
    refine (finishes_stream s i).bind fun x hx => ?_
    refine (known_streams (some (streamMode x)) it (hp _ hx) ((h.read hx).set (v := .none) (by simp [valueSpans]) i)).bind'
      fun ⟨s1, xs, e⟩ hr ⟨K, k1, k2, k3⟩ => ?_
    exact (appended_knows hr rfl (fun sp hsp => k3 sp (.inl (.inr hsp))) (fun y hy sp hsp => k3 sp (.inr ⟨y, hy, hsp⟩))).bind
      fun y hy => ⟨K, k1, k2.set (v := .stream y) hy i, fun sp hsp => k3 sp (.inl (.inl hsp))⟩
  | .collectTrees inside it, H, s, hp, h => by
    simp only [LiveScript] at hp
    refine (known_trees inside it hp h).bind fun ⟨s1, ts, e⟩ ⟨⟨K, k1, k2, k3⟩, g1⟩ => ?_
    have kt : ∀ t ∈ ts, Kn K (treeSpans t) := fun t ht sp hsp => k3 sp (.inr ⟨t, ht, hsp⟩)
    have kH : ∀ sp, H sp → K sp := fun sp hsp => k3 sp (.inl hsp)
    dsimp only
    split
    · cases inside with
      | true =>
        obtain ⟨cs, hc⟩ := tokens_ok (g1 rfl)
        simp only [WStream.collectTrees, hc, out_bind_ok, if_true]
        exact ⟨K, k1, k2.push (v := .stream (.compiler _)) Kn.nil, kH⟩
      | false =>
        exact ⟨K, k1, k2.push (v := .stream _) (kn_collectTrees (inside := false) (σ := σ) kt rfl), kH⟩
    · exact ⟨K, k1, k2, kH⟩
  | .collectStreams inside it, H, s, hp, h => by
    simp only [LiveScript] at hp
    refine (known_streams none it hp h).bind' fun ⟨s1, xs, e⟩ hr ⟨K, k1, k2, k3⟩ => ?_
    have kH : ∀ sp, H sp → K sp := fun sp hsp => k3 sp (.inl hsp)
    dsimp only
    split
    · obtain ⟨y, hy⟩ : ∃ y, WStream.collectStreams inside xs = .ok y := first_mode it s hr inside
      rw [hy]
      exact ⟨K, k1, k2.push (v := .stream y) (kn_collectStreams (fun y hy sp hsp => k3 sp (.inr ⟨y, hy, hsp⟩)) hy), kH⟩
    · exact ⟨K, k1, k2, kH⟩

theorem known_trees (strict : Bool) : ∀ (it : Feed) {H : Span → Prop} {s : State σ}, LiveFeed H it s → KnownSp H s →
    Finishes (fun r => KnownSp (fun sp => H sp ∨ ∃ t ∈ r.2.1, sp ∈ treeSpans t) r.1 ∧
      (strict = true → ∀ t ∈ r.2.1, treeMode t = true)) (takenTrees strict it s)
  | .stop c, H, s, hp, h => by
    simp only [LiveFeed] at hp
    exact (known_script c hp h).bind fun ⟨s1, e⟩ h1 => ⟨h1.mono (by simp), by simp⟩
  | .yield c j it, H, s, hp, h => by
    simp only [LiveFeed] at hp
    refine (known_script c hp.1 h).bind' fun ⟨s1, e⟩ e1 h1 => ?_
    dsimp only
    split
    · rename_i he
      subst he
      refine (finishes_tree s1 j).bind fun t ht => ?_
      split
      · rename_i hm
        refine (known_trees strict it (hp.2 s1 _ e1 ht) (h1.read ht)).bind fun ⟨s2, ts, e⟩ ⟨h2, g2⟩ => ⟨h2.mono ?_, ?_⟩
        · rintro sp (hsp | ⟨u, hu, hsp⟩)
          · exact .inl (.inl hsp)
          · rcases List.mem_cons.mp hu with rfl | hu
            · exact .inl (.inr hsp)
            · exact .inr ⟨u, hu, hsp⟩
        · rintro rfl u hu
          rcases List.mem_cons.mp hu with rfl | hu
          · simpa using hm
          · exact g2 rfl u hu
      · exact ⟨h1.mono (by simp), by simp⟩
    · exact ⟨h1.mono (by simp), by simp⟩
  | .hint c j k, H, s, _, _ => trivial

theorem known_streams (mode : Option Bool) : ∀ (it : Feed) {H : Span → Prop} {s : State σ}, LiveFeed H it s → KnownSp H s →
    Finishes (fun r => KnownSp (fun sp => H sp ∨ ∃ x ∈ r.2.1, sp ∈ streamSpans x) r.1) (takenStreams mode it s)
  | .stop c, H, s, hp, h => by
    simp only [LiveFeed] at hp
    exact (known_script c hp h).bind fun ⟨s1, e⟩ h1 => h1.mono (by simp)
  | .yield c j it, H, s, hp, h => by
    simp only [LiveFeed] at hp
    refine (known_script c hp.1 h).bind' fun ⟨s1, e⟩ e1 h1 => ?_
    dsimp only
    split
    · rename_i he
      subst he
      refine (finishes_stream s1 j).bind fun t ht => ?_
      split
      · refine (known_streams _ it (hp.2 s1 _ e1 ht) (h1.read ht)).bind fun ⟨s2, ts, e⟩ h2 => h2.mono ?_
        rintro sp (hsp | ⟨u, hu, hsp⟩)
        · exact .inl (.inl hsp)
        · rcases List.mem_cons.mp hu with rfl | hu
          · exact .inl (.inr hsp)
          · exact .inr ⟨u, hu, hsp⟩
      · exact h1.mono (by simp)
    · exact h1.mono (by simp)
  | .hint c j k, H, s, hp, h => by
    simp only [LiveFeed] at hp
    simp only [takenStreams]
    split
    · refine (known_script c hp h).bind fun ⟨s1, e⟩ h1 => ?_
      dsimp only
      split
      · refine (finishes_stream s1 j).bind fun x hx => ?_
        cases x with
        | compiler _ => exact h1.mono (by simp)
        | fallback us =>
          simp only [firstPart]
          split
          · refine (h1.read hx).mono ?_
            rintro sp (hsp | ⟨u, hu, hsp⟩)
            · exact .inl hsp
            · rw [List.mem_singleton] at hu
              subst hu
              exact .inr (spans_take hsp)
          · trivial
      · exact h1.mono (by simp)
    · trivial
end

end

/-! ## Iterators over variables -/

theorem feed_trees [LawfulRep σ] {c : Script} {e : End} (hc : ∀ s : State σ, exec c s = .ok (s, e)) {s : State σ} {js : List Nat}
    {ts : List Tree} (h : s.trees js = .ok ts) {x y : WStream σ} (hy : x.extendTrees ts = .ok y) :
    loopTrees (feedOf c js) s x = .ok (s, y, e) := by
  induction js generalizing ts x with
  | nil =>
    cases h
    rw [extendTrees_nil] at hy
    cases hy
    simp only [feedOf, loopTrees, hc, out_bind_ok]
  | cons j js ih =>
    simp only [State.trees, bind_ok, Out.ok.injEq] at h
    obtain ⟨t, ht, ts, hts, rfl⟩ := h
    simp only [feedOf, loopTrees, exec, out_bind_ok, addTree, ht, if_true]
    rcases push_cases x t with ⟨h1, h2, h3⟩ | ⟨⟨z, h1, h2⟩, h3⟩
    · cases x with
      | fallback _ => cases h2
      | compiler d =>
        simp only [WStream.extendTrees, intoCompilerTokens, intoCompilerToken_mismatch.mpr h3] at hy
        cases hy
    · rw [h1, tried_ok]
      exact ih hts (by rw [push_extend h1, hy])

theorem feed_stop [LawfulRep σ] {c : Script} {s : State σ} {ps : List Nat} {j : Nat} {qs : List Nat} {ts : List Tree} {t : Tree}
    (h : s.trees ps = .ok ts) (ht : s.tree j = .ok t) (hm : treeMode t = false) {x y : WStream σ} (hx : streamMode x = true)
    (hy : x.extendTrees ts = .ok y) :
    loopTrees (feedOf c (ps ++ j :: qs)) s x = .ok (s, y, .mismatched) := by
  induction ps generalizing ts x with
  | nil =>
    cases h
    rw [extendTrees_nil] at hy
    cases hy
    simp only [List.nil_append, feedOf, loopTrees, exec, out_bind_ok, addTree, ht, if_true]
    rcases push_cases y t with ⟨h1, h2, h3⟩ | ⟨_, h3⟩
    · rw [h1]; rfl
    · rw [hx, hm] at h3; cases h3
  | cons i ps ih =>
    simp only [State.trees, bind_ok, Out.ok.injEq] at h
    obtain ⟨u, hu, ts, hts, rfl⟩ := h
    simp only [List.cons_append, feedOf, loopTrees, exec, out_bind_ok, addTree, hu, if_true]
    rcases push_cases x u with ⟨h1, h2, h3⟩ | ⟨⟨z, h1, h2⟩, h3⟩
    · cases x with
      | fallback _ => cases h2
      | compiler d =>
        simp only [WStream.extendTrees, intoCompilerTokens, intoCompilerToken_mismatch.mpr h3] at hy
        cases hy
    · rw [h1, tried_ok]
      exact ih hts (by rw [h2, hx]) (by rw [push_extend h1, hy])

theorem feed_stable [LawfulRep σ] {c : Script} {e : End} (hc : ∀ s : State σ, exec c s = .ok (s, e)) {s : State σ} {js : List Nat}
    {xs : List (WStream σ)} (h : s.streams js = .ok xs) {us : List (List Tree)} (hu : unwrapStables xs = .ok us) (ts : List Tree) :
    loopStable (feedOf c js) s ts = .ok (s, ts ++ us.flatten, e) := by
  induction js generalizing xs us ts with
  | nil =>
    cases h
    cases hu
    simp only [feedOf, loopStable, hc, out_bind_ok, List.flatten_nil, List.append_nil]
  | cons j js ih =>
    simp only [State.streams, bind_ok, Out.ok.injEq] at h
    obtain ⟨x, hx, xs, hxs, rfl⟩ := h
    simp only [unwrapStables, bind_ok, Out.ok.injEq] at hu
    obtain ⟨u, hu1, us, hu2, rfl⟩ := hu
    simp only [feedOf, loopStable, exec, out_bind_ok, addStable, hx, hu1, if_true, tried_ok]
    rw [ih hxs hu2, List.flatten_cons, List.append_assoc]

theorem feed_nightly [LawfulRep σ] {c : Script} {e : End} (hc : ∀ s : State σ, exec c s = .ok (s, e)) {s : State σ} {js : List Nat}
    {xs : List (WStream σ)} (h : s.streams js = .ok xs) {us : List σ} (hu : unwrapNightlies xs = .ok us) (ds : List σ) :
    loopNightly (feedOf c js) s ds = .ok (s, ds ++ us, e) := by
  induction js generalizing xs us ds with
  | nil =>
    cases h
    cases hu
    simp only [feedOf, loopNightly, hc, out_bind_ok, List.append_nil]
  | cons j js ih =>
    simp only [State.streams, bind_ok, Out.ok.injEq] at h
    obtain ⟨x, hx, xs, hxs, rfl⟩ := h
    simp only [unwrapNightlies, bind_ok, Out.ok.injEq] at hu
    obtain ⟨u, hu1, us, hu2, rfl⟩ := hu
    simp only [feedOf, loopNightly, exec, out_bind_ok, addNightly, hx, hu1, if_true, tried_ok]
    rw [ih hxs hu2, List.append_assoc, List.singleton_append]

theorem tree_hide {s : State σ} {i j : Nat} {t : Tree} {v : Value σ} (hi : ∃ x, s.stream i = .ok x) (h : s.tree j = .ok t) :
    (s.set i v).tree j = .ok t := by
  obtain ⟨x, hx⟩ := hi
  rw [tree_ok] at h ⊢
  rw [stream_ok] at hx
  simp only [State.set]
  rw [List.getElem?_set_ne, h]
  rintro rfl
  rw [h] at hx
  cases hx

theorem trees_hide {s : State σ} {i : Nat} {js : List Nat} {ts : List Tree} {v : Value σ} (hi : ∃ x, s.stream i = .ok x)
    (h : s.trees js = .ok ts) : (s.set i v).trees js = .ok ts := by
  induction js generalizing ts with
  | nil => exact h
  | cons j js ih =>
    simp only [State.trees, bind_ok, Out.ok.injEq] at h ⊢
    obtain ⟨t, ht, ts, hts, rfl⟩ := h
    exact ⟨t, tree_hide hi ht, ts, ih hts, rfl⟩

theorem streams_hide {s : State σ} {i : Nat} {js : List Nat} {xs : List (WStream σ)} {v : Value σ} (hi : i ∉ js)
    (h : s.streams js = .ok xs) : (s.set i v).streams js = .ok xs := by
  induction js generalizing xs with
  | nil => exact h
  | cons j js ih =>
    simp only [List.mem_cons, not_or] at hi
    simp only [State.streams, bind_ok, Out.ok.injEq] at h ⊢
    obtain ⟨x, hx, xs, hxs, rfl⟩ := h
    refine ⟨x, ?_, xs, ih hi.2 hxs, rfl⟩
    rw [stream_ok] at hx ⊢
    simp only [State.set]
    rw [List.getElem?_set_ne hi.1, hx]

theorem set_set (s : State σ) (i : Nat) (v w : Value σ) : (s.set i v).set i w = s.set i w := by
  simp [State.set, List.set_set]

end

end

/-! ## C113 -/

section
variable [Compiler] [Unwinding] [UnicodeTables]

/-- **C113.** Whatever the iterators of the user do, in either mode: an `extend` or `collect` is as if the iterator was first run, to its
end, until it panics or until it returns what is not taken, and then everything taken was appended in one call. -/
theorem C113_values (c : Script) (s : State Deferred) : exec c s = runAll c s := exec_runAll c s

theorem plain_of {o : Op} (h : ¬ TakesIterator o) : o.plain = true := by
  cases o <;> first | rfl | exact absurd (by constructor) h

/-- **C113.** A call without an iterator does in a script what it does alone, and its panic goes on. -/
theorem C113_calls {o : Op} (h : ¬ TakesIterator o) (inside : Bool) (s : State Deferred) :
    (∀ s', exec (.op inside o) s = .ok (s', .returned) ↔ Wrap.step inside s o = .ok s') ∧
    ((∃ s', exec (.op inside o) s = .ok (s', .panicked)) ↔ Wrap.step inside s o = .panic) ∧
    ((∃ s', exec (.op inside o) s = .ok (s', .mismatched)) ↔ Wrap.step inside s o = .mismatch) ∧
    (exec (.op inside o) s = .ill ↔ Wrap.step inside s o = .ill) := by
  simp only [exec, plain_of h]
  cases Wrap.step inside s o <;> simp [Out.tried]

/-- **C113.** An `extend` that a panic of the iterator interrupts is an `extend` with the trees that the iterator had returned; one that
is not interrupted is an `extend` with all of them. -/
theorem C113_extend_trees {inside : Bool} {s s' : State Deferred} {i : Nat} {js : List Nat}
    (h : Wrap.step inside s (.extendTrees i js) = .ok s') :
    exec (.extendTrees i (feedOf .skip js)) s = .ok (s', .returned) ∧
    exec (.extendTrees i (feedOf .panic js)) s = .ok (s', .panicked) := by
  simp only [Wrap.step, bind_ok, Out.ok.injEq] at h
  obtain ⟨x, hx, ts, hts, y, hy, rfl⟩ := h
  have ht := trees_hide (v := .none) ⟨x, hx⟩ hts
  constructor <;> simp only [exec, hx, out_bind_ok]
  · rw [feed_trees (e := .returned) (fun _ => rfl) ht hy, out_bind_ok, set_set]
  · rw [feed_trees (e := .panicked) (fun _ => rfl) ht hy, out_bind_ok, set_set]

/-- **C113.** A tree of the fallback that is given to a compiler's stream panics, and the stream has got all the trees before it. -/
theorem C113_mismatch {inside : Bool} {s s' : State Deferred} {i j : Nat} {ps qs : List Nat} {d : Deferred} {t : Tree}
    (hd : s.vars[i]? = some (.stream (.compiler d))) (ht : s.vars[j]? = some (.tree t)) (hm : treeMode t = false)
    (h : Wrap.step inside s (.extendTrees i ps) = .ok s') (c : Script) :
    exec (.extendTrees i (feedOf c (ps ++ j :: qs))) s = .ok (s', .mismatched) := by
  simp only [Wrap.step, bind_ok, Out.ok.injEq] at h
  obtain ⟨x, hx, ts, hts, y, hy, rfl⟩ := h
  have hts' := trees_hide (v := .none) ⟨x, hx⟩ hts
  have ht' := tree_hide (v := .none) ⟨x, hx⟩ (tree_ok.mpr ht)
  have e := stream_ok.mp hx
  rw [hd] at e
  cases e
  simp only [exec, hx, out_bind_ok]
  rw [feed_stop hts' ht' hm rfl hy, out_bind_ok, set_set]

/-- **C113.** The same for streams. If the stream is the compiler's, then what an interrupted `extend` leaves is the compiler's; all
trees that were appended before are there for it. -/
theorem C113_extend_streams {inside : Bool} {s s' : State Deferred} {i : Nat} {js : List Nat} (hi : i ∉ js)
    (h : Wrap.step inside s (.extendStreams i js) = .ok s') :
    exec (.extendStreams i (feedOf .skip js)) s = .ok (s', .returned) ∧
    (∀ ts, s.vars[i]? = some (.stream (.fallback ts)) → exec (.extendStreams i (feedOf .panic js)) s = .ok (s', .panicked)) ∧
    (∀ d, s.vars[i]? = some (.stream (.compiler d)) → ∃ ds : List Deferred, HaveStreams s js (ds.map .compiler) ∧
      exec (.extendStreams i (feedOf .panic js)) s =
        .ok (s.set i (.stream (.compiler ⟨Unwinding.left (now d).tokens (ds.map fun d => (now d).tokens), []⟩)), .panicked)) := by
  simp only [Wrap.step, bind_ok, Out.ok.injEq] at h
  obtain ⟨x, hx, xs, hxs, y, hy, rfl⟩ := h
  have ht := streams_hide (v := .none) hi hxs
  have e := stream_ok.mp hx
  cases x with
  | compiler d =>
    simp only [WStream.extendStreams, bind_ok, Out.ok.injEq] at hy
    obtain ⟨ds, hds, rfl⟩ := hy
    refine ⟨?_, (by rw [e]; rintro _ ⟨⟩), ?_⟩
    · simp only [exec, hx, out_bind_ok]
      rw [feed_nightly (e := .returned) (fun _ => rfl) ht hds, out_bind_ok, set_set]
      rfl
    · rw [e]
      rintro _ ⟨⟩
      refine ⟨ds, ?_, ?_⟩
      · have := streams_ok.mp hxs
        rwa [nightlies_map hds] at this
      · simp only [exec, hx, out_bind_ok]
        rw [feed_nightly (e := .panicked) (fun _ => rfl) ht hds, out_bind_ok, set_set]
        have hn : ds.map Deferred.intoStream = ds.map fun d => (now d).tokens :=
          List.map_congr_left fun d _ => intoStream_now d
        have h1 : d.evaluateNow.stream = (now d).tokens := intoStream_now d
        simp only [extended, Torn.torn, List.nil_append, hn, h1, evaluateNow_extra]
        rfl
  | fallback ts =>
    simp only [WStream.extendStreams, bind_ok, Out.ok.injEq] at hy
    obtain ⟨us, hus, rfl⟩ := hy
    refine ⟨?_, ?_, (by rw [e]; rintro _ ⟨⟩)⟩
    · simp only [exec, hx, out_bind_ok]
      rw [feed_stable (e := .returned) (fun _ => rfl) ht hus, out_bind_ok, set_set]
    · intro ts' _
      simp only [exec, hx, out_bind_ok]
      rw [feed_stable (e := .panicked) (fun _ => rfl) ht hus, out_bind_ok, set_set]

private theorem feed_hint {σ : Type} [Rep σ] [Torn σ] {s : State σ} {js : List Nat} {xs : List (List Tree)} (h : s.streams js = .ok (xs.map .fallback)) {j k : Nat}
    {us : List Tree} (hj : s.stream j = .ok (.fallback us)) (hk : k < us.length) (ts : List Tree) :
    loopStable (feedThen (.hint .skip j k) js) s ts = .ok (s, ts ++ xs.flatten ++ us.take k, .panicked) := by
  induction js generalizing xs ts with
  | nil =>
    cases xs with
    | nil => simp [feedThen, loopStable, exec, out_bind_ok, addSome, hj, WStream.unwrapStable, if_pos hk, tried_ok]
    | cons _ _ => cases h
  | cons i js ih =>
    simp only [State.streams, bind_ok, Out.ok.injEq] at h
    obtain ⟨x, hx, ys, hys, e⟩ := h
    cases xs with
    | nil => cases e
    | cons u xs =>
      rw [List.map_cons, List.cons.injEq] at e
      obtain ⟨rfl, rfl⟩ := e
      simp only [feedThen, loopStable, exec, out_bind_ok, addStable, hx, WStream.unwrapStable, if_true, tried_ok]
      rw [ih hys, List.flatten_cons, List.append_assoc ts]

/-- **C113.** A `size_hint` that panics while a stream of the fallback is extended with streams: the stream has got all the trees of the
streams before, and the trees of the last one that were taken before, without the one that there was no place for. -/
theorem C113_size_hint {s : State Deferred} {i j k : Nat} {js : List Nat} {ts us : List Tree} {xs : List (List Tree)} (hi : i ∉ j :: js)
    (hx : s.vars[i]? = some (.stream (.fallback ts))) (hjs : HaveStreams s js (xs.map .fallback))
    (hj : s.vars[j]? = some (.stream (.fallback us))) (hk : k < us.length) :
    exec (.extendStreams i (feedThen (.hint .skip j k) js)) s =
      .ok (s.set i (.stream (.fallback (ts ++ xs.flatten ++ us.take k))), .panicked) := by
  rw [List.mem_cons, not_or] at hi
  simp only [exec, stream_ok.mpr hx, out_bind_ok]
  rw [feed_hint (streams_hide hi.2 (streams_ok.mpr hjs)) (us := us) ?_ hk, out_bind_ok, set_set]
  rw [stream_ok]
  simp only [State.set]
  rw [List.getElem?_set_ne hi.1, hj]

/-- **C113.** Panics or not, a script changes no variables but those it assigns to. -/
theorem C113_others {c : Script} {s s' : State Deferred} {e : End} (h : exec c s = .ok (s', e)) {j : Nat}
    (hj : j < s.vars.length) (hn : j ∉ targets c) : s'.vars[j]? = s.vars[j]? := by
  rw [exec_runAll] at h
  exact (kept_script c s _ h).2 j hj hn

/-- **C113.** In one mode there is no mismatch, also if panics are caught, and all values stay of this mode. -/
theorem C113_mode {m : Bool} {c : Script} {s s' : State Deferred} {e : End}
    (hc : EveryOp (fun inside o => inside = m ∧ (m = false → ¬ Imports o)) c) (hs : ∀ v ∈ s.vars, ValueOf m v)
    (h : exec c s = .ok (s', e)) : e ≠ .mismatched ∧ ∀ v ∈ s'.vars, ValueOf m v := by
  have := mode_script c s hc hs
  rw [← exec_runAll, h] at this
  exact ⟨this.2, this.1⟩

/-- **C113.** Deferring is not seen, also after panics. -/
theorem C113_deferred (he : ∀ t : CTree, Compiler.enter t ≠ []) (c : Script) (s : State Deferred) :
    exec c (mapState now s) = mapOut (fun r => (mapState now r.1, r.2)) (exec c s) := by
  rw [exec_runAll, exec_runAll]
  refine sim_script (sim_now he) (fun d ds => ?_) c s
  have h1 : d.evaluateNow.stream = (now d).tokens := intoStream_now d
  have h2 : ds.map Deferred.intoStream = (ds.map now).map Eager.tokens := by
    rw [List.map_map]
    exact List.map_congr_left fun d _ => intoStream_now d
  simp only [Torn.torn, now, evaluateNow_extra, List.flatMap_nil, List.append_nil, h2]
  rw [h1]
  rfl

section
variable [LawfulUnicode]

/-- **C113.** Every script ends, and panics that are caught are no obstacle to what follows: the thread knows all spans that the variables
have, and the next call panics exactly if it is one of `Panics`. Spans may be invalidated, also by an iterator, when nobody has any. -/
theorem C113_panics {K : Span → Prop} {s : State Deferred} {texts : List (List Char)} (h : Session s.sm texts K)
    (hk : ∀ sp, HasSpan s sp → K sp) {c : Script} (hc : LiveScript (fun _ => False) c s) :
    (exec c s = .ill ∨ ∃ r, exec c s = .ok r) ∧ ∀ s' e, exec c s = .ok (s', e) →
      ∃ texts' K', Session s'.sm texts' K' ∧ (∀ sp, HasSpan s' sp → K' sp) ∧
        ∀ inside o, ¬ TakesIterator o → Live s' o → CText o →
          ((∃ s'', exec (.op inside o) s' = .ok (s'', .panicked)) ↔ Panics inside texts' s' o) := by
  have hh := known_script c hc ⟨K, ⟨texts, h⟩, fun v hv sp hsp => hk sp ⟨v, hv, hsp⟩, fun _ => False.elim⟩
  rw [← exec_runAll] at hh
  refine ⟨?_, fun s' e hs => ?_⟩
  · revert hh
    cases exec c s with
    | ok r => exact fun _ => .inr ⟨r, rfl⟩
    | ill => exact fun _ => .inl rfl
    | _ => exact False.elim
  rw [hs] at hh
  obtain ⟨K', ⟨texts', h1⟩, h2, -⟩ := hh
  have hk' : ∀ sp, HasSpan s' sp → K' sp := fun sp ⟨v, hv, hsp⟩ => h2 v hv sp hsp
  refine ⟨texts', K', h1, hk', fun inside o hp hl ht => ?_⟩
  rw [← (C95_panic h1 hk' hl ht inside).1]
  exact (C113_calls hp inside s').2.1

/-- **C113.** A call without an iterator that panics has changed nothing; only the iterator over a compiler's stream has lost the token
that it rejected. -/
theorem C113_unwound {K : Span → Prop} {s s' : State Deferred} {texts : List (List Char)} (h : Session s.sm texts K)
    (hk : ∀ sp, HasSpan s sp → K sp) {inside : Bool} {o : Op} {e : End} (hl : Live s o) (ho : CText o)
    (hx : exec (.op inside o) s = .ok (s', e))
    (he : e ≠ .returned) :
    ((∀ i, o ≠ .next i) → s' = s) ∧
    ∀ i, o = .next i → ∃ t ts, s.vars[i]? = some (.iterC (t :: ts)) ∧ s' = s.set i (.iterC ts) := by
  have hp := C95_panic h hk hl ho inside
  have hs : s' = leave inside s o ∧ (Wrap.step inside s o = .panic ∨ Wrap.step inside s o = .mismatch) := by
    simp only [exec] at hx
    split at hx
    · cases hx
    cases hst : Wrap.step inside s o with
    | ok s2 => rw [hst] at hx; cases hx; exact absurd rfl he
    | panic => rw [hst] at hx; cases hx; exact ⟨rfl, .inl rfl⟩
    | mismatch => rw [hst] at hx; cases hx; exact ⟨rfl, .inr rfl⟩
    | diverge => rw [hst] at hx; cases hx
    | ill => rw [hst] at hx; cases hx
  obtain ⟨rfl, hs⟩ := hs
  have hw := (Session.hist h).wf
  have hn := (Session.hist h).holds.2.nextPos
  cases o with
  | fromStr src =>
    refine ⟨fun _ => ?_, fun i hi => by cases hi⟩
    have hr : ¬ Room texts src := by
      rcases hs with hs | hs
      · exact hp.1.mp hs
      · exfalso
        revert hs
        simp only [Wrap.step, WStream.fromStr, fromStr2]
        generalize TokenStream.fromStr s.sm src = r
        obtain ⟨sm, r⟩ := r
        cases inside <;> cases r <;> (try cases Compiler.parseStream src) <;> exact fun h => nomatch h
    have := (getCursor_panic hw hl (by rw [hn]; exact hr)).1
    have e2 : (leave inside s (.fromStr src)).sm = (TokenStream.fromStr s.sm src).1 := by cases inside <;> rfl
    rw [this] at e2
    show (⟨(leave inside s (.fromStr src)).sm, s.vars⟩ : State Deferred) = s
    rw [e2]
  | literalFromStr src =>
    refine ⟨fun _ => ?_, fun i hi => by cases hi⟩
    have hr : ¬ Room texts src := by
      rcases hs with hs | hs
      · exact hp.1.mp hs
      · exfalso
        revert hs
        simp only [Wrap.step, literalFromStr, fromStr2]
        generalize Literal.fromStr s.sm src = r
        obtain ⟨sm, r⟩ := r
        cases inside <;> cases r <;> (try cases Compiler.parseLiteral src) <;> exact fun h => nomatch h
    have := (getCursor_panic hw hl (by rw [hn]; exact hr)).2
    have e2 : (leave inside s (.literalFromStr src)).sm = (Literal.fromStr s.sm src).1 := by cases inside <;> rfl
    rw [this] at e2
    show (⟨(leave inside s (.literalFromStr src)).sm, s.vars⟩ : State Deferred) = s
    rw [e2]
  | next i =>
    refine ⟨fun h => absurd rfl (h i), fun j hj => ?_⟩
    cases hj
    simp only [Wrap.step] at hs
    simp only [leave]
    split
    · rename_i t ts e
      exact ⟨t, ts, e, rfl⟩
    · rename_i hne
      exfalso
      rcases hs with hs | hs <;>
      · split at hs <;> first | (rename_i t ts e; exact hne _ _ e) | cases hs
  | _ => exact ⟨fun _ => rfl, fun i hi => by cases hi⟩

end

end

/-! ## Concrete cases -/

section examples

attribute [local instance] sampleCompiler sampleTables sampleTables_lawful

/-- A compiler whose interrupted `extend` leaves the stream as it was. -/
local instance : Unwinding := ⟨fun ts _ => ts⟩

private def scriptTexts {σ : Type} : Out (State σ × End) → Option (Nat × List (List Char) × End)
  | .ok (s, e) => some (s.vars.length, s.vars.filterMap (fun | .text t => some t | _ => none), e)
  | _ => none

private def scriptOf : List Script → Script
  | [] => .skip
  | c :: cs => .seq c (scriptOf cs)

/-- A stream and a literal of the compiler, a literal and a stream of the fallback. -/
private def fourVars : List Script :=
  [.op true .new, .op true (.literalNew ['5']), .op false (.literalNew ['-', '6']), .op false .new]

/-- An iterator makes a literal, and then returns one that the stream does not take; the panic is caught. The stream has two more
trees, and the literal that the iterator made is gone. -/
private def caughtEx : Script :=
  scriptOf (fourVars ++ [.catch_ (.extendTrees 0 (.yield .skip 1 (.yield (.op true (.literalNew ['7'])) 4 (feedOf .skip [2, 1])))),
    .op true (.display 0)])

example : scriptTexts (exec caughtEx (State.init : State Deferred)) = some (5, [['5', ' ', '7', ' ']], .returned) := by decide +kernel

/-- While a stream of the fallback is extended, the iterator extends the compiler's stream, and panics with a mismatch, which is
not caught in the iterator. Both streams have got their trees; the negative literal is split. -/
private def nestedEx : Script :=
  scriptOf (fourVars ++ [.catch_ (.extendTrees 3 (.yield .skip 2 (.yield (.extendTrees 0 (feedOf .skip [1, 1, 2])) 2 (feedOf .skip [2])))),
    .op true (.display 0), .op false (.display 3)])

example : scriptTexts (exec nestedEx (State.init : State Deferred)) =
    some (6, [['5', ' ', '5', ' '], ['-', ' ', '6']], .returned) := by decide +kernel

/-- A compiler's stream is extended with streams, and the iterator panics. What was appended before is there. -/
private def tornEx : Script :=
  scriptOf (fourVars ++ [.op true (.clone 0), .extendTrees 4 (feedOf .skip [1]), .extendTrees 0 (feedOf .skip [1, 1]),
    .catch_ (.extendStreams 0 (feedOf .panic [4])), .op true (.display 0), .op true (.display 4)])

example : scriptTexts (exec tornEx (State.init : State Deferred)) =
    some (7, [['5', ' ', '5', ' '], ['5', ' ']], .returned) := by decide +kernel

/-- C113_extend_trees, C113_mismatch, C113_extend_streams: their conditions. -/
private def sixVars : State Deferred :=
  ⟨SourceMap.init, [.stream (.compiler ⟨[], []⟩), .tree (.identC (['x'], (3 : Nat))), .tree (.identF ['y'] false ⟨0, 0⟩),
    .stream (.fallback []), .stream (.compiler ⟨[], [.ident (['z'], (4 : Nat))]⟩), .stream (.fallback [.identF ['y'] false ⟨0, 0⟩])]⟩

example : (∃ s', Wrap.step true sixVars (.extendTrees 0 [1, 1]) = .ok s') ∧ (∃ s', Wrap.step true sixVars (.extendTrees 3 [1, 2]) = .ok s') ∧
    (∃ s', Wrap.step true sixVars (.extendStreams 0 [4, 4]) = .ok s') ∧ (∃ s', Wrap.step true sixVars (.extendStreams 3 [5]) = .ok s') ∧
    sixVars.vars[2]? = some (.tree (.identF ['y'] false ⟨0, 0⟩)) ∧ treeMode (.identF ['y'] false ⟨0, 0⟩) = false :=
  ⟨⟨_, rfl⟩, ⟨_, rfl⟩, ⟨_, rfl⟩, ⟨_, rfl⟩, rfl, rfl⟩

/-- C113_size_hint: a stream is extended with two streams, and the second has three trees. -/
example :
    let s : State Deferred := ⟨SourceMap.init, [.stream (.fallback []), .stream (.fallback [.identF ['y'] false ⟨0, 0⟩]),
      .stream (.fallback [.identF ['a'] false ⟨0, 0⟩, .identF ['b'] false ⟨0, 0⟩, .identF ['c'] false ⟨0, 0⟩])]⟩
    0 ∉ 2 :: [1] ∧ HaveStreams s [1] ([[.identF ['y'] false ⟨0, 0⟩]].map .fallback) ∧
      scriptTexts (exec (.seq (.catch_ (.extendStreams 0 (feedThen (.hint .skip 2 1) [1]))) (.op false (.display 0))) s) =
        some (4, [['y', ' ', 'a']], .returned) :=
  ⟨by decide, rfl, by decide +kernel⟩

/-- C113_others: the script has a variable that it does not assign to. -/
example : targets nestedEx = [3, 0] := by decide +kernel

/-- C113_mode: a script of one mode, with a panic that is caught. -/
private def modeEx : Script :=
  scriptOf [.op true .new, .op true (.literalNew ['5']), .catch_ (.extendTrees 0 (feedOf .panic [1, 1])), .op true (.display 0)]

example : EveryOp (fun inside o => inside = true ∧ (true = false → ¬ Imports o)) modeEx ∧
    scriptTexts (exec modeEx (State.init : State Deferred)) = some (3, [['5', ' ', '5', ' ']], .returned) := by
  refine ⟨?_, by decide +kernel⟩
  simp [modeEx, scriptOf, EveryOp, EveryFeedOp, feedOf]

/-- C113_calls: a call without an iterator. -/
example : ¬ TakesIterator (.next 0) := nofun

/-- C113_panics: a script with calls that panic; afterwards, a call that panics and one that does not. -/
private def tameEx : Script :=
  scriptOf [.op false (.literalFromStr ['1']), .op false (.span 0), .catch_ (.op false (.unwrap 1)), .catch_ (.op false (.punctNew 'a' .alone))]

private theorem live_op {H : Span → Prop} {s : State Deferred} {inside : Bool} {o : Op} (h : Live s o) (ht : CText o) (hi : o ≠ .invalidate) :
    LiveScript H (.op inside o) s := by
  simp only [LiveScript]
  exact ⟨h, ht, fun e => absurd e hi⟩

private theorem live_seq {H : Span → Prop} {s s1 : State Deferred} {c d : Script} (h : LiveScript H c s)
    (hr : exec c s = .ok (s1, .returned)) (hd : LiveScript H d s1) : LiveScript H (.seq c d) s := by
  simp only [LiveScript]
  refine ⟨h, fun s' e => ?_⟩
  rw [← exec_runAll, hr] at e
  cases e
  exact hd

example : LiveScript (fun _ => False) tameEx (State.init : State Deferred) ∧
    scriptTexts (exec tameEx (State.init : State Deferred)) = some (2, [], .returned) ∧
    scriptTexts (exec (.seq tameEx (.op false (.unwrap 1))) (State.init : State Deferred)) = some (2, [], .panicked) ∧
    scriptTexts (exec (.seq tameEx (.op false (.sourceText 1))) (State.init : State Deferred)) = some (3, [['1']], .returned) := by
  refine ⟨?_, by decide +kernel, by decide +kernel, by decide +kernel⟩
  simp [tameEx, scriptOf, LiveScript, Live, CText]

/-- An iterator for a stream that is being extended invalidates all spans: neither the variables nor the stream has one of a text. -/
private def forgetEx : Script :=
  .seq (.op false .new) (.extendTrees 0 (.yield (.seq (.op false .invalidate) (.op false (.literalNew ['5']))) 2 (.stop .skip)))

example : LiveScript (fun _ => False) forgetEx (State.init : State Deferred) ∧
    scriptTexts (exec (.seq forgetEx (.op false (.display 0))) (State.init : State Deferred)) = some (4, [['5']], .returned) := by
  refine ⟨live_seq (live_op trivial trivial nofun) rfl ?_, by decide +kernel⟩
  simp only [LiveScript, LiveFeed]
  intro v hv
  cases hv
  refine ⟨⟨⟨?_, trivial, ?_⟩, fun s' _ => ⟨trivial, trivial, nofun⟩⟩, fun _ _ _ _ => trivial⟩
  · rintro sp ⟨v, hv, h⟩
    simp [State.set, State.push, State.init] at hv
    subst hv
    cases h
  · rintro - sp (h | h)
    · exact h.elim
    · cases h

/-- If a variable has a span of a text, spans are not to be invalidated. -/
example : ¬ LiveScript (fun _ => False) (.op false .invalidate) (⟨SourceMap.init, [.span (.fallback ⟨1, 2⟩)]⟩ : State Deferred) := by
  simp only [LiveScript]
  intro h
  exact absurd (h.1 ⟨1, 2⟩ ⟨_, .head _, .head _⟩) (by decide)

/-- C113_unwound: a compiler's stream with a token that is not punctuation. The iterator is after it, and returns the next token. -/
private def rejectEx : State Deferred := ⟨SourceMap.init, [.iterC [.punct 'a' .alone (3 : Nat), .punct '+' .alone (4 : Nat)]]⟩

example : exec (.op true (.next 0)) rejectEx = .ok (⟨SourceMap.init, [.iterC [.punct '+' .alone (4 : Nat)]]⟩, .panicked) ∧
    exec (.seq (.catch_ (.op true (.next 0))) (.op true (.next 0))) rejectEx =
      .ok (⟨SourceMap.init, [.iterC [], .tree (.punct '+' .alone (.compiler (4 : Nat)))]⟩, .returned) ∧
    Session rejectEx.sm [] (· = Span.callSite) ∧ ∀ sp, ¬ HasSpan rejectEx sp := by
  refine ⟨rfl, rfl, .init, ?_⟩
  rintro sp ⟨v, hv, h⟩
  simp only [rejectEx, List.mem_singleton] at hv
  subst hv
  cases h

end examples

end PM2.Props
